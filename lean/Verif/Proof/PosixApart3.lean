import Verif.Proof.PosixApart2

/-! Programs that do not name a file. -/

namespace Lsmdb
namespace Posix

open MemEnv (St lit)

namespace Conc

/-- All steps of the program are of this kind, and so is what it returns. -/
def Only {α : Type} (P : Cmd → Prop) (Q : α → Prop) : Prog α → Prop
  | .ret a => Q a
  | .call c k => P c ∧ ∀ r, Only P Q (k r)
  | .fault _ => True
  | .spin => True

variable {P : Cmd → Prop}

theorem only_bind {α β : Type} {p : Prog α} {f : α → Prog β} {Q : α → Prop} {R : β → Prop} (hp : Only P Q p) (hf : ∀ a, Q a → Only P R (f a)) :
    Only P R (p >>= f) := by
  induction p with
  | ret a => exact hf a hp
  | call c k ih => exact ⟨hp.1, fun r => ih r (hp.2 r)⟩
  | fault e => trivial
  | spin => trivial

theorem only_then {β : Type} {c : Cmd} {f : c.Resp → Prog β} {R : β → Prop} (hc : P c) (hf : ∀ r, Only P R (f r)) : Only P R (c.go >>= f) :=
  ⟨hc, hf⟩

theorem only_ofM {α β : Type} {x : M α} {f : α → Prog β} {R : β → Prop} (hf : ∀ a, x = .ok a → Only P R (f a)) : Only P R (Prog.ofM x >>= f) := by
  cases x with
  | error e => trivial
  | ok a => exact hf a rfl

/-- The steps that name nothing are fine. -/
structure Lax (P : Cmd → Prop) : Prop where
  close : ∀ fd, P (.close fd)
  read : ∀ fd n, P (.read fd n)
  pread : ∀ fd n o, P (.pread fd n o)
  lseek : ∀ fd o, P (.lseek fd o)
  write : ∀ fd d, P (.write fd d)
  sync : ∀ fd, P (.sync fd)
  stat : ∀ p, P (.stat p)
  access : ∀ p, P (.access p)
  mmap : ∀ fd n, P (.mmap fd n)
  munmap : ∀ m, P (.munmap m)
  other : ∀ fd, P (.other fd)
  readdir : ∀ fd l, P (.readdir fd l)
  sub : ∀ l, P (.fetchSub l)
  add : ∀ l, P (.fetchAdd l)
  insert : ∀ n, P (.insert n)
  remove : ∀ n, P (.remove n)

variable (L : Lax P) (strerror : Strerror) (full : Bool) (fuel : Nat)

include L

theorem only_Acquire (l : Lim) : Only P (fun _ => True) (Acquire l) := by
  refine only_then (L.sub l) fun r => ?_
  by_cases h : (show Int from r) > 0
  · rw [if_pos h]; trivial
  · rw [if_neg h]; exact only_then (L.add l) fun _ => trivial

theorem only_Release (l : Lim) : Only P (fun _ => True) (Release l) := only_then (L.add l) fun _ => trivial

theorem only_seqReadLoop (f : SeqFile) (n cap : Nat) : Only P (fun _ => True) (seqReadLoop strerror f n cap fuel) := by
  induction fuel with
  | zero => trivial
  | succ fuel ih =>
    refine only_then (L.read _ _) fun r => ?_
    match r with
    | .error e =>
      show Only P _ (if e = EINTR then _ else _)
      split
      · exact ih
      · trivial
    | .ok d =>
      show Only P _ (if _ then _ else _)
      split <;> trivial

theorem only_seqSkip (f : SeqFile) (n : Nat) : Only P (fun _ => True) (seqSkip strerror f n) := by
  refine only_then (L.lseek _ _) fun r => ?_
  match r with
  | .error e => trivial
  | .ok _ => trivial

theorem only_newRandFile (filename : Bytes) (fd : Int) : Only P (fun f => f.filename = filename) (newRandFile filename fd) := by
  refine only_bind (only_Acquire L .fd) fun b _ => ?_
  cases b with
  | true => exact rfl
  | false => exact only_ofM fun _ _ => only_then (L.close _) fun _ => rfl

theorem only_randDestroy (f : RandFile) : Only P (fun _ => True) (randDestroy f) := by
  unfold randDestroy
  split
  · exact only_ofM fun _ _ => only_then (L.close _) fun _ => only_Release L .fd
  · trivial

theorem only_randRead (f : RandFile) (offset n cap : Nat) (hf : f.has_permanent_fd = false → P (.open .rdonly f.filename)) :
    Only P (fun _ => True) (randRead strerror f offset n cap) := by
  have h1 : Only P (fun _ => True) (randFd f) := by
    obtain ⟨b, fd, n⟩ := f
    cases b with
    | true => trivial
    | false => exact ⟨hf rfl, fun _ => trivial⟩
  refine only_bind h1 fun r _ => ?_
  match r with
  | .error e => trivial
  | .ok fd =>
    refine only_ofM fun _ _ => only_then (L.pread _ _ _) fun r => ?_
    have h2 : Only P (fun _ => True) (randRes strerror f cap r) := by
      match r with
      | .error e => trivial
      | .ok d =>
        show Only P _ (if _ then _ else _)
        split <;> trivial
    refine only_bind h2 fun res _ => ?_
    split
    · trivial
    · exact only_ofM fun _ _ => only_then (L.close _) fun _ => trivial

theorem only_mmapDestroy (f : MmapFile) : Only P (fun _ => True) (mmapDestroy f) :=
  only_then (L.munmap _) fun _ => only_Release L .mmap

theorem only_writeLoop (fd : Int) (filename : Bytes) : ∀ (fuel : Nat) (d : Bytes), Only P (fun _ => True) (writeLoop strerror fd filename fuel d) := by
  intro fuel
  induction fuel with
  | zero => intro d; trivial
  | succ fuel ih =>
    intro d
    unfold writeLoop
    split
    · refine only_then (L.write _ _) fun r => ?_
      match r with
      | .error e =>
        show Only P _ (if e = EINTR then _ else _)
        split
        · exact ih d
        · trivial
      | .ok n => exact ih _
    · trivial

/-- A call on a writable file keeps the directory. -/
def Keep (f : WFile) (x : St × WFile) : Prop := (x.2.dirname, x.2.is_manifest) = (f.dirname, f.is_manifest)

theorem only_FlushBuffer (f : WFile) : Only P (Keep f) (FlushBuffer strerror fuel f) :=
  only_ofM fun _ _ => only_bind (only_writeLoop L strerror _ _ _ _) fun _ _ => rfl

theorem only_appendRest (f : WFile) (d : Bytes) (n : Nat) : Only P (Keep f) (appendRest strerror fuel f d n) := by
  unfold appendRest
  split
  · exact only_ofM fun _ _ => rfl
  · exact only_bind (only_writeLoop L strerror _ _ _ _) fun _ _ => rfl

theorem only_Append (f : WFile) (d : Slice) : Only P (Keep f) (Append strerror fuel f d) := by
  refine only_ofM fun b _ => only_ofM fun buf _ => ?_
  dsimp only
  split
  · exact rfl
  · refine only_bind (only_FlushBuffer L strerror fuel _) fun x hx => ?_
    obtain ⟨s, f1⟩ := x
    show Only P _ (if s ≠ .ok then _ else _)
    split
    · exact hx
    · have := only_appendRest L strerror fuel f1 (b.drop (min d.len (kWritableFileBufferSize - f.pos))) (d.len - min d.len (kWritableFileBufferSize - f.pos))
      unfold Keep at hx this ⊢
      rw [hx] at this
      exact this

theorem only_Close (f : WFile) : Only P (Keep f) (Close strerror fuel f) := by
  refine only_bind (only_FlushBuffer L strerror fuel f) fun x hx => ?_
  obtain ⟨s, f1⟩ := x
  exact only_then (L.close _) fun r => hx

theorem only_SyncFd (fd : Int) (n : Bytes) : Only P (fun _ => True) (SyncFd strerror full fd n) := by
  have h1 : Only P (fun _ => True) (fullSync full fd) := by
    cases full with
    | true => exact ⟨L.sync _, fun _ => trivial⟩
    | false => trivial
  refine only_bind h1 fun r _ => ?_
  match r with
  | .ok _ => trivial
  | .error _ =>
    refine only_then (L.sync _) fun r => ?_
    match r with
    | .ok _ => trivial
    | .error _ => trivial

theorem only_SyncDir (f : WFile) (hf : P (.open .rdonly f.dirname)) : Only P (fun _ => True) (SyncDirIfManifest strerror full f) := by
  unfold SyncDirIfManifest
  split
  · refine only_then hf fun r => ?_
    match r with
    | .error e => trivial
    | .ok fd => exact only_bind (only_SyncFd L strerror full fd _) fun _ _ => only_then (L.close _) fun _ => trivial
  · trivial

theorem only_Sync (f : WFile) (hf : P (.open .rdonly f.dirname)) : Only P (Keep f) (Sync strerror full fuel f) := by
  refine only_bind (only_SyncDir L strerror full f hf) fun s _ => ?_
  split
  · exact rfl
  · refine only_bind (only_FlushBuffer L strerror fuel f) fun x hx => ?_
    obtain ⟨s, f1⟩ := x
    show Only P _ (if s ≠ .ok then _ else _)
    split
    · exact hx
    · exact only_bind (only_SyncFd L strerror full _ _) fun _ _ => hx

theorem only_wstep (f : WFile) (hf : P (.open .rdonly f.dirname)) (op : WOp) : Only P (Keep f) (wstep strerror full fuel f op) := by
  cases op with
  | append d => exact only_Append L strerror fuel f d
  | flush => exact only_FlushBuffer L strerror fuel f
  | sync => exact only_Sync L strerror full fuel f hf
  | close => exact only_Close L strerror fuel f

theorem only_wDestroy (f : WFile) : Only P (fun _ => True) (wDestroy strerror fuel f) := by
  unfold wDestroy
  split
  · exact only_bind (only_Close L strerror fuel f) fun _ _ => trivial
  · trivial

/-- An object that names nothing bad later. -/
def Fine (P : Cmd → Prop) : Obj → Prop
  | .rand f => f.has_permanent_fd = false → P (.open .rdonly f.filename)
  | .wr f => P (.open .rdonly f.dirname)
  | _ => True

/-- What a call returns is such an object. -/
def FineEnd (P : Cmd → Prop) : Fin → Prop
  | .new o => Fine P o
  | .back (some o) _ => Fine P o
  | .back none _ => True

theorem only_NewSequentialFile (n : Bytes) (hn : P (.open .rdonly n)) : Only P (FineEnd P) (NewSequentialFile strerror n) := by
  refine only_then hn fun r => ?_
  match r with
  | .error e => trivial
  | .ok fd => trivial

theorem only_GetFileSize (n : Bytes) : Only P (fun _ => True) (GetFileSize strerror n) := by
  refine only_then (L.stat _) fun r => ?_
  match r with
  | .error e => trivial
  | .ok fd => trivial

theorem only_mapFile (fd : Int) (n : Bytes) : Only P (fun x => ∀ o, x.2 = some o → Fine P o) (mapFile strerror fd n) := by
  refine only_bind (only_GetFileSize L strerror n) fun x _ => ?_
  obtain ⟨s, m⟩ := x
  show Only P _ (if s = .ok then _ else _)
  split
  · refine only_then (L.mmap _ _) fun r => ?_
    match r with
    | .ok b => intro o ho; injection ho with ho; subst ho; trivial
    | .error e => exact fun o ho => nomatch ho
  · exact fun o ho => nomatch ho

theorem only_NewRandomAccessFile (n : Bytes) (hn : P (.open .rdonly n)) : Only P (FineEnd P) (NewRandomAccessFile strerror n) := by
  refine only_then hn fun r => ?_
  match r with
  | .error e => trivial
  | .ok fd =>
    refine only_bind (only_Acquire L .mmap) fun b _ => ?_
    split
    · refine only_bind (only_mapFile L strerror fd n) fun x hx => ?_
      obtain ⟨s, o⟩ := x
      refine only_then (L.close _) fun _ => ?_
      cases o with
      | some o => exact hx o rfl
      | none => exact only_bind (only_Release L .mmap) fun _ _ => trivial
    · refine only_bind (only_newRandFile L n fd) fun f hf => ?_
      exact fun _ => by rw [show f.filename = n from hf]; exact hn

theorem only_newWFile (m : Mode) (n : Bytes) (hn : P (.open m n)) (hd : ∀ d, Dirname n = .ok d → P (.open .rdonly d)) :
    Only P (FineEnd P) (newWFile strerror m n) := by
  refine only_then hn fun r => ?_
  match r with
  | .error e => trivial
  | .ok fd =>
    refine only_ofM fun f hf => ?_
    show P _
    have : Dirname n = .ok f.dirname := by
      unfold WFile.new at hf
      cases h1 : IsManifest n with
      | error e => rw [h1] at hf; exact nomatch hf
      | ok b =>
        rw [h1] at hf
        cases h2 : Dirname n with
        | error e => rw [h2] at hf; exact nomatch hf
        | ok d =>
          rw [h2] at hf
          injection hf with hf
          subst hf
          rfl
    exact hd _ this

theorem only_FileExists (n : Bytes) : Only P (fun _ => True) (FileExists n) := by
  refine only_then (L.access _) fun r => ?_
  match r with
  | .ok _ => trivial
  | .error _ => trivial

theorem only_readdirLoop (fd : Int) : ∀ (fuel : Nat) (a b : List Bytes), Only P (fun _ => True) (readdirLoop fd fuel a b) := by
  intro fuel
  induction fuel with
  | zero => intro a b; trivial
  | succ fuel ih =>
    intro a b
    refine only_then (L.readdir _ _) fun r => ?_
    match r with
    | none => trivial
    | some d => exact ih _ _

theorem only_GetChildren (n : Bytes) (hn : P (.opendir n)) : Only P (fun _ => True) (GetChildren strerror fuel n) := by
  refine only_then hn fun r => ?_
  match r with
  | .error e => trivial
  | .ok (fd, l) => exact only_bind (only_readdirLoop L fd _ _ _) fun _ _ => only_then (L.close _) fun _ => trivial

theorem only_LockFile (n : Bytes) (hn : P (.open .rdwr n)) : Only P (FineEnd P) (LockFile strerror n) := by
  refine only_then hn fun r => ?_
  match r with
  | .error e => trivial
  | .ok fd =>
    refine only_then (L.insert _) fun b => ?_
    match b with
    | true =>
      refine only_then (L.other _) fun r => ?_
      match r with
      | .error e => exact only_then (L.close _) fun _ => only_then (L.remove _) fun _ => trivial
      | .ok _ => trivial
    | false => exact only_then (L.close _) fun _ => trivial

theorem only_UnlockFile (fd : Int) (n : Bytes) : Only P (FineEnd P) (UnlockFile strerror fd n) := by
  refine only_then (L.other _) fun r => ?_
  match r with
  | .error e => trivial
  | .ok _ => exact only_then (L.remove _) fun _ => only_then (L.close _) fun _ => trivial

theorem only_NewLogger (n : Bytes) (hn : P (.open .append n)) : Only P (FineEnd P) (NewLogger strerror n) := by
  refine only_then hn fun r => ?_
  match r with
  | .error e => trivial
  | .ok fd =>
    refine only_then (L.other _) fun r => ?_
    match r with
    | .error e =>
      refine only_then (L.close _) fun r => ?_
      match r with
      | .error e => trivial
      | .ok _ => trivial
    | .ok _ => trivial

theorem only_destroy (o : Obj) : Only P (fun _ => True) (destroy strerror fuel o) := by
  cases o with
  | seq f => exact only_then (L.close _) fun _ => trivial
  | rand f => exact only_randDestroy L f
  | mmap f => exact only_mmapDestroy L f
  | wr f => exact only_wDestroy L strerror fuel f
  | logger fd => exact only_then (L.close _) fun _ => trivial
  | lock fd n => trivial

/-- What the paths a call names need. -/
def Naming (P : Cmd → Prop) : POp → Prop
  | .newSequential n => P (.open .rdonly n)
  | .newRandomAccess n => P (.open .rdonly n)
  | .newWritable n => P (.open .trunc n) ∧ ∀ d, Dirname n = .ok d → P (.open .rdonly d)
  | .newAppendable n => P (.open .append n) ∧ ∀ d, Dirname n = .ok d → P (.open .rdonly d)
  | .newLogger n => P (.open .append n)
  | .getChildren n => P (.opendir n)
  | .removeFile n => P (.unlink n)
  | .createDir n => P (.mkdir n)
  | .removeDir n => P (.rmdir n)
  | .renameFile a b => P (.rename a b)
  | .lockFile n => P (.open .rdwr n)
  | _ => True

theorem only_body {op : POp} {o : Option Obj} (hop : Naming P op) (ho : ∀ x, o = some x → Fine P x) :
    Only P (FineEnd P) (body strerror full fuel op o) := by
  cases op with
  | newSequential n => exact only_NewSequentialFile L strerror n hop
  | newRandomAccess n => exact only_NewRandomAccessFile L strerror n hop
  | newWritable n => exact only_newWFile L strerror .trunc n hop.1 hop.2
  | newAppendable n => exact only_newWFile L strerror .append n hop.1 hop.2
  | newLogger n => exact only_NewLogger L strerror n hop
  | fileExists n => exact only_bind (only_FileExists L n) fun _ _ => trivial
  | getChildren n => exact only_bind (only_GetChildren L strerror fuel n hop) fun _ _ => trivial
  | removeFile n => exact only_then hop fun _ => trivial
  | createDir n => exact only_then hop fun _ => trivial
  | removeDir n => exact only_then hop fun _ => trivial
  | getFileSize n => exact only_bind (only_GetFileSize L strerror n) fun _ _ => trivial
  | renameFile a b => exact only_then hop fun _ => trivial
  | lockFile n => exact only_LockFile L strerror n hop
  | unlockFile h =>
    cases o with
    | none => trivial
    | some o =>
      cases o with
      | lock fd n => exact only_UnlockFile L strerror fd n
      | _ => trivial
  | seqRead h n =>
    cases o with
    | none => trivial
    | some o =>
      cases o with
      | seq f => exact only_bind (only_seqReadLoop L strerror fuel f n n) fun _ _ => trivial
      | _ => trivial
  | seqSkip h n =>
    cases o with
    | none => trivial
    | some o =>
      cases o with
      | seq f => exact only_bind (only_seqSkip L strerror f n) fun _ _ => trivial
      | _ => trivial
  | randRead h a n =>
    cases o with
    | none => trivial
    | some o =>
      cases o with
      | rand f => exact only_bind (only_randRead L strerror f a n n (ho _ rfl)) fun _ _ => trivial
      | mmap f => trivial
      | _ => trivial
  | write h x =>
    cases o with
    | none => trivial
    | some o =>
      cases o with
      | wr f =>
        refine only_bind (only_wstep L strerror full fuel f (ho _ rfl) x) fun y hy => ?_
        show P _
        rw [show y.2.dirname = f.dirname from (Prod.mk.inj hy).1]
        exact ho _ rfl
      | _ => trivial
  | delete h =>
    cases o with
    | none => trivial
    | some o => exact only_bind (only_destroy L strerror fuel o) fun _ _ => trivial

end Conc
end Posix
end Lsmdb
