import Verif.Proof.PosixRand

/-! # Parts of the system state a piece of code does not touch -/

namespace Lsmdb
namespace Posix

open MemEnv (St lit)

/-- If others leave the relation alone, the code does so too. -/
structure Pres (R : Kernel → Kernel → Prop) {α : Type} (x : P α) : Prop where
  out : ∀ w a w', (∀ c ∈ w.choices, ∀ k, R k (c.other k)) → x w = .done a w' → R w.k w'.k ∧ w'.choices <:+ w.choices

/-- Equal under a projection. -/
def SameAt {β : Type} (f : Kernel → β) (k k' : Kernel) : Prop := f k' = f k

section
variable {β : Type} {π : Kernel → β}

theorem Pres.pure {α : Type} (a : α) : Pres (SameAt π) (Pure.pure a : P α) := by
  refine ⟨fun w a' w' _ h => ?_⟩
  rw [pure_eq] at h
  injection h with _ h
  subst h
  exact ⟨rfl, List.suffix_refl _⟩

theorem Pres.pureM {α : Type} (x : M α) : Pres (SameAt π) (Posix.pureM x) := by
  refine ⟨fun w a' w' _ h => ?_⟩
  unfold Posix.pureM at h
  cases x with
  | error e => exact nomatch h
  | ok a =>
    injection h with _ h
    subst h
    exact ⟨rfl, List.suffix_refl _⟩

theorem Pres.fault {α : Type} (f : Fault) : Pres (SameAt π) (fun _ => .fault f : P α) :=
  ⟨fun _ _ _ _ h => nomatch h⟩

theorem Pres.bind {α γ : Type} {x : P α} {f : α → P γ} (hx : Pres (SameAt π) x) (hf : ∀ a, Pres (SameAt π) (f a)) :
    Pres (SameAt π) (x >>= f) := by
  refine ⟨fun w b w' hc h => ?_⟩
  rw [bind_eq] at h
  cases h1 : x w with
  | crash w1 => rw [h1] at h; exact nomatch h
  | fault e => rw [h1] at h; exact nomatch h
  | done a w1 =>
    rw [h1] at h
    obtain ⟨g1, g2⟩ := hx.out w a w1 hc h1
    obtain ⟨g3, g4⟩ := (hf a).out w1 b w' (fun c hm => hc c (g2.subset hm)) h
    exact ⟨g3.trans g1, g4.trans g2⟩

theorem Pres.dep {α : Type} {g : Nat → P α} (n : World → Nat) (h : ∀ n, Pres (SameAt π) (g n)) :
    Pres (SameAt π) (fun w => g (n w) w) := by
  refine ⟨fun w a w' hc he => (h (n w)).out w a w' hc he⟩

theorem Pres.sys {α : Type} {call : α → List Call} {f : Choice → Kernel → α × Kernel}
    (h : ∀ c k, π (f c k).2 = π k) : Pres (SameAt π) (Posix.sys call f) := by
  refine ⟨fun w a w' hc he => ?_⟩
  unfold Posix.sys at he
  cases hw : w.choices with
  | nil => rw [hw] at he; exact nomatch he
  | cons c cs =>
    rw [hw] at he hc
    injection he with h1 h2
    subst h2
    exact ⟨(h c _).trans (hc c List.mem_cons_self w.k), List.suffix_cons _ _⟩
end

/-- Split every match and close by reflexivity. -/
macro "sys_pres" : tactic => `(tactic| (refine Pres.sys fun c k => ?_; (try dsimp only []); (repeat' split) <;> rfl))

/-! ## Mappings -/

abbrev MapsP {α : Type} (x : P α) : Prop := Pres (SameAt Kernel.maps) x

theorem setName_maps (k : Kernel) (p : Bytes) (v : Option Nat) : (k.setName p v).maps = k.maps := rfl

theorem kopen_maps (m : Mode) (p : Bytes) (k : Kernel) : (kopen m p k).2.maps = k.maps := by
  unfold kopen
  dsimp only []
  repeat' split
  all_goals rfl

theorem sysOpen_maps (m : Mode) (p : Bytes) : MapsP (sysOpen m p) := by
  refine Pres.sys fun c k => ?_
  split
  · rfl
  · exact kopen_maps m _ k
theorem sysClose_maps (fd : Int) : MapsP (sysClose fd) := by unfold sysClose; sys_pres
theorem sysRead_maps (fd : Int) (n : Nat) : MapsP (sysRead fd n) := by unfold sysRead kread; sys_pres
theorem sysPread_maps (fd : Int) (n : Nat) (o : Int) : MapsP (sysPread fd n o) := by unfold sysPread; sys_pres
theorem sysLseekCur_maps (fd : Int) (o : Int) : MapsP (sysLseekCur fd o) := by unfold sysLseekCur; sys_pres
theorem sysWrite_maps (fd : Int) (d : Bytes) : MapsP (sysWrite fd d) := by unfold sysWrite kwrite; sys_pres
theorem sysSync_maps (fd : Int) : MapsP (sysSync fd) := by unfold sysSync ksync; sys_pres
theorem sysStat_maps (p : Bytes) : MapsP (sysStat p) := by unfold sysStat; sys_pres
theorem sysAccess_maps (p : Bytes) : MapsP (sysAccess p) := by unfold sysAccess; sys_pres
theorem sysUnlink_maps (p : Bytes) : MapsP (sysUnlink p) := by unfold sysUnlink; sys_pres
theorem sysMkdir_maps (p : Bytes) : MapsP (sysMkdir p) := by unfold sysMkdir; sys_pres
theorem sysRmdir_maps (p : Bytes) : MapsP (sysRmdir p) := by unfold sysRmdir; sys_pres
theorem sysRename_maps (p q : Bytes) : MapsP (sysRename p q) := by unfold sysRename; sys_pres
theorem sysOther_maps : MapsP sysOther := by unfold sysOther; sys_pres
theorem sysReaddir_maps (l : List Bytes) : MapsP (sysReaddir l) := by unfold sysReaddir; sys_pres
theorem sysOpendir_maps (p : Bytes) : MapsP (sysOpendir p) := by
  refine Pres.sys fun c k => ?_
  dsimp only []
  repeat' split
  all_goals first | rfl | exact kopen_maps _ _ _

/-- Decompose. -/
macro "pres_tac" : tactic => `(tactic| repeat' first
  | exact Pres.pure _ | exact Pres.pureM _ | exact sysOpen_maps _ _ | exact sysClose_maps _ | exact sysPread_maps _ _ _
  | exact sysSync_maps _ | exact sysOther_maps | refine Pres.bind ?_ (fun _ => ?_) | split | dsimp only [])

variable (strerror : Strerror) (full : Bool)

theorem writeLoop_maps (fd : Int) (name : Bytes) : ∀ (fuel : Nat) (d : Bytes), MapsP (writeLoop strerror fd name fuel d) := by
  intro fuel
  induction fuel with
  | zero => intro d; exact Pres.fault _
  | succ fuel ih =>
    intro d
    unfold writeLoop
    split
    · refine Pres.bind (sysWrite_maps _ _) fun r => ?_
      split
      · split
        · exact ih _
        · exact Pres.pure _
      · exact ih _
    · exact Pres.pure _

theorem WriteUnbuffered_maps (f : WFile) (d : Bytes) : MapsP (f.WriteUnbuffered strerror d) :=
  Pres.dep (g := fun n => writeLoop strerror f.fd f.filename n d) (fun w => w.choices.length + 2)
    fun n => writeLoop_maps strerror f.fd f.filename n d

theorem FlushBuffer_maps (f : WFile) : MapsP (f.FlushBuffer strerror) :=
  Pres.bind (Pres.pureM _) fun _ => Pres.bind (WriteUnbuffered_maps strerror _ _) fun _ => Pres.pure _

theorem Append_maps (f : WFile) (d : Slice) : MapsP (f.Append strerror d) := by
  unfold WFile.Append
  refine Pres.bind (Pres.pureM _) fun _ => Pres.bind (Pres.pureM _) fun _ => ?_
  dsimp only []
  split
  · exact Pres.pure _
  · refine Pres.bind (FlushBuffer_maps strerror _) fun r => ?_
    split
    · exact Pres.pure _
    · split
      · exact Pres.bind (Pres.pureM _) fun _ => Pres.pure _
      · exact Pres.bind (WriteUnbuffered_maps strerror _ _) fun _ => Pres.pure _

theorem Close_maps (f : WFile) : MapsP (f.Close strerror) :=
  Pres.bind (FlushBuffer_maps strerror _) fun _ => Pres.bind (sysClose_maps _) fun _ => Pres.pure _

theorem SyncFd_maps (fd : Int) (p : Bytes) : MapsP (SyncFd strerror full fd p) := by
  unfold SyncFd
  dsimp only []
  split
  all_goals
    refine Pres.bind (by first | exact sysSync_maps _ | exact Pres.pure _) fun r => ?_
    split
    · exact Pres.pure _
    · refine Pres.bind (sysSync_maps _) fun r => ?_
      split <;> exact Pres.pure _

theorem SyncDir_maps (f : WFile) : MapsP (f.SyncDirIfManifest strerror full) := by
  unfold WFile.SyncDirIfManifest
  split
  · refine Pres.bind (sysOpen_maps _ _) fun r => ?_
    split
    · exact Pres.pure _
    · exact Pres.bind (SyncFd_maps strerror full _ _) fun _ => Pres.bind (sysClose_maps _) fun _ => Pres.pure _
  · exact Pres.pure _

theorem Sync_maps (f : WFile) : MapsP (f.Sync strerror full) := by
  unfold WFile.Sync
  refine Pres.bind (SyncDir_maps strerror full _) fun st => ?_
  split
  · exact Pres.pure _
  · refine Pres.bind (FlushBuffer_maps strerror _) fun r => ?_
    repeat' first | exact Pres.pure _ | exact SyncFd_maps strerror full _ _ | refine Pres.bind ?_ (fun _ => ?_) | split

theorem wstep_maps (f : WFile) (op : WOp) : MapsP (f.step strerror full op) := by
  cases op with
  | append d => exact Append_maps strerror f d
  | flush => exact FlushBuffer_maps strerror f
  | sync => exact Sync_maps strerror full f
  | close => exact Close_maps strerror f

theorem wdestroy_maps (f : WFile) : MapsP (f.destroy strerror) := by
  unfold WFile.destroy
  split
  · exact Pres.bind (Close_maps strerror _) fun _ => Pres.pure _
  · exact Pres.pure _

theorem seqReadLoop_maps (f : SeqFile) (n cap : Nat) : ∀ fuel, MapsP (seqReadLoop strerror f n cap fuel) := by
  intro fuel
  induction fuel with
  | zero => exact Pres.fault _
  | succ fuel ih =>
    unfold seqReadLoop
    refine Pres.bind (sysRead_maps _ _) fun r => ?_
    split
    · split
      · exact ih
      · exact Pres.pure _
    · split
      · exact Pres.pure _
      · exact Pres.pureM _

theorem SeqRead_maps (f : SeqFile) (n cap : Nat) : MapsP (f.Read strerror n cap) :=
  Pres.dep (g := seqReadLoop strerror f n cap) (fun w => w.choices.length + 1) (seqReadLoop_maps strerror f n cap)

theorem SeqSkip_maps (f : SeqFile) (n : Nat) : MapsP (f.Skip strerror n) := by
  unfold SeqFile.Skip
  refine Pres.bind (sysLseekCur_maps _ _) fun r => ?_
  split <;> exact Pres.pure _

theorem RandNew_maps (n : Bytes) (fd l : Int) : MapsP (RandFile.new n fd l) := by
  unfold RandFile.new
  split
  dsimp only []
  split
  · exact Pres.pure _
  · exact Pres.bind (Pres.pureM _) fun _ => Pres.bind (sysClose_maps _) fun _ => Pres.pure _

theorem RandDestroy_maps (f : RandFile) (l : Int) : MapsP (f.destroy l) := by
  unfold RandFile.destroy
  split
  · exact Pres.bind (Pres.pureM _) fun _ => Pres.bind (sysClose_maps _) fun _ => Pres.pure _
  · exact Pres.pure _

theorem RandRead_maps (f : RandFile) (o n cap : Nat) : MapsP (f.Read strerror o n cap) := by
  unfold RandFile.Read
  pres_tac

theorem GetFileSize_maps (p : Bytes) : MapsP (GetFileSize strerror p) := by
  unfold GetFileSize
  refine Pres.bind (sysStat_maps _) fun r => ?_
  split <;> exact Pres.pure _

theorem readdirLoop_maps : ∀ (fuel : Nat) (a b : List Bytes), MapsP (readdirLoop fuel a b) := by
  intro fuel
  induction fuel with
  | zero => intro _ _; exact Pres.fault _
  | succ fuel ih =>
    intro a b
    unfold readdirLoop
    refine Pres.bind (sysReaddir_maps _) fun r => ?_
    split
    · exact Pres.pure _
    · exact ih _ _

theorem GetChildren_maps (p : Bytes) : MapsP (GetChildren strerror p) := by
  unfold GetChildren
  refine Pres.bind (sysOpendir_maps _) fun r => ?_
  split
  · exact Pres.pure _
  · refine Pres.bind (x := readdirAll _) (Pres.dep (g := fun n => readdirLoop n _ []) (fun w => w.choices.length + 1)
      fun n => readdirLoop_maps n _ _) fun _ => Pres.bind (sysClose_maps _) fun _ => Pres.pure _

theorem newWFile_maps (e : PEnv) (m : Mode) (n : Bytes) : MapsP (e.newWFile strerror m n) := by
  unfold PEnv.newWFile
  refine Pres.bind (sysOpen_maps _ _) fun r => ?_
  split
  · exact Pres.pure _
  · exact Pres.bind (Pres.pureM _) fun _ => Pres.pure _

theorem NewSequential_maps (e : PEnv) (n : Bytes) : MapsP (e.NewSequentialFile strerror n) := by
  unfold PEnv.NewSequentialFile
  refine Pres.bind (sysOpen_maps _ _) fun r => ?_
  split
  · exact Pres.pure _
  · exact Pres.pure _

theorem NewLogger_maps (e : PEnv) (n : Bytes) : MapsP (e.NewLogger strerror n) := by
  unfold PEnv.NewLogger
  refine Pres.bind (sysOpen_maps _ _) fun r => ?_
  split
  · exact Pres.pure _
  · refine Pres.bind sysOther_maps fun r => ?_
    split
    · dsimp only []
      refine Pres.bind (sysClose_maps _) fun r => ?_
      split <;> exact Pres.bind (Pres.pure _) fun _ => Pres.pure _
    · exact Pres.pure _

theorem LockFile_maps (e : PEnv) (n : Bytes) : MapsP (e.LockFile strerror n) := by
  unfold PEnv.LockFile
  refine Pres.bind (sysOpen_maps _ _) fun r => ?_
  split
  · exact Pres.pure _
  · split
    dsimp only []
    split
    · refine Pres.bind sysOther_maps fun r => ?_
      split
      · exact Pres.bind (sysClose_maps _) fun _ => Pres.pure _
      · exact Pres.pure _
    · exact Pres.bind (sysClose_maps _) fun _ => Pres.pure _

theorem UnlockFile_maps (e : PEnv) (h : Nat) : MapsP (e.UnlockFile strerror h) := by
  unfold PEnv.UnlockFile
  refine Pres.bind (Pres.pureM _) fun o => ?_
  split
  · refine Pres.bind sysOther_maps fun r => ?_
    split
    · exact Pres.pure _
    · exact Pres.bind (sysClose_maps _) fun _ => Pres.pure _
  · exact Pres.pureM _

/-- Calls other than opening a random-access file and deleting an object do not touch the mappings. -/
theorem step_maps (e : PEnv) (op : POp) (h1 : ∀ n, op ≠ .newRandomAccess n) (h2 : ∀ h, op ≠ .delete h) :
    MapsP (e.step strerror full op) := by
  cases op with
  | newSequential n => exact Pres.bind (NewSequential_maps strerror e n) fun _ => Pres.pure _
  | newRandomAccess n => exact absurd rfl (h1 n)
  | newWritable n => exact Pres.bind (newWFile_maps strerror e _ n) fun _ => Pres.pure _
  | newAppendable n => exact Pres.bind (newWFile_maps strerror e _ n) fun _ => Pres.pure _
  | newLogger n => exact Pres.bind (NewLogger_maps strerror e n) fun _ => Pres.pure _
  | fileExists n =>
    refine Pres.bind (?_ : MapsP (FileExists n)) fun _ => Pres.pure _
    unfold FileExists
    refine Pres.bind (sysAccess_maps _) fun r => ?_
    split <;> exact Pres.pure _
  | getChildren d => exact Pres.bind (GetChildren_maps strerror d) fun _ => Pres.pure _
  | removeFile n =>
    exact Pres.bind (Pres.bind (sysUnlink_maps _) fun _ => Pres.pure _ : MapsP (RemoveFile strerror n)) fun _ => Pres.pure _
  | createDir n =>
    exact Pres.bind (Pres.bind (sysMkdir_maps _) fun _ => Pres.pure _ : MapsP (CreateDir strerror n)) fun _ => Pres.pure _
  | removeDir n =>
    exact Pres.bind (Pres.bind (sysRmdir_maps _) fun _ => Pres.pure _ : MapsP (RemoveDir strerror n)) fun _ => Pres.pure _
  | getFileSize n => exact Pres.bind (GetFileSize_maps strerror n) fun _ => Pres.pure _
  | renameFile a b =>
    exact Pres.bind (Pres.bind (sysRename_maps _ _) fun _ => Pres.pure _ : MapsP (RenameFile strerror a b)) fun _ => Pres.pure _
  | lockFile n => exact Pres.bind (LockFile_maps strerror e n) fun _ => Pres.pure _
  | unlockFile h => exact Pres.bind (UnlockFile_maps strerror e h) fun _ => Pres.pure _
  | seqRead h n =>
    unfold PEnv.step
    refine Pres.bind (Pres.pureM _) fun o => ?_
    split
    · exact Pres.bind (SeqRead_maps strerror _ _ _) fun _ => Pres.pure _
    · exact Pres.pureM _
  | seqSkip h n =>
    unfold PEnv.step
    refine Pres.bind (Pres.pureM _) fun o => ?_
    split
    · exact Pres.bind (SeqSkip_maps strerror _ _) fun _ => Pres.pure _
    · exact Pres.pureM _
  | randRead h o n =>
    unfold PEnv.step
    refine Pres.bind (Pres.pureM _) fun o => ?_
    split
    · exact Pres.bind (RandRead_maps strerror _ _ _ _) fun _ => Pres.pure _
    · exact Pres.pure _
    · exact Pres.pureM _
  | write h op =>
    unfold PEnv.step
    refine Pres.bind (Pres.pureM _) fun o => ?_
    split
    · exact Pres.bind (wstep_maps strerror full _ _) fun _ => Pres.pure _
    · exact Pres.pureM _
  | delete h => exact absurd rfl (h2 h)

end Posix
end Lsmdb
