import Verif.Proof.PosixAcc

/-! # PosixEnv: the statuses calls return -/

namespace Lsmdb
namespace Posix

open MemEnv (St lit)

variable (strerror : Strerror) (full : Bool)

theorem PosixError_reports (ctx : Bytes) (e : Errno) : ReportsErr strerror ctx e (PosixError strerror ctx e) := by
  unfold PosixError
  by_cases h : e = ENOENT
  · rw [if_pos h]; exact ⟨.notFound, rfl, by simp [h], by simp [h]⟩
  · rw [if_neg h]; exact ⟨.ioError, rfl, by simp [h], by simp [h]⟩

/-- If it returns, the result satisfies `Q`. -/
structure Out.Post {α : Type} (o : Out α) (Q : α → Prop) : Prop where
  out : ∀ a w, o = .done a w → Q a

theorem Out.Post.bind {α β : Type} {x : P α} {f : α → P β} {w : World} {R : α → Prop} {Q : β → Prop}
    (hx : (x w).Post R) (h : ∀ a w', R a → (f a w').Post Q) : ((x >>= f) w).Post Q := by
  refine ⟨fun b w' => ?_⟩
  rw [bind_eq]
  cases hx' : x w with
  | done a w1 => exact (h a w1 (hx.out a w1 hx')).out b w'
  | crash w1 => intro h; exact nomatch h
  | fault e => intro h; exact nomatch h

theorem Out.Post.any {α β : Type} {x : P α} {f : α → P β} {w : World} {Q : β → Prop}
    (h : ∀ a w', (f a w').Post Q) : ((x >>= f) w).Post Q :=
  Out.Post.bind (R := fun _ => True) ⟨fun _ _ _ => trivial⟩ (fun a w' _ => h a w')

theorem Out.Post.pure {α : Type} {a : α} {w : World} {Q : α → Prop} (h : Q a) : ((Pure.pure a : P α) w).Post Q := by
  refine ⟨fun b w' e => ?_⟩
  have e : Out.done a w = .done b w' := e
  injection e with e _
  subst e; exact h

theorem Out.Post.pureM {α : Type} {x : M α} {w : World} {Q : α → Prop} (h : ∀ a, x = .ok a → Q a) :
    (Posix.pureM x w).Post Q := by
  refine ⟨fun b w' e => ?_⟩
  unfold Posix.pureM at e
  cases x with
  | ok a =>
    have e : Out.done a w = .done b w' := e
    injection e with e _
    subst e; exact h _ rfl
  | error f => exact nomatch e

theorem Out.Post.mono {α : Type} {o : Out α} {Q Q' : α → Prop} (h : o.Post Q) (hq : ∀ a, Q a → Q' a) : o.Post Q' :=
  ⟨fun a w e => hq a (h.out a w e)⟩

/-- OK or a system error. -/
def Cls (st : St) : Prop := st = .ok ∨ ∃ ctx e, st = PosixError strerror ctx e

theorem Cls.ok : Cls strerror .ok := .inl rfl
theorem Cls.err (ctx : Bytes) (e : Errno) : Cls strerror (PosixError strerror ctx e) := .inr ⟨ctx, e, rfl⟩

theorem writeLoop_post (fd : Int) (name : Bytes) : ∀ (fuel : Nat) (data : Bytes) (w : World),
    (writeLoop strerror fd name fuel data w).Post (Cls strerror) := by
  intro fuel
  induction fuel with
  | zero => intro _ _; exact ⟨fun a w e => nomatch e⟩
  | succ fuel ih =>
    intro data w
    unfold writeLoop
    split
    · apply Out.Post.any
      intro r w1
      cases r with
      | error e =>
        simp only []
        split
        · exact ih _ _
        · exact Out.Post.pure (Cls.err _ _ _)
      | ok n => exact ih _ _
    · exact Out.Post.pure (Cls.ok _)

theorem Flush_post (f : WFile) (w : World) : (f.FlushBuffer strerror w).Post (fun r => Cls strerror r.1) := by
  unfold WFile.FlushBuffer
  apply Out.Post.any
  intro d w1
  apply Out.Post.bind (R := Cls strerror) (writeLoop_post strerror _ _ _ _ _)
  intro st w2 h
  exact Out.Post.pure h

theorem Append_post (f : WFile) (d : Slice) (w : World) :
    (f.Append strerror d w).Post (fun r => Cls strerror r.1) := by
  unfold WFile.Append
  apply Out.Post.any; intro _ _
  apply Out.Post.any; intro _ _
  simp only []
  split
  · exact Out.Post.pure (Cls.ok _)
  · apply Out.Post.bind (Flush_post strerror _ _)
    intro r w1 h
    split
    · exact Out.Post.pure h
    · split
      · apply Out.Post.any; intro _ _
        exact Out.Post.pure (Cls.ok _)
      · apply Out.Post.bind (R := Cls strerror) (writeLoop_post strerror _ _ _ _ _)
        intro st w2 h
        exact Out.Post.pure h

theorem SyncFd_post (fd : Int) (p : Bytes) (w : World) : (SyncFd strerror full fd p w).Post (Cls strerror) := by
  unfold SyncFd
  cases full
  all_goals
    simp only [if_true, Bool.false_eq_true, if_false]
    apply Out.Post.any
    intro r w1
    cases r with
    | ok _ => exact Out.Post.pure (Cls.ok _)
    | error e =>
      simp only []
      apply Out.Post.any
      intro r w2
      cases r with
      | ok _ => exact Out.Post.pure (Cls.ok _)
      | error e => exact Out.Post.pure (Cls.err _ _ _)

theorem Sync_post (f : WFile) (w : World) : (f.Sync strerror full w).Post (fun r => Cls strerror r.1) := by
  unfold WFile.Sync
  have hdir : (f.SyncDirIfManifest strerror full w).Post (Cls strerror) := by
    unfold WFile.SyncDirIfManifest
    split
    · apply Out.Post.any
      intro r w1
      cases r with
      | error e => exact Out.Post.pure (Cls.err _ _ _)
      | ok fd =>
        simp only []
        apply Out.Post.bind (SyncFd_post strerror full _ _ _)
        intro st w2 h
        apply Out.Post.any; intro _ _
        exact Out.Post.pure h
    · exact Out.Post.pure (Cls.ok _)
  apply Out.Post.bind hdir
  intro st w1 h
  simp only []
  split
  · exact Out.Post.pure h
  · apply Out.Post.bind (Flush_post strerror _ _)
    intro r w2 h
    split
    · exact Out.Post.pure h
    · apply Out.Post.bind (SyncFd_post strerror full _ _ _)
      intro st w2 h
      exact Out.Post.pure h

theorem Close_post (f : WFile) (w : World) : (f.Close strerror w).Post (fun r => Cls strerror r.1) := by
  unfold WFile.Close
  apply Out.Post.bind (Flush_post strerror _ _)
  intro r w1 h
  apply Out.Post.any
  intro cr w2
  apply Out.Post.pure
  cases cr with
  | ok _ => exact h
  | error e =>
    simp only []
    split
    · exact Cls.err _ _ _
    · exact h

theorem wstep_post (f : WFile) (op : WOp) (w : World) : (f.step strerror full op w).Post (fun r => Cls strerror r.1) := by
  cases op with
  | append d => exact Append_post strerror f d w
  | flush => exact Flush_post strerror f w
  | sync => exact Sync_post strerror full f w
  | close => exact Close_post strerror f w

theorem seqRead_post (f : SeqFile) (n cap : Nat) : ∀ (fuel : Nat) (w : World),
    (seqReadLoop strerror f n cap fuel w).Post (fun r => Cls strerror r.1) := by
  intro fuel
  induction fuel with
  | zero => intro _; exact ⟨fun a w e => nomatch e⟩
  | succ fuel ih =>
    intro w
    unfold seqReadLoop
    apply Out.Post.any
    intro r w1
    cases r with
    | error e =>
      simp only []
      split
      · exact ih _
      · exact Out.Post.pure (Cls.err _ _ _)
    | ok d =>
      simp only []
      split
      · exact Out.Post.pure (Cls.ok _)
      · exact Out.Post.pureM (fun _ h => nomatch h)

theorem randRead_post (f : RandFile) (off n cap : Nat) (w : World) :
    (f.Read strerror off n cap w).Post (fun r => Cls strerror r.1) := by
  unfold RandFile.Read
  have tail : ∀ (fd : Int) (res : St × Option Bytes) (w : World), Cls strerror res.1 →
      ((if f.has_permanent_fd then return res else do
        pureM (cassert (decide (fd ≠ f.fd)))
        let _ ← sysClose fd
        return res : P (St × Option Bytes)) w).Post (fun r => Cls strerror r.1) := by
    intro fd res w h
    split
    · exact Out.Post.pure h
    · apply Out.Post.any; intro _ _
      apply Out.Post.any; intro _ _
      exact Out.Post.pure h
  have body : ∀ (r : Except Errno Int) (w : World), ((match r with
      | .error e => return (PosixError strerror f.filename e, none)
      | .ok fd => do
        pureM (cassert (decide (fd ≠ -1)))
        let r ← sysPread fd n (toOff off)
        let res ← match r with
          | .error e => pure (PosixError strerror f.filename e, some [])
          | .ok d => if d.length ≤ cap then pure (St.ok, some d) else pureM (.error .outOfBounds)
        if f.has_permanent_fd then return res
        else do
          pureM (cassert (decide (fd ≠ f.fd)))
          let _ ← sysClose fd
          return res : P (St × Option Bytes)) w).Post (fun r => Cls strerror r.1) := by
    intro r w
    cases r with
    | error e => exact Out.Post.pure (Cls.err _ _ _)
    | ok fd =>
      simp only []
      apply Out.Post.any; intro _ _
      apply Out.Post.any
      intro r w1
      cases r with
      | error e =>
        simp only []
        apply Out.Post.bind (R := fun r => Cls strerror r.1) (Out.Post.pure (Cls.err _ _ _))
        intro res w2 h
        exact tail fd res w2 h
      | ok d =>
        simp only []
        split
        · apply Out.Post.bind (R := fun r => Cls strerror r.1) (Out.Post.pure (Cls.ok _))
          intro res w2 h
          exact tail fd res w2 h
        · apply Out.Post.bind (R := fun r => Cls strerror r.1)
            (Out.Post.pureM (x := (.error .outOfBounds : M (St × Option Bytes))) (fun _ h => nomatch h))
          intro res w2 h
          exact tail fd res w2 h
  by_cases hp : f.has_permanent_fd = true
  all_goals
    simp only [hp, if_true, Bool.false_eq_true, if_false] at body ⊢
    apply Out.Post.any
    intro r w1
    exact body r w1

theorem getObj_post {e : PEnv} {h : Nat} {α : Type} {f : Obj → P α} {w : World} {Q : α → Prop}
    (hf : ∀ o w', (f o w').Post Q) : ((pureM (e.get h) >>= f) w).Post Q := Out.Post.any hf

/-- Statuses of open calls, and what they store. -/
def Opn (r : St × Option Nat × PEnv) : Prop :=
  Cls strerror r.1 ∧ (r.1 = .ok → ∃ i o, r.2.1 = some i ∧ r.2.2.has i o) ∧ (r.1 ≠ .ok → r.2.1 = none)

theorem Opn.err (e : PEnv) (ctx : Bytes) (er : Errno) : Opn strerror (PosixError strerror ctx er, none, e) :=
  ⟨Cls.err _ _ _, fun h => absurd h (PosixError_ne_ok _ _ _), fun _ => rfl⟩

theorem Opn.alloc (e : PEnv) (o : Obj) : Opn strerror (.ok, some (e.alloc o).1, (e.alloc o).2) :=
  ⟨Cls.ok _, fun _ => ⟨_, o, rfl, by simp [PEnv.alloc, PEnv.has]⟩, fun h => absurd rfl h⟩

theorem NewSequential_post (e : PEnv) (n : Bytes) (w : World) :
    (e.NewSequentialFile strerror n w).Post (Opn strerror) := by
  unfold PEnv.NewSequentialFile
  apply Out.Post.any
  intro r w1
  cases r with
  | error er => exact Out.Post.pure (Opn.err _ _ _ _)
  | ok fd => exact Out.Post.pure (Opn.alloc _ _ _)

theorem newWFile_post (e : PEnv) (m : Mode) (n : Bytes) (w : World) :
    (e.newWFile strerror m n w).Post (Opn strerror) := by
  unfold PEnv.newWFile
  apply Out.Post.any
  intro r w1
  cases r with
  | error er => exact Out.Post.pure (Opn.err _ _ _ _)
  | ok fd =>
    simp only []
    apply Out.Post.any
    intro f w2
    exact Out.Post.pure (Opn.alloc _ _ _)

theorem NewLogger_post (e : PEnv) (n : Bytes) (w : World) : (e.NewLogger strerror n w).Post (Opn strerror) := by
  unfold PEnv.NewLogger
  apply Out.Post.any
  intro r w1
  cases r with
  | error er => exact Out.Post.pure (Opn.err _ _ _ _)
  | ok fd =>
    simp only []
    apply Out.Post.any
    intro r w2
    cases r with
    | error er =>
      simp only []
      apply Out.Post.any
      intro r w3
      cases r with
      | error er =>
        simp only []
        apply Out.Post.any; intro _ _
        exact Out.Post.pure (Opn.err _ _ _ _)
      | ok _ =>
        simp only []
        apply Out.Post.any; intro _ _
        exact Out.Post.pure (Opn.err _ _ _ _)
    | ok _ => exact Out.Post.pure (Opn.alloc _ _ _)

theorem GetFileSize_post (n : Bytes) (w : World) : (GetFileSize strerror n w).Post (fun r => Cls strerror r.1) := by
  unfold GetFileSize
  apply Out.Post.any
  intro r w1
  cases r with
  | error er => exact Out.Post.pure (Cls.err _ _ _)
  | ok fd => exact Out.Post.pure (Cls.ok _)

theorem NewRandom_post (e : PEnv) (n : Bytes) (w : World) :
    (e.NewRandomAccessFile strerror n w).Post (Opn strerror) := by
  unfold PEnv.NewRandomAccessFile
  apply Out.Post.any
  intro r w1
  cases r with
  | error er => exact Out.Post.pure (Opn.err _ _ _ _)
  | ok fd =>
    simp only []
    generalize (Limiter.Acquire e.mmap_limiter).2 = v
    cases (Limiter.Acquire e.mmap_limiter).1 with
    | false =>
      simp only [Bool.false_eq_true, if_false]
      apply Out.Post.any
      intro r w2
      exact Out.Post.pure (Opn.alloc _ _ _)
    | true =>
      simp only [if_true]
      have tail : ∀ (x : St × Option Nat × PEnv) (w : World), Opn strerror x →
          ((do
            let _ ← sysClose fd
            if x.1 ≠ .ok then
              return (x.1, x.2.1, { x.2.2 with mmap_limiter := Limiter.Release x.2.2.mmap_limiter })
            else return (x.1, x.2.1, x.2.2) : P (St × Option Nat × PEnv)) w).Post (Opn strerror) := by
        intro x w h
        apply Out.Post.any; intro _ _
        simp only []
        split
        · rename_i hne; exact Out.Post.pure ⟨h.1, fun h => absurd h hne, h.2.2⟩
        · exact Out.Post.pure h
      apply Out.Post.bind (GetFileSize_post strerror _ _)
      rintro ⟨st, size⟩ w2 hst
      simp only [] at hst ⊢
      split
      · rename_i hok
        subst hok
        apply Out.Post.any
        intro r w3
        cases r with
        | ok b =>
          simp only []
          apply Out.Post.bind (R := Opn strerror) (Out.Post.pure (Opn.alloc _ _ _))
          exact fun x w h => tail x w h
        | error er =>
          simp only []
          apply Out.Post.bind (R := Opn strerror) (Out.Post.pure (Opn.err _ _ _ _))
          exact fun x w h => tail x w h
      · rename_i hne
        apply Out.Post.bind (R := Opn strerror) (Out.Post.pure ⟨hst, fun h => absurd h hne, fun _ => rfl⟩)
        exact fun x w h => tail x w h

/-- Status of LockFile. -/
def LockCls (n : Bytes) (st : St) : Prop :=
  Cls strerror st ∨ st = .err .ioError (lit "lock " ++ n) (lit "already held by process")

theorem LockFile_post (e : PEnv) (n : Bytes) (w : World) :
    (e.LockFile strerror n w).Post (fun r => LockCls strerror n r.1 ∧
      (r.1 = .ok → ∃ i o, r.2.1 = some i ∧ r.2.2.has i o) ∧ (r.1 ≠ .ok → r.2.1 = none)) := by
  have up : ∀ r : St × Option Nat × PEnv, Opn strerror r → LockCls strerror n r.1 ∧
      (r.1 = .ok → ∃ i o, r.2.1 = some i ∧ r.2.2.has i o) ∧ (r.1 ≠ .ok → r.2.1 = none) := fun r h => ⟨.inl h.1, h.2⟩
  unfold PEnv.LockFile
  apply Out.Post.any
  intro r w1
  cases r with
  | error er => exact Out.Post.pure (up _ (Opn.err _ _ _ _))
  | ok fd =>
    simp only []
    cases (lockInsert e.locks n).1 with
    | true =>
      simp only [if_true]
      apply Out.Post.any
      intro r w2
      cases r with
      | error er =>
        simp only []
        apply Out.Post.any; intro _ _
        exact Out.Post.pure (up _ (Opn.err _ _ _ _))
      | ok _ => exact Out.Post.pure (up _ (Opn.alloc _ _ _))
    | false =>
      simp only [Bool.false_eq_true, if_false]
      apply Out.Post.any; intro _ _
      exact Out.Post.pure ⟨.inr rfl, fun h => (nomatch h), fun _ => rfl⟩

/-- What is known about the result of a call. -/
def Good (op : POp) (r : PEnv × PRes) : Prop :=
  (∀ st, r.2.status? = some st → Cls strerror st ∨
    ∃ n, op = .lockFile n ∧ st = .err .ioError (lit "lock " ++ n) (lit "already held by process")) ∧
  (∀ st h, r.2 = .opened st h → (st = .ok → ∃ i o, h = some i ∧ r.1.has i o) ∧ (st ≠ .ok → h = none))

theorem Good.of_open {op : POp} {x : St × Option Nat × PEnv} (h : Opn strerror x) :
    Good strerror op (x.2.2, .opened x.1 x.2.1) := by
  refine ⟨fun st hs => ?_, fun st h' he => ?_⟩
  · injection hs with hs; subst hs; exact .inl h.1
  · injection he with h1 h2; subst h1 h2; exact h.2

theorem Good.of_status {op : POp} {e : PEnv} {r : PRes} {st : St} (hr : r.status? = some st) (h : Cls strerror st)
    (hno : ∀ st h, r ≠ .opened st h) : Good strerror op (e, r) := by
  refine ⟨fun st' hs => ?_, fun st h' he => absurd he (hno st h')⟩
  simp only at hs
  rw [hr] at hs
  injection hs with hs; subst hs; exact .inl h

theorem step_post (e : PEnv) (op : POp) (w : World) : (e.step strerror full op w).Post (Good strerror op) := by
  have st : ∀ (x : P (Except Errno Unit)) (n : Bytes) (w : World),
      ((do return statusOf strerror n (← x) : P St) w).Post (Cls strerror) := by
    intro x n w
    apply Out.Post.any
    intro r w1
    apply Out.Post.pure
    cases r with
    | ok _ => exact Cls.ok _
    | error er => exact Cls.err _ _ _
  have status : ∀ (x : P St), (∀ w, (x w).Post (Cls strerror)) →
      ((do return (e, .status (← x)) : P (PEnv × PRes)) w).Post (Good strerror op) := by
    intro x hx
    apply Out.Post.bind (hx w)
    intro s w1 h
    exact Out.Post.pure (Good.of_status (st := s) strerror rfl h (fun _ _ h => nomatch h))
  cases op with
  | newSequential n =>
    exact Out.Post.bind (NewSequential_post strerror e n w) (fun x _ h => Out.Post.pure (Good.of_open strerror h))
  | newRandomAccess n =>
    exact Out.Post.bind (NewRandom_post strerror e n w) (fun x _ h => Out.Post.pure (Good.of_open strerror h))
  | newWritable n =>
    exact Out.Post.bind (newWFile_post strerror e .trunc n w) (fun x _ h => Out.Post.pure (Good.of_open strerror h))
  | newAppendable n =>
    exact Out.Post.bind (newWFile_post strerror e .append n w) (fun x _ h => Out.Post.pure (Good.of_open strerror h))
  | newLogger n =>
    exact Out.Post.bind (NewLogger_post strerror e n w) (fun x _ h => Out.Post.pure (Good.of_open strerror h))
  | fileExists n =>
    apply Out.Post.any
    intro b w1
    exact Out.Post.pure ⟨fun _ h => (nomatch h), fun _ _ h => (nomatch h)⟩
  | getChildren d =>
    have : (GetChildren strerror d w).Post (fun r => Cls strerror r.1) := by
      unfold GetChildren
      apply Out.Post.any
      intro r w1
      cases r with
      | error er => exact Out.Post.pure (Cls.err _ _ _)
      | ok x =>
        simp only []
        apply Out.Post.any; intro _ _
        apply Out.Post.any; intro _ _
        exact Out.Post.pure (Cls.ok _)
    apply Out.Post.bind this
    intro r w1 h
    exact Out.Post.pure (Good.of_status (st := r.1) strerror rfl h (fun _ _ h => nomatch h))
  | removeFile n => exact status _ (st _ n)
  | createDir n => exact status _ (st _ n)
  | removeDir n => exact status _ (st _ n)
  | getFileSize n =>
    apply Out.Post.bind (GetFileSize_post strerror n w)
    intro r w1 h
    exact Out.Post.pure (Good.of_status (st := r.1) strerror rfl h (fun _ _ h => nomatch h))
  | renameFile a b => exact status _ (st _ a)
  | lockFile n =>
    apply Out.Post.bind (LockFile_post strerror e n w)
    intro r w1 h
    refine Out.Post.pure ⟨fun st hs => ?_, fun st h' he => ?_⟩
    · injection hs with hs; subst hs
      rcases h.1 with h | h
      · exact .inl h
      · exact .inr ⟨n, rfl, h⟩
    · injection he with h1 h2; subst h1 h2; exact h.2
  | unlockFile hd =>
    have : (e.UnlockFile strerror hd w).Post (fun r => Cls strerror r.1) := by
      unfold PEnv.UnlockFile
      apply Out.Post.any
      intro o w1
      cases o with
      | lock fd n =>
        simp only []
        apply Out.Post.any
        intro r w2
        cases r with
        | error er => exact Out.Post.pure (Cls.err _ _ _)
        | ok _ =>
          simp only []
          apply Out.Post.any; intro _ _
          exact Out.Post.pure (Cls.ok _)
      | _ => exact Out.Post.pureM (fun _ h => nomatch h)
    apply Out.Post.bind this
    intro r w1 h
    exact Out.Post.pure (Good.of_status (st := r.1) strerror rfl h (fun _ _ h => nomatch h))
  | seqRead hd n =>
    apply Out.Post.any
    intro o w1
    cases o with
    | seq f =>
      simp only []
      apply Out.Post.bind (R := fun r => Cls strerror r.1) (seqRead_post strerror f n n _ _)
      intro r w2 h
      exact Out.Post.pure (Good.of_status (st := r.1) strerror rfl h (fun _ _ h => nomatch h))
    | _ => exact Out.Post.pureM (fun _ h => nomatch h)
  | seqSkip hd n =>
    apply Out.Post.any
    intro o w1
    cases o with
    | seq f =>
      simp only []
      have : (f.Skip strerror n w1).Post (Cls strerror) := by
        unfold SeqFile.Skip
        apply Out.Post.any
        intro r w2
        cases r with
        | error er => exact Out.Post.pure (Cls.err _ _ _)
        | ok _ => exact Out.Post.pure (Cls.ok _)
      apply Out.Post.bind this
      intro r w2 h
      exact Out.Post.pure (Good.of_status (st := r) strerror rfl h (fun _ _ h => nomatch h))
    | _ => exact Out.Post.pureM (fun _ h => nomatch h)
  | randRead hd off n =>
    apply Out.Post.any
    intro o w1
    cases o with
    | rand f =>
      simp only []
      apply Out.Post.bind (randRead_post strerror f off n n w1)
      intro r w2 h
      exact Out.Post.pure (Good.of_status (st := r.1) strerror rfl h (fun _ _ h => nomatch h))
    | mmap f =>
      simp only []
      refine Out.Post.pure (Good.of_status (st := (f.Read strerror off n).1) strerror rfl ?_ (fun _ _ h => nomatch h))
      unfold MmapFile.Read
      split
      · exact Cls.err strerror f.filename EINVAL
      · exact Cls.ok _
    | _ => exact Out.Post.pureM (fun _ h => nomatch h)
  | write hd op =>
    apply Out.Post.any
    intro o w1
    cases o with
    | wr f =>
      simp only []
      apply Out.Post.bind (wstep_post strerror full f op w1)
      intro r w2 h
      exact Out.Post.pure (Good.of_status (st := r.1) strerror rfl h (fun _ _ h => nomatch h))
    | _ => exact Out.Post.pureM (fun _ h => nomatch h)
  | delete hd =>
    apply Out.Post.any
    intro b w1
    exact Out.Post.pure ⟨fun _ h => (nomatch h), fun _ _ h => (nomatch h)⟩

end Posix
end Lsmdb
