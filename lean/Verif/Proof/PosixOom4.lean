import Verif.Proof.PosixOom3

/-! The lock table when memory runs out, and: with memory nothing throws. -/

namespace Lsmdb
namespace Posix

open MemEnv (St lit)

variable (strerror : Strerror) (full : Bool)

/-- The locks are as before; with memory the call returns. -/
structure OSame (E : OEnv) (mem : PMem) (r : OEnv × Ans) : Prop where
  same : SameLocks E.env r.1.env
  locked : r.1.locked = E.locked
  ret : mem = .plenty → ∃ x, r.2 = .res x

theorem OSame.res {E E' : OEnv} {mem : PMem} {x : PRes} (h1 : SameLocks E.env E'.env) (h2 : E'.locked = E.locked) :
    OSame E mem (E', .res x) := ⟨h1, h2, fun _ => ⟨x, rfl⟩⟩

theorem OSame.answer {E E' : OEnv} {mem : PMem} {s : St} {x : PRes} (h1 : SameLocks E.env E'.env) (h2 : E'.locked = E.locked) :
    OSame E mem (E'.answer mem s x) := by
  unfold OEnv.answer
  cases hr : raise mem s with
  | none => exact ⟨h1, h2, fun h => by rw [h, raise_plenty] at hr; exact nomatch hr⟩
  | some t => exact .res h1 h2

theorem OSame.threw {E E' : OEnv} {mem : PMem} (h1 : SameLocks E.env E'.env) (h2 : E'.locked = E.locked)
    (h3 : mem ≠ .plenty) : OSame E mem (E', .threw) := ⟨h1, h2, fun h => absurd h h3⟩

theorem ne_plenty_object {mem : PMem} (h : mem.object = false) : mem ≠ .plenty := by rintro rfl; exact nomatch h
theorem ne_plenty_node {mem : PMem} (h : mem.node = false) : mem ≠ .plenty := by rintro rfl; exact nomatch h
theorem ne_plenty_raise {mem : PMem} {s : St} (h : raise mem s = none) : mem ≠ .plenty := by
  rintro rfl; rw [raise_plenty] at h; exact nomatch h
theorem ne_plenty_child {mem : PMem} {i : Nat} (h : mem.child i = false) : mem ≠ .plenty := by rintro rfl; exact nomatch h

theorem OSame.hand {E E' : OEnv} {mem : PMem} {o : Obj} (h1 : SameLocks E.env E'.env) (h2 : E'.locked = E.locked)
    (ho : ∀ fd n, o ≠ .lock fd n) : OSame E mem (E'.hand mem o) := by
  unfold OEnv.hand
  cases hm : mem.object with
  | true => exact .res (h1.alloc ho) h2
  | false => exact .threw h1 h2 (ne_plenty_object hm)

theorem NewSequentialO_same (E : OEnv) (mem : PMem) (n : Bytes) : Ret (OSame E mem) (E.NewSequentialFile strerror mem n) := by
  unfold OEnv.NewSequentialFile
  refine Ret.then fun r => ?_
  cases r with
  | error err => exact Ret.pure (.answer (.refl _) rfl)
  | ok fd => exact Ret.pure (.hand (.refl _) rfl fun _ _ h => nomatch h)

theorem newWFileO_same (E : OEnv) (mem : PMem) (m : Mode) (n : Bytes) : Ret (OSame E mem) (E.newWFile strerror mem m n) := by
  unfold OEnv.newWFile
  refine Ret.then fun r => ?_
  cases r with
  | error err => exact Ret.pure (.answer (.refl _) rfl)
  | ok fd => exact Ret.then fun f => Ret.pure (.hand (.refl _) rfl fun _ _ h => nomatch h)

theorem NewLoggerO_same (E : OEnv) (mem : PMem) (n : Bytes) : Ret (OSame E mem) (E.NewLogger strerror mem n) := by
  unfold OEnv.NewLogger
  refine Ret.then fun r => ?_
  cases r with
  | error err => exact Ret.pure (.answer (.refl _) rfl)
  | ok fd =>
    refine Ret.then fun r => ?_
    cases r with
    | error err =>
      refine Ret.then fun r => ?_
      cases r <;> exact Ret.pure (.answer (.refl _) rfl)
    | ok _ => exact Ret.pure (.hand (.refl _) rfl fun _ _ h => nomatch h)

theorem readdirLoopO_plenty : ∀ (fuel : Nat) (rest l : List Bytes), Ret (· ≠ none) (readdirLoopO .plenty fuel rest l) := by
  intro fuel
  induction fuel with
  | zero => intro _ _ w a w' h; exact nomatch h
  | succ fuel ih =>
    intro rest l
    unfold readdirLoopO
    refine Ret.then fun r => ?_
    cases r with
    | none => exact Ret.pure (fun h => nomatch h)
    | some d => exact ih _ _

theorem GetChildrenO_same (E : OEnv) (mem : PMem) (n : Bytes) : Ret (OSame E mem) (E.GetChildren strerror mem n) := by
  unfold OEnv.GetChildren
  refine Ret.then fun r => ?_
  cases r with
  | error err => exact Ret.pure (.answer (.refl _) rfl)
  | ok p =>
    refine Ret.bind (Q := fun l => mem = .plenty → l ≠ none) ?_ fun l hl => ?_
    · intro w a w' h hm
      subst hm
      exact readdirLoopO_plenty _ _ _ w a w' h
    · cases l with
      | none => exact Ret.pure (.threw (.refl _) rfl fun h => hl h rfl)
      | some l => exact Ret.then fun _ => Ret.pure (.res (.refl _) rfl)

theorem NewRandomO_same (E : OEnv) (mem : PMem) (n : Bytes) : Ret (OSame E mem) (E.NewRandomAccessFile strerror mem n) := by
  unfold OEnv.NewRandomAccessFile
  refine Ret.then fun r => ?_
  cases r with
  | error err => exact Ret.pure (.answer (.refl _) rfl)
  | ok fd =>
    simp only []
    have fin : ∀ (F : OEnv) (s : St) (r : Option Nat), SameLocks E.env F.env → F.locked = E.locked → Ret (OSame E mem) (do
          let _ ← sysClose fd
          if s ≠ .ok then
            return ({ F with env := { F.env with mmap_limiter := Limiter.Release F.env.mmap_limiter } },
              .res (.opened s r))
          else return (F, .res (.opened s r)) : P (OEnv × Ans)) := by
      intro F s r h1 h2
      refine Ret.then fun _ => ?_
      by_cases hs : s ≠ .ok
      · simp only [if_pos hs]; exact Ret.pure (.res (h1.limits _ _) h2)
      · simp only [if_neg hs]; exact Ret.pure (.res h1 h2)
    cases (Limiter.Acquire E.env.mmap_limiter).1 with
    | true =>
      simp only [↓reduceIte]
      unfold OEnv.mapFile
      simp only [bindA]
      refine Ret.then fun p => ?_
      obtain ⟨s, size⟩ := p
      simp only []
      cases hr : raise mem s with
      | none => exact Ret.pure (.threw ((SameLocks.refl _).limits _ _) rfl (ne_plenty_raise hr))
      | some t =>
        simp only []
        by_cases hs : t = .ok
        · simp only [if_pos hs, bindA]
          refine Ret.then fun r => ?_
          cases r with
          | ok b =>
            simp only []
            cases hm : mem.object with
            | false =>
              simp only [Bool.false_eq_true, ↓reduceIte]
              exact Ret.pure (.threw ((SameLocks.refl _).limits _ _) rfl (ne_plenty_object hm))
            | true =>
              simp only [↓reduceIte]
              exact fin { E with env := ({ E.env with mmap_limiter := (Limiter.Acquire E.env.mmap_limiter).2 }.alloc
                (.mmap ⟨b, size, n⟩)).2 } _ _ (((SameLocks.refl _).limits _ _).alloc (o := .mmap ⟨b, size, n⟩) fun _ _ h => nomatch h) rfl
          | error err =>
            simp only []
            cases hr : raise mem (PosixError strerror n err) with
            | none => exact Ret.pure (.threw ((SameLocks.refl _).limits _ _) rfl (ne_plenty_raise hr))
            | some t =>
              exact fin { E with env := { E.env with mmap_limiter := (Limiter.Acquire E.env.mmap_limiter).2 } } _ none
                ((SameLocks.refl _).limits _ _) rfl
        · simp only [if_neg hs]
          exact fin { E with env := { E.env with mmap_limiter := (Limiter.Acquire E.env.mmap_limiter).2 } } t none
                ((SameLocks.refl _).limits _ _) rfl
    | false =>
      simp only [Bool.false_eq_true, ↓reduceIte]
      cases hm : mem.object with
      | false =>
        simp only [Bool.false_eq_true, ↓reduceIte]
        exact Ret.pure (.threw ((SameLocks.refl _).limits _ _) rfl (ne_plenty_object hm))
      | true =>
        simp only [↓reduceIte]
        exact Ret.then fun p => Ret.pure (.res (((SameLocks.refl _).limits _ _).alloc (o := .rand p.1) fun _ _ h => nomatch h) rfl)

/-! ## Files -/

/-- With memory it does not throw. -/
theorem FlushBufferO_plenty (f : WFile) : Ret (fun r => r.1 ≠ none) (f.FlushBufferO strerror .plenty) := by
  unfold WFile.FlushBufferO
  refine Ret.then fun d => Ret.then fun s => ?_
  rw [raise_plenty]
  exact Ret.pure (fun h => nomatch h)

theorem AppendO_plenty (f : WFile) (d : Slice) : Ret (fun r => r.1 ≠ none) (f.AppendO strerror .plenty d) := by
  unfold WFile.AppendO
  refine Ret.then fun b => Ret.then fun buf => ?_
  simp only []
  by_cases h0 : d.len - min d.len (kWritableFileBufferSize - f.pos) = 0
  · rw [if_pos h0]; exact Ret.pure (fun h => nomatch h)
  · rw [if_neg h0]
    refine Ret.bind (FlushBufferO_plenty strerror _) fun r hr => ?_
    obtain ⟨s, f1⟩ := r
    cases s with
    | none => exact absurd rfl hr
    | some s =>
      simp only []
      by_cases hs : s ≠ .ok
      · rw [if_pos hs]; exact Ret.pure (fun h => nomatch h)
      · rw [if_neg hs]
        unfold WFile.appendRestO
        split
        · exact Ret.then fun _ => Ret.pure (fun h => nomatch h)
        · exact Ret.then fun s => Ret.pure (by rw [raise_plenty]; exact fun h => nomatch h)

theorem CloseO_plenty (f : WFile) : Ret (fun r => r.1 ≠ none) (f.CloseO strerror .plenty) := by
  unfold WFile.CloseO
  refine Ret.bind (FlushBufferO_plenty strerror _) fun r hr => ?_
  obtain ⟨s, f1⟩ := r
  cases s with
  | none => exact absurd rfl hr
  | some s =>
    refine Ret.then fun r => ?_
    cases r with
    | ok _ => exact Ret.pure (fun h => nomatch h)
    | error e =>
      simp only []
      by_cases hs : s = .ok
      · rw [if_pos hs, raise_plenty]; exact Ret.pure (fun h => nomatch h)
      · rw [if_neg hs]; exact Ret.pure (fun h => nomatch h)

theorem SyncDirO_plenty (f : WFile) : Ret (· ≠ none) (f.SyncDirIfManifestO strerror .plenty full) := by
  unfold WFile.SyncDirIfManifestO
  split
  · refine Ret.then fun r => ?_
    cases r with
    | error e => exact Ret.pure (by rw [raise_plenty]; exact fun h => nomatch h)
    | ok fd =>
      refine Ret.then fun s => ?_
      rw [raise_plenty]
      exact Ret.then fun _ => Ret.pure (fun h => nomatch h)
  · exact Ret.pure (fun h => nomatch h)

theorem SyncO_plenty (f : WFile) : Ret (fun r => r.1 ≠ none) (f.SyncO strerror .plenty full) := by
  unfold WFile.SyncO
  refine Ret.bind (SyncDirO_plenty strerror full f) fun s hs => ?_
  cases s with
  | none => exact absurd rfl hs
  | some s =>
    simp only []
    by_cases hs : s ≠ .ok
    · rw [if_pos hs]; exact Ret.pure (fun h => nomatch h)
    · rw [if_neg hs]
      refine Ret.bind (FlushBufferO_plenty strerror _) fun r hr => ?_
      obtain ⟨s, f1⟩ := r
      cases s with
      | none => exact absurd rfl hr
      | some s =>
        simp only []
        by_cases hs : s ≠ .ok
        · rw [if_pos hs]; exact Ret.pure (fun h => nomatch h)
        · rw [if_neg hs]; exact Ret.then fun s => Ret.pure (by rw [raise_plenty]; exact fun h => nomatch h)

theorem wstepO_plenty (f : WFile) (op : WOp) : Ret (fun r => r.1 ≠ none) (f.stepO strerror .plenty full op) := by
  cases op with
  | append d => exact AppendO_plenty strerror f d
  | flush => exact FlushBufferO_plenty strerror f
  | sync => exact SyncO_plenty strerror full f
  | close => exact CloseO_plenty strerror f

theorem destroyO_plenty (f : WFile) : Ret (· = true) (f.destroyO strerror .plenty) := by
  unfold WFile.destroyO
  split
  · refine Ret.bind (CloseO_plenty strerror _) fun r hr => ?_
    obtain ⟨s, f1⟩ := r
    cases s with
    | none => exact absurd rfl hr
    | some s => exact Ret.pure rfl
  · exact Ret.pure rfl

theorem ReadO_plenty (f : RandFile) (off n cap : Nat) : Ret (· ≠ none) (f.ReadO strerror .plenty off n cap) := by
  have rest : ∀ (fd : Int) (b : Bool), Ret (· ≠ none) (do
      pureM (cassert (decide (fd ≠ -1)))
      let r ← sysPread fd n (toOff off)
      let res ← match r with
        | .error e => pure (PosixError strerror f.filename e, some [])
        | .ok d => if d.length ≤ cap then pure (St.ok, some d) else pureM (.error .outOfBounds)
      match raise .plenty res.1 with
      | none => return none
      | some _ =>
        if b = true then return some res
        else do
          pureM (cassert (decide (fd ≠ f.fd)))
          let _ ← sysClose fd
          return some res : P (Option (St × Option Bytes))) := by
    intro fd b
    refine Ret.then fun _ => Ret.then fun r => ?_
    have key : ∀ res : St × Option Bytes, Ret (· ≠ none) (match raise .plenty res.1 with
      | none => return none
      | some _ =>
        if b = true then return some res
        else do
          pureM (cassert (decide (fd ≠ f.fd)))
          let _ ← sysClose fd
          return some res : P (Option (St × Option Bytes))) := by
      intro res
      rw [raise_plenty]
      simp only []
      split
      · exact Ret.pure (fun h => nomatch h)
      · exact Ret.then fun _ => Ret.then fun _ => Ret.pure (fun h => nomatch h)
    cases r with
    | error e => exact Ret.then fun res => key res
    | ok d =>
      simp only []
      split
      · exact Ret.then fun res => key res
      · exact Ret.then fun res => key res
  unfold RandFile.ReadO
  by_cases hp : f.has_permanent_fd = true
  · simp only [if_pos hp]
    have := rest f.fd true
    simp only [if_true] at this
    exact this
  · simp only [if_neg hp]
    refine Ret.then fun fd => ?_
    cases fd with
    | error e => exact Ret.pure (by rw [raise_plenty]; exact fun h => nomatch h)
    | ok fd =>
      have := rest fd false
      simp only [Bool.false_eq_true, if_false] at this
      exact this

theorem deleteO_same (E : OEnv) (mem : PMem) (h : Nat) : Ret (OSame E mem) (E.delete strerror mem h) := by
  unfold OEnv.delete
  refine Ret.bind (Ret.pureM (Q := fun o => E.env.has h o) fun o ho => get_has' ho) fun o ho => ?_
  have other : Ret (OSame E mem) (do
      let e ← E.env.delete strerror h
      return ({ E with env := e }, .res .unit) : P (OEnv × Ans)) :=
    Ret.bind (delete_same strerror E.env h) fun e he => Ret.pure (.res he rfl)
  cases o with
  | wr f =>
    refine Ret.bind (Q := fun b => mem = .plenty → b = true) ?_ fun b hb => ?_
    · intro w a w' hr hm
      subst hm
      exact destroyO_plenty strerror f w a w' hr
    · cases b with
      | true => exact Ret.pure (.res (SameLocks.set ho (fun _ _ h => nomatch h) (fun _ _ h => by cases h) _ _) rfl)
      | false => exact Ret.pure ⟨.refl _, rfl, fun h => absurd (hb h) (by simp)⟩
  | _ => exact other

/-- Every call but LockFile and UnlockFile. -/
theorem stepO_same (E : OEnv) (mem : PMem) (o : POp) (hl : o.isLock = false) : Ret (OSame E mem) (E.step strerror full mem o) := by
  have last : ∀ {α : Type} (x : P α) (s : α → St) (g : α → PRes), Ret (OSame E mem) (do
      let a ← x; E.last mem (s a) (g a) : P (OEnv × Ans)) := fun x s g =>
    Ret.then fun a => Ret.pure (.answer (.refl _) rfl)
  cases o with
  | lockFile n => exact nomatch hl
  | unlockFile h => exact nomatch hl
  | newSequential n => exact NewSequentialO_same strerror E mem n
  | newRandomAccess n => exact NewRandomO_same strerror E mem n
  | newWritable n => exact newWFileO_same strerror E mem _ n
  | newAppendable n => exact newWFileO_same strerror E mem _ n
  | newLogger n => exact NewLoggerO_same strerror E mem n
  | fileExists n => exact Ret.then fun a => Ret.pure (.res (.refl _) rfl)
  | getChildren d => exact GetChildrenO_same strerror E mem d
  | removeFile n => exact last (RemoveFile strerror n) id (fun s => .status s)
  | createDir n => exact last (CreateDir strerror n) id (fun s => .status s)
  | removeDir n => exact last (RemoveDir strerror n) id (fun s => .status s)
  | getFileSize n => exact last (GetFileSize strerror n) (·.1) (fun r => .size r.1 r.2)
  | renameFile a b => exact last (RenameFile strerror a b) id (fun s => .status s)
  | seqRead h n =>
    refine Ret.then fun o => ?_
    cases o with
    | seq f => exact last (f.Read strerror n n) (·.1) (fun r => .data r.1 r.2)
    | _ => exact Ret.pureM fun _ hh => nomatch hh
  | seqSkip h n =>
    refine Ret.then fun o => ?_
    cases o with
    | seq f => exact last (f.Skip strerror n) id (fun r => .status r)
    | _ => exact Ret.pureM fun _ hh => nomatch hh
  | randRead h off n =>
    refine Ret.then fun o => ?_
    cases o with
    | rand f =>
      refine Ret.bind (Q := fun l => mem = .plenty → l ≠ none) ?_ fun l hl => ?_
      · intro w a w' h hm
        subst hm
        exact ReadO_plenty strerror f off n n w a w' h
      · cases l with
        | none => exact Ret.pure (.threw (.refl _) rfl fun h => hl h rfl)
        | some l => exact Ret.pure (.res (.refl _) rfl)
    | mmap f => exact Ret.pure (.answer (.refl _) rfl)
    | _ => exact Ret.pureM fun _ hh => nomatch hh
  | write h op =>
    refine Ret.bind (Ret.pureM (Q := fun o => E.env.has h o) fun o ho => get_has' ho) fun o ho => ?_
    cases o with
    | wr f =>
      refine Ret.bind (Q := fun r => mem = .plenty → r.1 ≠ none) ?_ fun r hr => ?_
      · intro w a w' h hm
        subst hm
        exact wstepO_plenty strerror full f op w a w' h
      · obtain ⟨s, f1⟩ := r
        have hs := SameLocks.set ho (fun _ _ h => nomatch h) (o' := some (.wr f1)) (fun _ _ h => by injection h with h; exact nomatch h)
          E.env.mmap_limiter E.env.fd_limiter
        cases s with
        | none => exact Ret.pure (.threw hs rfl fun h => hr h rfl)
        | some s => exact Ret.pure (.res hs rfl)
    | _ => exact Ret.pureM fun _ hh => nomatch hh
  | delete h => exact deleteO_same strerror E mem h

/-! ## LockFile and UnlockFile -/

/-- `held` are the locks of the environment, `lost` the names that stay locked for ever. -/
structure HeldInvL (e : PEnv) (held : List (Nat × Bytes)) (lost : List Bytes) : Prop where
  objs : ∀ h n, (h, n) ∈ held ↔ ∃ fd, e.has h (.lock fd n)
  table : ∀ n, n ∈ e.locks ↔ (∃ h, (h, n) ∈ held) ∨ n ∈ lost
  pw : held.Pairwise (fun a b => a.2 ≠ b.2)
  apart : ∀ h n, (h, n) ∈ held → n ∉ lost

theorem HeldInvL.same {e e' : PEnv} {held : List (Nat × Bytes)} {lost : List Bytes} (h : HeldInvL e held lost)
    (hs : SameLocks e e') : HeldInvL e' held lost := by
  refine ⟨fun i n => (h.objs i n).trans ?_, fun n => by rw [hs.table]; exact h.table n, h.pw, h.apart⟩
  exact exists_congr fun fd => (hs.objs i fd n).symm

/-- What a call does to the locks. -/
structure LockStep (held : List (Nat × Bytes)) (lost : List Bytes) (mem : PMem) (E : OEnv) (op : POp) (r : OEnv × Ans) : Prop where
  inv : ∃ lost', HeldInvL r.1.env (heldStepO held ((mem, op), r.2)) lost' ∧ (∀ n ∈ lost, n ∈ lost') ∧
    (∀ n ∈ lost', n ∈ lost ∨ (op = .lockFile n ∧ r.2 = .threw)) ∧
    (∀ n, op = .lockFile n → mem.message = true → mem.node = true → r.2 = .threw → n ∈ lost')
  refused : ∀ n ∈ lost, op = .lockFile n → ∀ x, r.2 ≠ .res (.opened .ok x)
  locked : E.locked = true → r.1.locked = true ∧ (∀ n x, op = .lockFile n → r.2 ≠ .res (.opened .ok x)) ∧
    (∀ h, op = .unlockFile h → r.2 ≠ .res (.status .ok))
  ret : mem = .plenty → E.locked = false → r.1.locked = false ∧ ∃ x, r.2 = .res x

theorem heldStep_err {held : List (Nat × Bytes)} {n : Bytes} {st : St} {x : Option Nat} (hs : st ≠ .ok) :
    heldStep held (.lockFile n, .opened st x) = held := by
  unfold heldStep
  split
  · rename_i hh; injection hh with _ hh; injection hh with hh _; exact absurd hh hs
  · rename_i hh; injection hh with hh; exact nomatch hh
  · rfl

theorem raise_message {mem : PMem} {s : St} (h : raise mem s = none) : mem.message = false := by
  cases s with
  | ok => exact nomatch h
  | err c a b =>
    unfold raise at h
    simp only [] at h
    split at h
    · exact nomatch h
    · rename_i hm; simpa using hm

/-- A call of LockFile that fails with a status. -/
theorem LockStep.answer {held : List (Nat × Bytes)} {lost : List Bytes} {mem : PMem} {E E' : OEnv} {n : Bytes} {s : St}
    {x : Option Nat} (h : HeldInvL E'.env held lost) (hl : E'.locked = E.locked) (hs : s ≠ .ok) :
    LockStep held lost mem E (.lockFile n) (E'.answer mem s (.opened s x)) := by
  unfold OEnv.answer
  cases hr : raise mem s with
  | none =>
    refine ⟨⟨lost, h, fun _ h => h, fun _ h => .inl h, fun m hm h1 => ?_⟩, (fun _ _ _ _ h => nomatch h), fun hk => ⟨hl.trans hk, ?_, ?_⟩,
      fun h => absurd h (ne_plenty_raise hr)⟩
    · rw [raise_message hr] at h1; exact nomatch h1
    · intro _ _ _ h; exact nomatch h
    · intro _ _ h; exact nomatch h
  | some t =>
    refine ⟨⟨lost, ?_, fun _ h => h, fun _ h => .inl h, (fun m hm _ _ h => nomatch h)⟩, ?_, fun hk => ⟨hl.trans hk, ?_, ?_⟩,
      fun _ h => ⟨hl.trans h, _, rfl⟩⟩
    · show HeldInvL E'.env (heldStep held (.lockFile n, .opened s x)) lost
      rw [heldStep_err hs]; exact h
    · intro _ _ _ y h
      injection h with h; injection h with h _; exact hs h
    · intro _ y _ h
      injection h with h; injection h with h _; exact hs h
    · intro _ h; exact nomatch h

theorem LockFileO_step {E : OEnv} {held : List (Nat × Bytes)} {lost : List Bytes} (h : HeldInvL E.env held lost) (mem : PMem)
    (n : Bytes) : Ret (LockStep held lost mem E (.lockFile n)) (E.LockFile strerror mem n) := by
  unfold OEnv.LockFile
  refine Ret.then fun r => ?_
  cases r with
  | error err => exact Ret.pure (.answer h rfl (PosixError_ne_ok _ _ _))
  | ok fd =>
    simp only []
    cases hL : E.locked with
    | true =>
      simp only [↓reduceIte]
      refine Ret.pure ⟨⟨lost, h, fun _ h => h, fun _ h => .inl h, (fun _ _ _ _ h => nomatch h)⟩, (fun _ _ _ _ h => nomatch h),
        fun hk => ⟨hL, (fun _ _ _ h => nomatch h), (fun _ h => nomatch h)⟩, fun _ hk => ?_⟩
      rw [hL] at hk; exact nomatch hk
    | false =>
      simp only [Bool.false_eq_true, ↓reduceIte]
      unfold lockInsert
      by_cases hn : n ∈ E.env.locks
      · simp only [if_pos hn, Bool.false_eq_true, ↓reduceIte]
        refine Ret.then fun r => Ret.pure (.answer h rfl (by simp))
      · simp only [if_neg hn, ↓reduceIte]
        have hno : ∀ i, (i, n) ∉ held := fun i hi => hn ((h.table n).2 (.inl ⟨i, hi⟩))
        have hnl : n ∉ lost := fun hi => hn ((h.table n).2 (.inr hi))
        cases hN : mem.node with
        | false =>
          simp only [Bool.false_eq_true, ↓reduceIte]
          refine Ret.pure ⟨⟨lost, h, fun _ h => h, fun _ h => .inl h, fun _ _ _ h => ?_⟩, (fun _ _ _ _ h => nomatch h),
            fun hk => ⟨rfl, (fun _ _ _ h => nomatch h), (fun _ h => nomatch h)⟩, fun hp _ => absurd hp (ne_plenty_node hN)⟩
          rw [hN] at h; exact nomatch h
        | true =>
          simp only [↓reduceIte]
          refine Ret.then fun r => ?_
          cases r with
          | error lock_errno =>
            refine Ret.then fun r => Ret.pure (LockStep.answer (E := E) ?_ hL.symm (PosixError_ne_ok _ _ _))
            refine ⟨h.objs, fun m => ?_, h.pw, h.apart⟩
            rw [← h.table m]
            unfold lockRemove
            simp only [List.mem_filter, List.mem_cons, decide_eq_true_eq]
            constructor
            · rintro ⟨h1 | h1, h2⟩
              · exact absurd h1 h2
              · exact h1
            · intro h1
              exact ⟨.inr h1, fun h2 => hn (h2 ▸ h1)⟩
          | ok _ =>
            refine Ret.pure ?_
            unfold OEnv.hand
            cases hO : mem.object with
            | false =>
              simp only [Bool.false_eq_true, ↓reduceIte]
              refine ⟨⟨n :: lost, ?_, fun _ h => List.mem_cons_of_mem _ h, ?_, ?_⟩, (fun _ _ _ _ h => nomatch h),
                fun hk => ?_, fun hp _ => absurd hp (ne_plenty_object hO)⟩
              · refine ⟨h.objs, fun m => ?_, h.pw, fun i m hi hm => ?_⟩
                · show m ∈ n :: E.env.locks ↔ _
                  have := h.table m
                  simp only [List.mem_cons, this]
                  constructor
                  · rintro (h1 | h1 | h1)
                    · exact .inr (.inl h1)
                    · exact .inl h1
                    · exact .inr (.inr h1)
                  · rintro (h1 | h1 | h1)
                    · exact .inr (.inl h1)
                    · exact .inl h1
                    · exact .inr (.inr h1)
                · rcases List.mem_cons.1 hm with rfl | hm
                  · exact hno i hi
                  · exact h.apart i m hi hm
              · intro m hm
                rcases List.mem_cons.1 hm with rfl | hm
                · exact .inr ⟨rfl, rfl⟩
                · exact .inl hm
              · intro m hm _ _ _
                injection hm with hm
                rw [hm]; exact List.mem_cons_self
              · rw [hL] at hk; exact nomatch hk
            | true =>
              simp only [↓reduceIte]
              refine ⟨⟨lost, ?_, fun _ h => h, fun _ h => .inl h, (fun _ _ _ _ h => nomatch h)⟩, ?_, fun hk => ?_,
                fun _ _ => ⟨rfl, _, rfl⟩⟩
              · show HeldInvL _ (heldStep held (.lockFile n, .opened .ok (some _))) lost
                unfold heldStep
                dsimp only
                refine ⟨fun i m => ?_, fun m => ?_, ?_, ?_⟩
                · rw [List.mem_cons]
                  simp only [has_alloc]
                  constructor
                  · rintro (h1 | h1)
                    · injection h1 with h1 h2
                      exact ⟨_, .inr ⟨h1, by rw [h2]⟩⟩
                    · obtain ⟨fd, h2⟩ := (h.objs i m).1 h1
                      exact ⟨fd, .inl h2⟩
                  · rintro ⟨fd', h1 | ⟨h1, h2⟩⟩
                    · exact .inr ((h.objs i m).2 ⟨fd', h1⟩)
                    · injection h2 with _ h2
                      exact .inl (by rw [h1, h2]; rfl)
                · show m ∈ n :: E.env.locks ↔ _
                  simp only [List.mem_cons, h.table m]
                  constructor
                  · rintro (h1 | ⟨i, h1⟩ | h1)
                    · exact .inl ⟨_, .inl (by rw [h1])⟩
                    · exact .inl ⟨i, .inr h1⟩
                    · exact .inr h1
                  · rintro (⟨i, h1 | h1⟩ | h1)
                    · injection h1 with _ h1; exact .inl h1
                    · exact .inr (.inl ⟨i, h1⟩)
                    · exact .inr (.inr h1)
                · rw [List.pairwise_cons]
                  refine ⟨fun a ha hc => hno a.1 (by
                    have : n = a.2 := hc
                    rw [this]; exact ha), h.pw⟩
                · intro i m hi
                  rcases List.mem_cons.1 hi with hi | hi
                  · injection hi with _ hi; rw [hi]; exact hnl
                  · exact h.apart i m hi
              · intro m hm he
                injection he with he
                rw [← he] at hm
                exact absurd hm hnl
              · rw [hL] at hk; exact nomatch hk

theorem UnlockFileO_step {E : OEnv} {held : List (Nat × Bytes)} {lost : List Bytes} (h : HeldInvL E.env held lost) (mem : PMem)
    (i : Nat) : Ret (LockStep held lost mem E (.unlockFile i)) (E.UnlockFile strerror mem i) := by
  unfold OEnv.UnlockFile
  refine Ret.bind (Ret.pureM (Q := fun o => E.env.has i o) fun o ho => get_has' ho) fun o ho => ?_
  cases o with
  | lock fd n =>
    refine Ret.then fun r => ?_
    have hst : ∀ st : St, st ≠ .ok → heldStep held (.unlockFile i, .status st) = held := by
      intro st hs
      cases st with
      | ok => exact absurd rfl hs
      | err _ _ _ => rfl
    cases r with
    | error err =>
      refine Ret.pure ?_
      unfold OEnv.answer
      have hs := PosixError_ne_ok strerror (lit "unlock " ++ n) err
      cases hr : raise mem (PosixError strerror (lit "unlock " ++ n) err) with
      | none =>
        exact ⟨⟨lost, h, fun _ h => h, fun _ h => .inl h, (fun _ h => nomatch h)⟩, (fun _ _ h => nomatch h),
          fun hk => ⟨hk, (fun _ _ h => nomatch h), (fun _ _ h => nomatch h)⟩, fun h => absurd h (ne_plenty_raise hr)⟩
      | some t =>
        refine ⟨⟨lost, ?_, fun _ h => h, fun _ h => .inl h, (fun _ h => nomatch h)⟩, (fun _ _ h => nomatch h),
          fun hk => ⟨hk, (fun _ _ h => nomatch h), fun _ _ h => ?_⟩, fun _ h => ⟨h, _, rfl⟩⟩
        · show HeldInvL E.env (heldStep held (.unlockFile i, .status _)) lost
          rw [hst _ hs]; exact h
        · injection h with h; injection h with h; exact hs h
    | ok _ =>
      simp only []
      cases hL : E.locked with
      | true =>
        simp only [↓reduceIte]
        refine Ret.pure ⟨⟨lost, h, fun _ h => h, fun _ h => .inl h, (fun _ h => nomatch h)⟩, (fun _ _ h => nomatch h),
          fun hk => ⟨hk, (fun _ _ h => nomatch h), (fun _ _ h => nomatch h)⟩, fun _ hk => ?_⟩
        rw [hL] at hk; exact nomatch hk
      | false =>
        simp only [Bool.false_eq_true, ↓reduceIte]
        refine Ret.then fun r => Ret.pure ⟨⟨lost, ?_, fun _ h => h, fun _ h => .inl h, (fun _ h => nomatch h)⟩, (fun _ _ h => nomatch h),
          fun hk => ?_, fun _ _ => ⟨rfl, _, rfl⟩⟩
        · have hin : (i, n) ∈ held := (h.objs i n).2 ⟨fd, ho⟩
          show HeldInvL _ (heldStep held (.unlockFile i, .status .ok)) lost
          unfold heldStep
          dsimp only
          have hmem : ∀ j m, (j, m) ∈ held.filter (fun l => decide (l.1 ≠ i)) ↔ (j, m) ∈ held ∧ j ≠ i := by
            intro j m; simp [List.mem_filter]
          have huniq : ∀ j, (j, n) ∈ held → j = i := by
            intro j hj
            by_contra hne
            have hpw := h.pw
            obtain ⟨a, ha, ha'⟩ := List.getElem_of_mem hin
            obtain ⟨b, hb, hb'⟩ := List.getElem_of_mem hj
            rcases Nat.lt_trichotomy a b with hl | hl | hl
            · exact List.pairwise_iff_getElem.1 hpw a b ha hb hl (by rw [ha', hb'])
            · subst hl
              rw [ha'] at hb'
              injection hb' with hb' _
              exact hne hb'.symm
            · exact List.pairwise_iff_getElem.1 hpw b a hb ha hl (by rw [ha', hb'])
          refine ⟨fun j m => ?_, fun m => ?_, h.pw.filter _, fun j m hj => h.apart j m ((hmem j m).1 hj).1⟩
          · rw [hmem, h.objs]
            unfold PEnv.has
            dsimp only
            rw [List.getElem?_set]
            split
            · rename_i hij
              subst hij
              constructor
              · rintro ⟨_, h2⟩; exact absurd rfl h2
              · rintro ⟨fd', h2⟩; split at h2 <;> exact nomatch h2
            · rename_i hij
              exact ⟨fun h => h.1, fun h => ⟨h, fun h' => hij h'.symm⟩⟩
          · unfold lockRemove
            simp only [List.mem_filter, decide_eq_true_eq, h.table m, hmem]
            constructor
            · rintro ⟨⟨j, h1⟩ | h1, h2⟩
              · refine .inl ⟨j, h1, fun h3 => h2 ?_⟩
                subst h3
                obtain ⟨fd', h4⟩ := (h.objs j m).1 h1
                unfold PEnv.has at ho h4
                rw [ho] at h4
                injection h4 with h4; injection h4 with h4; injection h4 with _ h4
                exact h4.symm
              · exact .inr h1
            · rintro (⟨j, h1, h2⟩ | h1)
              · exact ⟨.inl ⟨j, h1⟩, fun h3 => h2 (huniq j (h3 ▸ h1))⟩
              · exact ⟨.inr h1, fun h3 => h.apart i n hin (h3 ▸ h1)⟩
        · rw [hL] at hk; exact nomatch hk
  | _ => exact Ret.pureM fun _ hh => nomatch hh

theorem stepO_locks {E : OEnv} {held : List (Nat × Bytes)} {lost : List Bytes} (h : HeldInvL E.env held lost) (mem : PMem)
    (op : POp) : Ret (LockStep held lost mem E op) (E.step strerror full mem op) := by
  have other : op.isLock = false → Ret (LockStep held lost mem E op) (E.step strerror full mem op) := by
    intro hl
    refine Ret.mono (stepO_same strerror full E mem op hl) fun r hr => ?_
    have hne : ∀ n, op ≠ .lockFile n := fun n h => by rw [h] at hl; exact nomatch hl
    have hnu : ∀ n, op ≠ .unlockFile n := fun n h => by rw [h] at hl; exact nomatch hl
    refine ⟨⟨lost, ?_, fun _ h => h, fun _ h => .inl h, fun n h => absurd h (hne n)⟩, fun n _ h => absurd h (hne n),
      fun hk => ⟨hr.locked.trans hk, fun n _ h => absurd h (hne n), fun n h => absurd h (hnu n)⟩,
      fun hp hk => ⟨hr.locked.trans hk, hr.ret hp⟩⟩
    have : heldStepO held ((mem, op), r.2) = held := by
      unfold heldStepO
      cases r.2 with
      | res x => exact heldStep_other hl x
      | _ => rfl
    rw [this]
    exact h.same hr.same
  cases op with
  | lockFile n => exact LockFileO_step strerror h mem n
  | unlockFile i => exact UnlockFileO_step strerror h mem i
  | _ => exact other rfl

end Posix
end Lsmdb
