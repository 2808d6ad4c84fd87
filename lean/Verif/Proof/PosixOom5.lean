import Verif.Proof.PosixOom4

/-! Histories of calls that may throw: the locks. -/

namespace Lsmdb
namespace Posix

open MemEnv (St lit)

variable (strerror : Strerror) (full : Bool)

/-- The locks after a history. -/
structure LockRun (held : List (Nat × Bytes)) (lost : List Bytes) (E : OEnv) (ops : List (PMem × POp)) (r : OEnv × List Ans) :
    Prop where
  inv : ∃ lost', HeldInvL r.1.env ((ops.zip r.2).foldl heldStepO held) lost' ∧ (∀ n ∈ lost, n ∈ lost') ∧
    (∀ n ∈ lost', n ∈ lost ∨ LockThrew ops r.2 n)
  refused : ∀ n ∈ lost, ∀ mem x, ((mem, POp.lockFile n), Ans.res (.opened .ok x)) ∉ ops.zip r.2
  locked : E.locked = true → r.1.locked = true ∧
    (∀ mem n x, ((mem, POp.lockFile n), Ans.res (.opened .ok x)) ∉ ops.zip r.2) ∧
    (∀ mem h, ((mem, POp.unlockFile h), Ans.res (.status .ok)) ∉ ops.zip r.2)
  ret : (∀ x ∈ ops, x.1 = .plenty) → E.locked = false → r.1.locked = false ∧ r.2.length = ops.length ∧
    ∀ a ∈ r.2, ∃ x, a = .res x

theorem LockRun.cons {held : List (Nat × Bytes)} {lost : List Bytes} {E E1 : OEnv} {mem : PMem} {op : POp} {a : Ans}
    {ops : List (PMem × POp)} {r : OEnv × List Ans} (h1 : LockStep held lost mem E op (E1, a))
    (h2 : ∀ held lost, HeldInvL E1.env held lost → LockRun held lost E1 ops r) :
    LockRun held lost E ((mem, op) :: ops) (r.1, a :: r.2) := by
  obtain ⟨lost1, i1, i2, i3, _⟩ := h1.inv
  have h2 := h2 _ _ i1
  obtain ⟨lost2, j1, j2, j3⟩ := h2.inv
  have thr : ∀ n, LockThrew ops r.2 n → LockThrew ((mem, op) :: ops) (a :: r.2) n := by
    rintro n ⟨m, hm⟩
    exact ⟨m, by rw [List.zip_cons_cons]; exact List.mem_cons_of_mem _ hm⟩
  refine ⟨⟨lost2, ?_, fun n h => j2 n (i2 n h), ?_⟩, ?_, ?_, ?_⟩
  · simpa only [List.zip_cons_cons, List.foldl_cons] using j1
  · intro n hn
    rcases j3 n hn with h | h
    · rcases i3 n h with h | ⟨h, h'⟩
      · exact .inl h
      · right
        have h' : a = .threw := h'
        exact ⟨mem, by rw [List.zip_cons_cons, h, h']; exact List.mem_cons_self⟩
    · exact .inr (thr n h)
  · intro n hn m x hm
    rw [List.zip_cons_cons] at hm
    rcases List.mem_cons.1 hm with hm | hm
    · injection hm with h h'
      injection h with _ h
      exact h1.refused n hn h.symm x h'.symm
    · exact h2.refused n (i2 n hn) m x hm
  · intro hk
    obtain ⟨k1, k2, k3⟩ := h1.locked hk
    obtain ⟨l1, l2, l3⟩ := h2.locked k1
    refine ⟨l1, fun m n x hm => ?_, fun m h hm => ?_⟩
    · rw [List.zip_cons_cons] at hm
      rcases List.mem_cons.1 hm with hm | hm
      · injection hm with h h'
        injection h with _ h
        exact k2 n x h.symm h'.symm
      · exact l2 m n x hm
    · rw [List.zip_cons_cons] at hm
      rcases List.mem_cons.1 hm with hm | hm
      · injection hm with h h'
        injection h with _ h
        exact k3 _ h.symm h'.symm
      · exact l3 m h hm
  · intro hp hk
    obtain ⟨k1, k2⟩ := h1.ret (hp _ List.mem_cons_self) hk
    obtain ⟨l1, l2, l3⟩ := h2.ret (fun x h => hp x (List.mem_cons_of_mem _ h)) k1
    refine ⟨l1, by simp [l2], fun b hb => ?_⟩
    rcases List.mem_cons.1 hb with rfl | hb
    · exact k2
    · exact l3 b hb

theorem LockRun.nil {held : List (Nat × Bytes)} {lost : List Bytes} {E : OEnv} (h : HeldInvL E.env held lost) :
    LockRun held lost E [] (E, []) :=
  ⟨⟨lost, h, fun _ h => h, fun _ h => .inl h⟩, fun _ _ _ _ h => (by cases h), fun hk => ⟨hk, fun _ _ _ h => (by cases h), fun _ _ h => (by cases h)⟩,
    fun _ hk => ⟨hk, rfl, fun _ h => (by cases h)⟩⟩

/-- The history stops here. -/
theorem LockRun.stop {held : List (Nat × Bytes)} {lost : List Bytes} {E E1 : OEnv} {mem : PMem} {op : POp} {a : Ans}
    {ops : List (PMem × POp)} (h1 : LockStep held lost mem E op (E1, a)) (ha : ∀ x, a ≠ .res x) :
    LockRun held lost E ((mem, op) :: ops) (E1, [a]) := by
  have h := LockRun.cons (ops := []) h1 (fun _ _ h => LockRun.nil h)
  obtain ⟨lost', i1, i2, i3⟩ := h.inv
  have hz : ((mem, op) :: ops).zip [a] = [((mem, op), a)] := by simp
  have hz' : ([(mem, op)] : List (PMem × POp)).zip [a] = [((mem, op), a)] := rfl
  refine ⟨⟨lost', ?_, i2, ?_⟩, ?_, ?_, ?_⟩
  · show HeldInvL E1.env ((((mem, op) :: ops).zip [a]).foldl heldStepO held) lost'
    rw [hz]; exact i1
  · intro n hn
    rcases i3 n hn with h | ⟨m, h⟩
    · exact .inl h
    · refine .inr ⟨m, ?_⟩
      rw [hz]; exact h
  · intro n hn m x
    show _ ∉ ((mem, op) :: ops).zip [a]
    rw [hz]; exact h.refused n hn m x
  · intro hk
    show _ ∧ (∀ mem_1 n x, _ ∉ ((mem, op) :: ops).zip [a]) ∧ (∀ mem_1 h, _ ∉ ((mem, op) :: ops).zip [a])
    rw [hz]
    exact h.locked hk
  · intro hp hk
    obtain ⟨_, x, hx⟩ := h1.ret (hp _ List.mem_cons_self) hk
    exact absurd hx (ha x)

theorem runO_locks (ops : List (PMem × POp)) : ∀ {E : OEnv} {held : List (Nat × Bytes)} {lost : List Bytes},
    HeldInvL E.env held lost → Ret (LockRun held lost E ops) (E.run strerror full ops) := by
  induction ops with
  | nil => intro E held lost h; exact Ret.pure (LockRun.nil h)
  | cons x ops ih =>
    obtain ⟨mem, op⟩ := x
    intro E held lost h
    unfold OEnv.run
    refine Ret.bind (stepO_locks strerror full h mem op) fun r hr => ?_
    obtain ⟨E1, a⟩ := r
    have go : Ret (LockRun held lost E ((mem, op) :: ops)) (do
        let (E, rs) ← OEnv.run strerror full E1 ops
        return (E, a :: rs) : P (OEnv × List Ans)) := by
      intro w b w' hb
      rw [bind_eq] at hb
      cases hy : OEnv.run strerror full E1 ops w with
      | fault f => rw [hy] at hb; exact nomatch hb
      | crash w1 => rw [hy] at hb; exact nomatch hb
      | done r2 w2 =>
        rw [hy] at hb
        have hb : Out.done (r2.1, a :: r2.2) w2 = .done b w' := hb
        injection hb with hb _
        rw [← hb]
        exact LockRun.cons hr (fun held lost h => ih h w r2 w2 hy)
    cases a with
    | hangs => exact Ret.pure (LockRun.stop hr fun _ h => nomatch h)
    | ended => exact Ret.pure (LockRun.stop hr fun _ h => nomatch h)
    | res x => exact go
    | threw => exact go

theorem HeldInvL.init (a b : Int) : HeldInvL (PEnv.init a b) [] [] := by
  refine ⟨fun h n => ?_, fun n => ?_, List.Pairwise.nil, fun _ _ h => ?_⟩
  · simp [PEnv.init, PEnv.has]
  · simp [PEnv.init]
  · cases h

/-! ## The mutex of the lock table -/

theorem LockFileO_mutex (E : OEnv) (mem : PMem) (n : Bytes) :
    Ret (fun r : OEnv × Ans => (mem.node = true → r.1.locked = E.locked) ∧
      (r.2 = .threw → mem.message = true → mem.node = false → r.1.locked = true)) (E.LockFile strerror mem n) := by
  have ans : ∀ (E' : OEnv) (s : St) (x : PRes), E'.locked = E.locked →
      ((mem.node = true → (E'.answer mem s x).1.locked = E.locked) ∧
      ((E'.answer mem s x).2 = .threw → mem.message = true → mem.node = false → (E'.answer mem s x).1.locked = true)) := by
    intro E' s x hl
    unfold OEnv.answer
    cases hr : raise mem s with
    | none => exact ⟨fun _ => hl, fun _ h => by rw [raise_message hr] at h; exact nomatch h⟩
    | some t => exact ⟨fun _ => hl, (fun h => nomatch h)⟩
  unfold OEnv.LockFile
  refine Ret.then fun r => ?_
  cases r with
  | error err => exact Ret.pure (ans _ _ _ rfl)
  | ok fd =>
    simp only []
    cases hL : E.locked with
    | true =>
      rw [hL] at ans
      simp only [↓reduceIte]
      exact Ret.pure ⟨fun _ => hL, (fun h => nomatch h)⟩
    | false =>
      rw [hL] at ans
      simp only [Bool.false_eq_true, ↓reduceIte]
      by_cases hi : (lockInsert E.env.locks n).1 = true
      · simp only [if_pos hi]
        cases hN : mem.node with
        | false =>
          simp only [Bool.false_eq_true, ↓reduceIte]
          exact Ret.pure ⟨(fun h => nomatch h), fun _ _ _ => rfl⟩
        | true =>
          rw [hN] at ans
          simp only [↓reduceIte]
          refine Ret.then fun r => ?_
          cases r with
          | error err =>
            refine Ret.then fun _ => Ret.pure ⟨fun _ => ?_, (fun _ _ h => nomatch h)⟩
            unfold OEnv.answer
            split <;> rfl
          | ok _ =>
            refine Ret.pure ⟨fun _ => ?_, (fun _ _ h => nomatch h)⟩
            unfold OEnv.hand
            split <;> rfl
      · simp only [if_neg hi]
        exact Ret.then fun _ => Ret.pure (ans _ _ _ hL)

theorem UnlockFileO_mutex (E : OEnv) (mem : PMem) (h : Nat) :
    Ret (fun r : OEnv × Ans => r.1.locked = E.locked) (E.UnlockFile strerror mem h) := by
  unfold OEnv.UnlockFile
  refine Ret.then fun o => ?_
  cases o with
  | lock fd n =>
    refine Ret.then fun r => ?_
    cases r with
    | error err =>
      refine Ret.pure ?_
      unfold OEnv.answer
      split <;> rfl
    | ok _ =>
      simp only []
      by_cases hL : E.locked = true
      · simp only [if_pos hL]; exact Ret.pure rfl
      · simp only [if_neg hL]; exact Ret.then fun _ => Ret.pure rfl
  | _ => exact Ret.pureM fun _ hh => nomatch hh

theorem stepO_mutex (E : OEnv) (mem : PMem) (op : POp) (hn : ∀ n, op = .lockFile n → mem.node = true) :
    Ret (fun r : OEnv × Ans => r.1.locked = E.locked) (E.step strerror full mem op) := by
  cases hl : op.isLock with
  | false => exact (stepO_same strerror full E mem op hl).mono fun r h => h.locked
  | true =>
    cases op with
    | lockFile n => exact (LockFileO_mutex strerror E mem n).mono fun r h => h.1 (hn n rfl)
    | unlockFile h => exact UnlockFileO_mutex strerror E mem h
    | _ => exact nomatch hl

/-- Unless there was no memory for a node of the set. -/
theorem runO_unlocked (ops : List (PMem × POp)) : ∀ {E : OEnv}, E.locked = false →
    (∀ mem n, (mem, POp.lockFile n) ∈ ops → mem.node = true) →
    Ret (fun r : OEnv × List Ans => r.1.locked = false) (E.run strerror full ops) := by
  induction ops with
  | nil => intro E h _; exact Ret.pure h
  | cons x ops ih =>
    obtain ⟨mem, op⟩ := x
    intro E h hn
    unfold OEnv.run
    refine Ret.bind (stepO_mutex strerror full E mem op fun n e => hn mem n (by rw [e]; exact List.mem_cons_self)) fun r hr => ?_
    obtain ⟨E1, a⟩ := r
    have hk : E1.locked = false := Eq.trans hr h
    have := ih (E := E1) hk fun m n hm => hn m n (List.mem_cons_of_mem _ hm)
    cases a with
    | hangs => exact Ret.pure hk
    | ended => exact Ret.pure hk
    | res x => exact Ret.bind this fun r hr => Ret.pure hr
    | threw => exact Ret.bind this fun r hr => Ret.pure hr

end Posix
end Lsmdb
