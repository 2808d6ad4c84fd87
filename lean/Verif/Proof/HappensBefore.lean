import Verif.Spec.HappensBefore

/-!
# What threads and mutexes know

A thread knows a step if the step happens before (or is) one of its own; a mutex knows a step if the step happens before (or is) a
release of the mutex.
-/

namespace Lsmdb
variable {Mu T : Type} {x : Sync Mu T} {i j n : Nat} {t : T} {m : Mu}

theorem HappensBefore.lt (h : HappensBefore x i j) : i < j := by
  induction h with
  | program h _ _ => exact h
  | mutex h _ _ => exact h
  | start h _ _ => exact h
  | trans _ _ h1 h2 => exact Nat.lt_trans h1 h2

/-- Thread `t` knows step `i` before step `n`. -/
def Knows (x : Sync Mu T) (n : Nat) (t : T) (i : Nat) : Prop := ∃ j, j < n ∧ x.thread j t ∧ (i = j ∨ HappensBefore x i j)

/-- Mutex `m` knows step `i` before step `n`. -/
def KnownTo (x : Sync Mu T) (n : Nat) (m : Mu) (i : Nat) : Prop := ∃ j, j < n ∧ x.unlocks j m ∧ (i = j ∨ HappensBefore x i j)

theorem Knows.mono (h : Knows x n t i) {n' : Nat} (hn : n ≤ n') : Knows x n' t i := by
  obtain ⟨j, h1, h2⟩ := h
  exact ⟨j, Nat.lt_of_lt_of_le h1 hn, h2⟩

theorem KnownTo.mono (h : KnownTo x n m i) {n' : Nat} (hn : n ≤ n') : KnownTo x n' m i := by
  obtain ⟨j, h1, h2⟩ := h
  exact ⟨j, Nat.lt_of_lt_of_le h1 hn, h2⟩

theorem Knows.self (h : x.thread n t) : Knows x (n + 1) t n := ⟨n, Nat.lt_succ_self n, h, .inl rfl⟩

/-- What a thread knows happens before its next step. -/
theorem Knows.before (h : Knows x n t i) (ht : x.thread n t) : HappensBefore x i n := by
  obtain ⟨j, h1, h2, h3⟩ := h
  have hj := HappensBefore.program h1 h2 ht
  rcases h3 with rfl | h3
  · exact hj
  · exact h3.trans hj

/-- A thread that takes the mutex knows what the mutex knows. -/
theorem KnownTo.lock (h : KnownTo x n m i) (hl : x.locks n m) (ht : x.thread n t) : Knows x (n + 1) t i := by
  obtain ⟨j, h1, h2, h3⟩ := h
  have hj := HappensBefore.mutex h1 h2 hl
  refine ⟨n, Nat.lt_succ_self n, ht, .inr ?_⟩
  rcases h3 with rfl | h3
  · exact hj
  · exact h3.trans hj

/-- A mutex that a thread releases knows what the thread knows. -/
theorem Knows.unlock (h : Knows x n t i) (hu : x.unlocks n m) (ht : x.thread n t) : KnownTo x (n + 1) m i :=
  ⟨n, Nat.lt_succ_self n, hu, .inr (h.before ht)⟩

/-- What is known to the mutex or to the thread that holds it. -/
def Has (x : Sync Mu T) (n : Nat) (o : Option T) (m : Mu) (i : Nat) : Prop := KnownTo x n m i ∨ ∃ t, o = some t ∧ Knows x n t i

/-- Who holds the mutex knows what it knows. -/
def Guarded (x : Sync Mu T) (n : Nat) (o : Option T) (m : Mu) : Prop := ∀ t, o = some t → ∀ i, KnownTo x n m i → Knows x n t i

theorem Guarded.knows {o : Option T} (g : Guarded x n o m) (h : Has x n o m i) (ht : o = some t) : Knows x n t i := by
  rcases h with h | ⟨u, hu, h⟩
  · exact g t ht i h
  · rw [ht] at hu; cases hu; exact h

/-- What one step does to one mutex. -/
inductive Turn (x : Sync Mu T) (n : Nat) (m : Mu) : Option T → Option T → Prop
  | keep {o : Option T} (h : ¬ x.unlocks n m) : Turn x n m o o
  | lock {t : T} (h : ¬ x.unlocks n m) (hl : x.locks n m) (ht : x.thread n t) : Turn x n m none (some t)
  | unlock {t : T} (hu : x.unlocks n m) (ht : x.thread n t) : Turn x n m (some t) none

theorem KnownTo.old (h : KnownTo x (n + 1) m i) (hn : ¬ x.unlocks n m) : KnownTo x n m i := by
  obtain ⟨j, h1, h2, h3⟩ := h
  rcases Nat.lt_or_ge j n with h | h
  · exact ⟨j, h, h2, h3⟩
  · have : j = n := by omega
    subst this
    exact absurd h2 hn

theorem Guarded.step {o o' : Option T} (g : Guarded x n o m) (h : Turn x n m o o') : Guarded x (n + 1) o' m := by
  intro t ht i hk
  cases h with
  | keep h => exact (g t ht i (hk.old h)).mono (Nat.le_succ n)
  | lock h hl htt => cases ht; exact (hk.old h).lock hl htt
  | unlock hu htt => cases ht

theorem Has.step {o o' : Option T} (h : Has x n o m i) (s : Turn x n m o o') : Has x (n + 1) o' m i := by
  cases s with
  | keep _ => exact h.imp (·.mono (Nat.le_succ n)) fun ⟨t, ht, hk⟩ => ⟨t, ht, hk.mono (Nat.le_succ n)⟩
  | lock _ hl ht =>
    refine .inl (KnownTo.mono ?_ (Nat.le_succ n))
    rcases h with h | ⟨t, ht, _⟩
    · exact h
    · cases ht
  | unlock hu ht =>
    rcases h with h | ⟨t, e, hk⟩
    · exact .inl (h.mono (Nat.le_succ n))
    · cases e; exact .inl (hk.unlock hu ht)

/-- Who holds the mutex makes a step: the mutex has it. -/
theorem Has.own {o' : Option T} (ht : x.thread n t) (s : Turn x n m (some t) o') : Has x (n + 1) o' m n := by
  cases s with
  | keep _ => exact .inr ⟨t, rfl, .self ht⟩
  | unlock hu _ => exact .inl ⟨n, Nat.lt_succ_self n, hu, .inl rfl⟩

theorem Guarded.zero {o : Option T} : Guarded x 0 o m := fun _ _ _ ⟨_, h, _⟩ => absurd h (Nat.not_lt_zero _)

end Lsmdb
