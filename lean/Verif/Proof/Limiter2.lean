import Verif.Proof.Limiter

/-!
# When an acquisition is refused
-/

namespace Lsmdb
namespace Limiter
open Posix (wrap32)

/-- In a call. -/
def Pc.busy : Pc → Int
  | .idle => 0
  | _ => 1

theorem inProgress_append (a b : List Ev) : inProgress (a ++ b) = inProgress a + inProgress b := by
  simp [inProgress, List.countP_append]; omega

theorem busy_run {N : Nat} {limit : Int} {es : List Ev} {s : Sys N} (h : Run (Sys.init N limit) es s) :
    total Pc.busy s = inProgress es := by
  generalize h0 : Sys.init N limit = s0 at h
  induction h with
  | nil => subst h0; simp [Sys.init, total, Pc.busy, inProgress]
  | @step s' s'' es e _ hs ih =>
    rw [inProgress_append, ← ih]
    cases hs with
    | callAcquire t ht => rw [total_at, ht]; simp [Pc.busy, inProgress]
    | fetchSub t ht => rw [total_counter, ht]; simp [Pc.busy, inProgress]
    | test t old ht => rw [total_at, ht]; split <;> simp [Pc.busy, inProgress]
    | undo t ht => rw [total_counter, ht]; simp [Pc.busy, inProgress]
    | retAcquire t b ht => rw [total_at, ht]; simp [Pc.busy, inProgress]; omega
    | callRelease t ht => rw [total_at, ht]; simp [Pc.busy, inProgress]
    | fetchAdd t ht => rw [total_counter, ht]; simp [Pc.busy, inProgress]
    | retRelease t ht => rw [total_at, ht]; simp [Pc.busy, inProgress]; omega

theorem busy_bound (p : Pc) : 0 ≤ p.busy - p.granted - p.lost := by
  cases p with
  | test o => simp only [Pc.busy, Pc.granted, Pc.lost]; split <;> omega
  | leave b => cases b <;> simp [Pc.busy, Pc.granted, Pc.lost]
  | _ => simp [Pc.busy, Pc.granted, Pc.lost]

/-- What the counter lacks is outstanding, or belongs to a call of another thread that is in progress. -/
theorem others_bound {N : Nat} {s : Sys N} {t : Fin N} (ht : s.pc t = .acquire) :
    total Pc.granted s + total Pc.lost s ≤ total Pc.busy s - 1 := by
  have h := Finset.single_le_sum (f := fun u => (s.pc u).busy - (s.pc u).granted - (s.pc u).lost)
    (fun u _ => busy_bound (s.pc u)) (Finset.mem_univ t)
  simp only [ht, Finset.sum_sub_distrib] at h
  simp only [Pc.busy, Pc.granted, Pc.lost] at h
  unfold total
  simp only [Pc.busy, Pc.granted, Pc.lost]
  omega

/-- `Acquire` cannot succeed any more. -/
def Pc.refused : Pc → Prop
  | .test old => ¬ old > 0
  | .undo => True
  | .leave b => b = false
  | _ => False

/-- Thread `t` is in a call of `Acquire`; after `es` it has seen the limit exhausted. -/
def Exhausted (limit : Int) (t : Nat) (es : List Ev) : Prop :=
  ∃ a m b, es = a ++ .callAcquire t :: (m ++ b) ∧ (∀ e ∈ m ++ b, e.thread ≠ t) ∧
    limit ≤ outstanding (a ++ .callAcquire t :: m) + (inProgress (a ++ .callAcquire t :: m) - 1)

theorem Exhausted.more {limit : Int} {t : Nat} {es l : List Ev} (h : Exhausted limit t es) (hl : ∀ e ∈ l, e.thread ≠ t) :
    Exhausted limit t (es ++ l) := by
  obtain ⟨a, m, b, rfl, h1, h2⟩ := h
  refine ⟨a, m, b ++ l, by simp, fun e he => ?_, h2⟩
  rw [← List.append_assoc] at he
  rcases List.mem_append.mp he with he | he
  · exact h1 e he
  · exact hl e he

/-- What is known of a thread in `Acquire`. -/
structure Told {N : Nat} (limit : Int) (es : List Ev) (s : Sys N) : Prop where
  start : ∀ t : Fin N, s.pc t = .acquire → ∃ a m, es = a ++ .callAcquire t :: m ∧ ∀ e ∈ m, e.thread ≠ (t : Nat)
  refused : ∀ t : Fin N, (s.pc t).refused → Exhausted limit t es

/-- One thread moves, the others keep what is known of them. -/
theorem Told.move {N : Nat} {limit : Int} {es l : List Ev} {s s' : Sys N} (h : Told limit es s) (u : Fin N)
    (hpc : ∀ t, t ≠ u → s'.pc t = s.pc t) (hl : ∀ e ∈ l, e.thread = (u : Nat))
    (h1 : s'.pc u = .acquire → ∃ a m, es ++ l = a ++ .callAcquire u :: m ∧ ∀ e ∈ m, e.thread ≠ (u : Nat))
    (h2 : (s'.pc u).refused → Exhausted limit u (es ++ l)) : Told limit (es ++ l) s' := by
  have hne : ∀ t : Fin N, t ≠ u → ∀ e ∈ l, e.thread ≠ (t : Nat) := fun t ht e he h =>
    ht (Fin.ext (h.symm.trans (hl e he)))
  constructor
  · intro t ht
    by_cases htu : t = u
    · subst htu; exact h1 ht
    · rw [hpc t htu] at ht
      obtain ⟨a, m, rfl, h3⟩ := h.start t ht
      refine ⟨a, m ++ l, by simp, fun e he => ?_⟩
      rcases List.mem_append.mp he with he | he
      · exact h3 e he
      · exact hne t htu e he
  · intro t ht
    by_cases htu : t = u
    · subst htu; exact h2 ht
    · rw [hpc t htu] at ht
      exact (h.refused t ht).more (hne t htu)

theorem told_run {N : Nat} {limit : Int} (hl : limit < 2147483648) (hN : (N : Int) ≤ 2147483648) (hlN : (N : Int) - limit ≤ 2147483648)
    {es : List Ev} {s : Sys N} (h : Run (Sys.init N limit) es s) (hp : Proper es) : Told limit es s := by
  generalize h0 : Sys.init N limit = s0 at h
  induction h with
  | nil =>
    subst h0
    exact ⟨fun t ht => (nomatch (show Pc.idle = Pc.acquire from ht)), fun t ht => False.elim ht⟩
  | @step s' s'' es e h' hs ih =>
    have hi := ih hp.pre
    subst h0
    have hinv := inv_run hl hN hlN h' hp.pre
    have hb := busy_run h'
    have at_ne : ∀ {s : Sys N} {u : Fin N} {p : Pc}, ∀ t, t ≠ u → (s.at u p).pc t = s.pc t := fun t ht => if_neg ht
    have at_eq : ∀ {s : Sys N} {u : Fin N} {p : Pc}, (s.at u p).pc u = p := if_pos rfl
    cases hs with
    | callAcquire u hu =>
      refine hi.move u at_ne (fun e he => ?_) (fun _ => ⟨es, [], rfl, fun e he => nomatch he⟩) fun h => ?_
      · rw [List.mem_singleton.mp he]; rfl
      · rw [at_eq] at h; exact h.elim
    | fetchSub u hu =>
      refine hi.move u at_ne (fun e he => nomatch he) (fun h => ?_) fun h => ?_
      · rw [at_eq] at h; cases h
      · rw [at_eq] at h
        obtain ⟨a, m, he, hm⟩ := hi.start u hu
        have hc := hinv.counter
        have ho := others_bound hu
        have h : ¬ s'.acquires_allowed_ > 0 := h
        refine ⟨a, m, [], by simp [he], by simpa using hm, ?_⟩
        rw [← he, ← hb]
        omega
    | test u old hu =>
      refine hi.move u at_ne (fun e he => nomatch he) (fun h => ?_) fun h => ?_
      · rw [at_eq] at h; split at h <;> cases h
      · rw [at_eq] at h
        rw [Option.toList_none, List.append_nil]
        refine hi.refused u ?_
        rw [hu]
        split at h
        · cases h
        · assumption
    | undo u hu =>
      refine hi.move u at_ne (fun e he => nomatch he) (fun h => ?_) fun _ => ?_
      · rw [at_eq] at h; cases h
      · rw [Option.toList_none, List.append_nil]
        exact hi.refused u (by rw [hu]; trivial)
    | retAcquire u b hu =>
      refine hi.move u at_ne (fun e he => ?_) (fun h => ?_) fun h => ?_
      · rw [List.mem_singleton.mp he]; rfl
      · rw [at_eq] at h; cases h
      · rw [at_eq] at h; exact h.elim
    | callRelease u hu =>
      refine hi.move u at_ne (fun e he => ?_) (fun h => ?_) fun h => ?_
      · rw [List.mem_singleton.mp he]; rfl
      · rw [at_eq] at h; cases h
      · rw [at_eq] at h; exact h.elim
    | fetchAdd u hu =>
      refine hi.move u at_ne (fun e he => nomatch he) (fun h => ?_) fun h => ?_
      · rw [at_eq] at h; cases h
      · rw [at_eq] at h; exact h.elim
    | retRelease u hu =>
      refine hi.move u at_ne (fun e he => ?_) (fun h => ?_) fun h => ?_
      · rw [List.mem_singleton.mp he]; rfl
      · rw [at_eq] at h; cases h
      · rw [at_eq] at h; exact h.elim

/-- The last event of a run. -/
theorem run_last {N : Nat} {s0 s : Sys N} {es : List Ev} {e : Ev} (h : Run s0 (es ++ [e]) s) :
    ∃ s1 s2, Run s0 es s1 ∧ Step s1 (some e) s2 := by
  generalize hl : es ++ [e] = l at h
  induction h with
  | nil => simp at hl
  | @step s' s'' es' e' h' hs ih =>
    cases e' with
    | none => exact ih (by simpa using hl)
    | some e' =>
      have hl : es ++ [e] = es' ++ [e'] := hl
      obtain ⟨rfl, h2⟩ := List.append_inj' hl rfl
      cases h2
      exact ⟨s', s'', h', hs⟩

end Limiter
end Lsmdb
