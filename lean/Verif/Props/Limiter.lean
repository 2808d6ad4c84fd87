import Verif.Proof.Limiter2

/-!
# C53: the resource limiter never over-allocates

`N` threads use a limiter made with `limit`; `limit` is an `int`, and fewer than 2^31 threads (2^31 + limit for a
negative limit) exist, so that the failed attempts in progress cannot make the counter wrap around.
-/

namespace Lsmdb
namespace Limiter

/-- C53: whatever the interleaving, at most `limit` granted acquisitions are outstanding (none if the limit is
negative). -/
theorem C53_never_over {N : Nat} {limit : Int} (hl : limit < 2147483648) (hN : (N : Int) ≤ 2147483648)
    (hlN : (N : Int) - limit ≤ 2147483648) {es : List Ev} {s : Sys N} (h : Run (Sys.init N limit) es s) (hp : Proper es) :
    outstanding es ≤ max limit 0 := by
  have hi := inv_run hl hN hlN h hp
  have h1 := hi.bound
  have h2 := total_granted_nonneg s
  omega

/-- C53: when no call is in progress and one thread then calls `Acquire` again and again, exactly the first
`limit - outstanding` calls succeed. -/
theorem C53_quiet {N : Nat} {limit : Int} (hl : limit < 2147483648) (hl' : -2147483648 < limit) (hN : (N : Int) ≤ 2147483648)
    (hlN : (N : Int) - limit ≤ 2147483648) {es : List Ev} {s : Sys N} (h : Run (Sys.init N limit) es s) (hp : Proper es)
    (hq : Quiet s) (t : Fin N) :
    (∀ bs s', Run s (acquires t bs) s' → ∀ (i : Nat) (hi : i < bs.length), bs[i] = true ↔ (i : Int) < limit - outstanding es) ∧
    ∀ k, ∃ bs s', bs.length = k ∧ Run s (acquires t bs) s' ∧ Quiet s' := by
  refine ⟨fun bs s' hr i hi => ?_, solo_acquires hq⟩
  have hv := inv_run hl hN hlN h hp
  obtain ⟨q1, q2⟩ := quiet_total hq
  have hc : s.acquires_allowed_ = limit - outstanding es := by rw [hv.counter, q1, q2]; omega
  have ho : 0 ≤ outstanding es := hp _ (List.prefix_refl _)
  have hb := C53_never_over hl hN hlN h hp
  have hev : ∀ e ∈ acquires t bs, e = Ev.callAcquire t ∨ ∃ b, e = Ev.retAcquire t b := by
    intro e he
    simp only [acquires, List.mem_flatMap] at he
    obtain ⟨b, _, he⟩ := he
    simp only [List.mem_cons, List.not_mem_nil, or_false] at he
    rcases he with rfl | rfl
    · exact .inl rfl
    · exact .inr ⟨b, rfl⟩
  have key : ∀ (n : Nat) (bs : List Bool), acquires t bs = acquires t (grants (limit - outstanding es) n) →
      bs = grants (limit - outstanding es) n := by
    intro n
    generalize grants (limit - outstanding es) n = l
    intro bs
    induction bs generalizing l with
    | nil => intro h; cases l with
      | nil => rfl
      | cons b l => simp [acquires] at h
    | cons b bs ih => intro h; cases l with
      | nil => simp [acquires] at h
      | cons b' l =>
        simp only [acquires, List.flatMap_cons, List.cons_append, List.nil_append, List.cons.injEq, true_and] at h
        injection h.1 with _ h1
        rw [h1, ih l h.2]
  obtain ⟨n, ⟨h1, _⟩ | ⟨h1, _⟩⟩ := solo_run (limit - outstanding es) (by omega) (by omega) hq hc hr hev
  · have := key n bs h1
    subst this
    simp [grants]
  · exfalso
    have hlen : ∀ bs : List Bool, (acquires t bs).length = 2 * bs.length := by
      intro bs
      induction bs with
      | nil => rfl
      | cons b bs ih => simp only [acquires, List.flatMap_cons, List.length_append, List.length_cons, List.length_nil] at ih ⊢; omega
    have := congrArg List.length h1
    rw [List.length_append, hlen, hlen] at this
    simp at this
    omega

/-- C53: an `Acquire` that overlaps no other call fails only when nothing is available. -/
theorem C53_alone {N : Nat} {limit : Int} (hl : limit < 2147483648) (hl' : -2147483648 < limit) (hN : (N : Int) ≤ 2147483648)
    (hlN : (N : Int) - limit ≤ 2147483648) {es : List Ev} {s s' : Sys N} (h : Run (Sys.init N limit) es s) (hp : Proper es)
    (hq : Quiet s) (t : Fin N) (b : Bool) (hr : Run s [.callAcquire t, .retAcquire t b] s') :
    b = true ↔ outstanding es < limit := by
  have := (C53_quiet hl hl' hN hlN h hp hq t).1 [b] s' hr 0 (by simp)
  simp at this
  omega

/-- C53: a call of `Acquire` is refused only if at some moment during the call the acquisitions that are outstanding and the calls of
other threads that are in progress are together at least `limit`.  So overlapping calls are the only reason for a refusal while
something is available, and each of them costs no more than one unit. -/
theorem C53_refused {N : Nat} {limit : Int} (hl : limit < 2147483648) (hN : (N : Int) ≤ 2147483648) (hlN : (N : Int) - limit ≤ 2147483648)
    {es : List Ev} {s : Sys N} {t : Nat} (h : Run (Sys.init N limit) (es ++ [.retAcquire t false]) s)
    (hp : Proper (es ++ [.retAcquire t false])) :
    ∃ a m b, es = a ++ .callAcquire t :: (m ++ b) ∧ (∀ e ∈ m ++ b, e.thread ≠ t) ∧
      limit ≤ outstanding (a ++ .callAcquire t :: m) + (inProgress (a ++ .callAcquire t :: m) - 1) := by
  obtain ⟨s1, s2, h1, h2⟩ := run_last h
  cases h2 with
  | retAcquire u b hu => exact (told_run hl hN hlN h1 hp.pre).refused u (by rw [hu]; rfl)

/-- C53: overlapping calls may all fail although a unit is available: two threads, a limit of one and nothing
outstanding while the second call runs from beginning to end. -/
theorem C53_overlapping_calls_fail : ∃ s s' : Sys 2,
    Run (Sys.init 2 1) [.callAcquire 0, .retAcquire 0 true, .callAcquire 1, .callRelease 0, .retRelease 0] s ∧
    outstanding [.callAcquire 0, .retAcquire 0 true, .callAcquire 1, .callRelease 0, .retRelease 0] = 0 ∧
    Run s [.callAcquire 0, .retAcquire 0 false] s' := by
  let t0 : Fin 2 := 0
  let t1 : Fin 2 := 1
  have r1 := (Run.nil (Sys.init 2 1)).step (Step.callAcquire _ t0 rfl)
  have r2 := r1.step (Step.fetchSub _ t0 rfl)
  have r3 := r2.step (Step.test _ t0 1 rfl)
  have r4 := r3.step (Step.retAcquire _ t0 true rfl)
  have r5 := r4.step (Step.callAcquire _ t1 rfl)
  have r6 := r5.step (Step.fetchSub _ t1 rfl)
  have r7 := r6.step (Step.callRelease _ t0 rfl)
  have r8 := r7.step (Step.fetchAdd _ t0 rfl)
  have r9 := r8.step (Step.retRelease _ t0 rfl)
  exact ⟨_, _, r9, by decide, (((((Run.nil _).step (Step.callAcquire _ t0 rfl)).step (Step.fetchSub _ t0 rfl)).step
    (Step.test _ t0 0 rfl)).step (Step.undo _ t0 rfl)).step (Step.retAcquire _ t0 false rfl)⟩

/-- The hypotheses of `C53_never_over`, `C53_quiet` are met: one granted, one refused, one given back. -/
example : ∃ s : Sys 2, Run (Sys.init 2 1) [.callAcquire 0, .callAcquire 1, .retAcquire 0 true, .retAcquire 1 false, .callRelease 0,
      .retRelease 0] s ∧ Quiet s ∧
    Proper [.callAcquire 0, .callAcquire 1, .retAcquire 0 true, .retAcquire 1 false, .callRelease 0, .retRelease 0] := by
  let t0 : Fin 2 := 0
  let t1 : Fin 2 := 1
  refine ⟨_, ((((((((((Run.nil (Sys.init 2 1)).step (Step.callAcquire _ t0 rfl)).step (Step.callAcquire _ t1 rfl)).step
    (Step.fetchSub _ t0 rfl)).step (Step.fetchSub _ t1 rfl)).step (Step.test _ t0 1 rfl)).step (Step.test _ t1 0 rfl)).step
    (Step.retAcquire _ t0 true rfl)).step (Step.undo _ t1 rfl)).step (Step.retAcquire _ t1 false rfl)).step
    (Step.callRelease _ t0 rfl) |>.step (Step.fetchAdd _ t0 rfl) |>.step (Step.retRelease _ t0 rfl), ?_, ?_⟩
  · intro t
    match t with
    | 0 => rfl
    | 1 => rfl
  · intro pre hp
    rw [List.prefix_iff_eq_take] at hp
    rw [hp]
    have : ∀ k, k ≤ 6 → 0 ≤ outstanding ([.callAcquire 0, .callAcquire 1, .retAcquire 0 true, .retAcquire 1 false,
      .callRelease 0, .retRelease 0].take k) := by decide
    by_cases hk : pre.length ≤ 6
    · exact this _ hk
    · rw [List.take_of_length_le (by simp; omega)]; exact this 6 (by omega)

/-- The hypotheses of `C53_refused` are met: the refused call of the last example (a limit of one, granted to thread 0). -/
example : ∃ s : Sys 2, Run (Sys.init 2 1) ([.callAcquire 0, .retAcquire 0 true, .callAcquire 1] ++ [.retAcquire 1 false]) s ∧
    Proper ([.callAcquire 0, .retAcquire 0 true, .callAcquire 1, .retAcquire 1 false]) := by
  let t0 : Fin 2 := 0
  let t1 : Fin 2 := 1
  refine ⟨_, ((((((((Run.nil (Sys.init 2 1)).step (Step.callAcquire _ t0 rfl)).step (Step.fetchSub _ t0 rfl)).step
    (Step.test _ t0 1 rfl)).step (Step.retAcquire _ t0 true rfl)).step (Step.callAcquire _ t1 rfl)).step
    (Step.fetchSub _ t1 rfl)).step (Step.test _ t1 0 rfl)).step (Step.undo _ t1 rfl) |>.step (Step.retAcquire _ t1 false rfl), ?_⟩
  intro pre hp
  rw [List.prefix_iff_eq_take] at hp
  rw [hp]
  have : ∀ k, k ≤ 4 → 0 ≤ outstanding ([.callAcquire 0, .retAcquire 0 true, .callAcquire 1, .retAcquire 1 false].take k) := by decide
  by_cases hk : pre.length ≤ 4
  · exact this _ hk
  · rw [List.take_of_length_le (by simp; omega)]; exact this 4 (by omega)

end Limiter
end Lsmdb
