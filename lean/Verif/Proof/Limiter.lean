import Verif.Spec.Limiter
import Mathlib.Algebra.BigOperators.Fin
import Mathlib.Algebra.BigOperators.Group.Finset.Piecewise
import Mathlib.Algebra.Order.BigOperators.Group.Finset

namespace Lsmdb
namespace Limiter

open Posix (wrap32)

/-- Has been granted a unit that is not outstanding yet, or gives one back and has not done so yet. -/
def Pc.granted : Pc → Int
  | .test old => if old > 0 then 1 else 0
  | .leave true => 1
  | .release => 1
  | _ => 0

/-- Has decremented the counter without success. -/
def Pc.lost : Pc → Int
  | .test old => if old > 0 then 0 else 1
  | .undo => 1
  | _ => 0

def total {N : Nat} (w : Pc → Int) (s : Sys N) : Int := ∑ t, w (s.pc t)

theorem total_at {N : Nat} (w : Pc → Int) (s : Sys N) (t : Fin N) (p : Pc) :
    total w (s.at t p) = total w s - w (s.pc t) + w p := by
  unfold total Sys.at
  simp only []
  have h1 : ∑ u, w (s.pc u) = w (s.pc t) + ∑ u ∈ Finset.univ.erase t, w (s.pc u) :=
    (Finset.add_sum_erase _ _ (Finset.mem_univ t)).symm
  have h2 : ∑ u, w (if u = t then p else s.pc u) = w p + ∑ u ∈ Finset.univ.erase t, w (s.pc u) := by
    rw [← Finset.add_sum_erase _ _ (Finset.mem_univ t)]
    congr 1
    · simp
    · refine Finset.sum_congr rfl fun u hu => ?_
      rw [if_neg (Finset.ne_of_mem_erase hu)]
  rw [h1, h2]; omega

theorem total_counter {N : Nat} (w : Pc → Int) (s : Sys N) (t : Fin N) (x : Int) (p : Pc) :
    total w ({ s with acquires_allowed_ := x }.at t p) = total w s - w (s.pc t) + w p :=
  total_at w { s with acquires_allowed_ := x } t p

theorem granted_nonneg (p : Pc) : 0 ≤ p.granted := by
  cases p with
  | test o => unfold Pc.granted; simp only []; split <;> omega
  | leave b => cases b <;> simp [Pc.granted]
  | _ => simp [Pc.granted]

theorem lost_range (p : Pc) : 0 ≤ p.lost ∧ p.lost ≤ 1 := by
  cases p with
  | test o => unfold Pc.lost; simp only []; split <;> omega
  | _ => simp [Pc.lost]

theorem total_lost_range {N : Nat} (s : Sys N) : 0 ≤ total Pc.lost s ∧ total Pc.lost s ≤ N := by
  refine ⟨Finset.sum_nonneg fun t _ => (lost_range _).1, ?_⟩
  have := Finset.sum_le_sum (s := Finset.univ) (f := fun t => (s.pc t).lost) (g := fun _ : Fin N => (1 : Int))
    fun t _ => (lost_range _).2
  simpa [total] using this

theorem total_granted_nonneg {N : Nat} (s : Sys N) : 0 ≤ total Pc.granted s := Finset.sum_nonneg fun t _ => granted_nonneg _

theorem wrap32_small {x : Int} (h : -2147483648 ≤ x) (h' : x < 2147483648) : wrap32 x = x := by
  unfold wrap32; omega

structure Inv {N : Nat} (limit : Int) (out : Int) (s : Sys N) : Prop where
  counter : s.acquires_allowed_ = limit - out - total Pc.granted s - total Pc.lost s
  bound : out + total Pc.granted s ≤ max limit 0

theorem outstanding_append (a b : List Ev) : outstanding (a ++ b) = outstanding a + outstanding b := by
  simp [outstanding, List.countP_append]; omega

theorem Proper.pre {a b : List Ev} (h : Proper (a ++ b)) : Proper a :=
  fun p hp => h p (hp.trans (List.prefix_append a b))

theorem inv_run {N : Nat} {limit : Int} (hl : limit < 2147483648) (hN : (N : Int) ≤ 2147483648) (hlN : (N : Int) - limit ≤ 2147483648)
    {es : List Ev} {s : Sys N} (h : Run (Sys.init N limit) es s) (hp : Proper es) : Inv limit (outstanding es) s := by
  generalize h0 : Sys.init N limit = s0 at h
  induction h with
  | nil =>
    subst h0
    constructor <;> simp [Sys.init, total, outstanding, Pc.granted, Pc.lost]
  | @step s' s'' es e h' hs ih =>
    have hi := ih hp.pre
    obtain ⟨hc, hb⟩ := hi
    have ho : 0 ≤ outstanding es := hp.pre _ (List.prefix_refl _)
    have ho' : 0 ≤ outstanding (es ++ e.toList) := hp _ (List.prefix_refl _)
    rw [outstanding_append] at ho' ⊢
    have hg := total_granted_nonneg s'
    have hlr := total_lost_range s'
    have hw : ∀ {x : Int}, -2147483648 ≤ x → x < 2147483648 → wrap32 x = x := wrap32_small
    cases hs with
    | callAcquire t ht =>
      constructor
      · rw [total_at, total_at, ht]; simp [Sys.at, hc, outstanding, Pc.granted, Pc.lost]
      · rw [total_at, ht]; simp [outstanding, Pc.granted]; simp [outstanding] at hb; omega
    | fetchSub t ht =>
      have g1 := total_counter Pc.granted s' t (wrap32 (s'.acquires_allowed_ - 1)) (.test s'.acquires_allowed_)
      have g2 := total_counter Pc.lost s' t (wrap32 (s'.acquires_allowed_ - 1)) (.test s'.acquires_allowed_)
      rw [ht] at g1 g2
      have hlost : total Pc.lost s' + 1 ≤ N := by
        have h3 : total Pc.lost (s'.at t .undo) = total Pc.lost s' - Pc.lost .acquire + 1 := by
          rw [total_at, ht]; rfl
        have h4 := (total_lost_range (s'.at t .undo)).2
        simp only [Pc.lost] at h3
        omega
      have hwr : wrap32 (s'.acquires_allowed_ - 1) = s'.acquires_allowed_ - 1 := by
        refine hw ?_ ?_ <;> omega
      simp only [Pc.granted, Pc.lost] at g1 g2
      have hz : outstanding (Option.toList (none : Option Ev)) = 0 := rfl
      constructor
      · rw [g1, g2, hz]
        show wrap32 _ = _
        rw [hwr]
        split <;> omega
      · rw [g1, hz]
        split <;> omega
    | test t old ht =>
      have hz : outstanding (Option.toList (none : Option Ev)) = 0 := rfl
      constructor
      · rw [total_at, total_at, ht, hz]
        show s'.acquires_allowed_ = _
        split <;> simp [Pc.granted, Pc.lost, *]
      · rw [total_at, ht, hz]
        split <;> simp [Pc.granted, *] <;> omega
    | undo t ht =>
      have g1 := total_counter Pc.granted s' t (wrap32 (s'.acquires_allowed_ + 1)) (.leave false)
      have g2 := total_counter Pc.lost s' t (wrap32 (s'.acquires_allowed_ + 1)) (.leave false)
      rw [ht] at g1 g2
      have hlost : 1 ≤ total Pc.lost s' := by
        have h4 := (total_lost_range (s'.at t .idle)).1
        have h3 := total_at Pc.lost s' t .idle
        rw [ht] at h3
        simp only [Pc.lost] at h3
        omega
      have hwr : wrap32 (s'.acquires_allowed_ + 1) = s'.acquires_allowed_ + 1 := by
        refine hw ?_ ?_ <;> omega
      simp only [Pc.granted, Pc.lost] at g1 g2
      have hz : outstanding (Option.toList (none : Option Ev)) = 0 := rfl
      constructor
      · rw [g1, g2, hz]
        show wrap32 _ = _
        rw [hwr]
        omega
      · rw [g1, hz]; omega
    | retAcquire t b ht =>
      constructor
      · rw [total_at, total_at, ht]
        show s'.acquires_allowed_ = _
        cases b <;> simp [Pc.granted, Pc.lost, outstanding] <;> simp [outstanding] at hc <;> omega
      · rw [total_at, ht]
        cases b <;> simp [Pc.granted, outstanding] <;> simp [outstanding] at hb <;> omega
    | callRelease t ht =>
      constructor
      · rw [total_at, total_at, ht]
        show s'.acquires_allowed_ = _
        simp [Pc.granted, Pc.lost, outstanding]; simp [outstanding] at hc; omega
      · rw [total_at, ht]
        simp [Pc.granted, outstanding]; simp [outstanding] at hb; omega
    | fetchAdd t ht =>
      have g1 := total_counter Pc.granted s' t (wrap32 (s'.acquires_allowed_ + 1)) .done
      have g2 := total_counter Pc.lost s' t (wrap32 (s'.acquires_allowed_ + 1)) .done
      rw [ht] at g1 g2
      have hgr : 1 ≤ total Pc.granted s' := by
        have h4 := total_granted_nonneg (s'.at t .idle)
        have h3 := total_at Pc.granted s' t .idle
        rw [ht] at h3
        simp only [Pc.granted] at h3
        omega
      have hwr : wrap32 (s'.acquires_allowed_ + 1) = s'.acquires_allowed_ + 1 := by
        refine hw ?_ ?_ <;> omega
      simp only [Pc.granted, Pc.lost] at g1 g2
      have hz : outstanding (Option.toList (none : Option Ev)) = 0 := rfl
      constructor
      · rw [g1, g2, hz]
        show wrap32 _ = _
        rw [hwr]
        omega
      · rw [g1, hz]; omega
    | retRelease t ht =>
      constructor
      · rw [total_at, total_at, ht]; simp [Sys.at, hc, outstanding, Pc.granted, Pc.lost]
      · rw [total_at, ht]; simp [outstanding, Pc.granted]; simp [outstanding] at hb; omega

theorem quiet_total {N : Nat} {s : Sys N} (h : Quiet s) : total Pc.granted s = 0 ∧ total Pc.lost s = 0 := by
  constructor <;> exact Finset.sum_eq_zero fun t _ => by rw [h t]; rfl

/-- A thread alone in the limiter: others idle, `t` at `p`, the counter `c`. -/
structure Solo {N : Nat} (t : Fin N) (s : Sys N) (p : Pc) (c : Int) : Prop where
  pc : s.pc t = p
  others : ∀ u, u ≠ t → s.pc u = .idle
  counter : s.acquires_allowed_ = c

theorem Solo.move {N : Nat} {t : Fin N} {s : Sys N} {p : Pc} {c : Int} (h : Solo t s p c) (p' : Pc) : Solo t (s.at t p') p' c :=
  ⟨by simp [Sys.at], fun u hu => by simp [Sys.at, hu, h.others u hu], h.counter⟩

theorem Solo.set {N : Nat} {t : Fin N} {s : Sys N} {p : Pc} {c : Int} (h : Solo t s p c) (c' : Int) (p' : Pc) :
    Solo t ({ s with acquires_allowed_ := c' }.at t p') p' c' :=
  ⟨by simp [Sys.at], fun u hu => by simp [Sys.at, hu, h.others u hu], rfl⟩

/-- The results of `n` acquisitions in a row with `c` units available. -/
def grants (c : Int) (n : Nat) : List Bool := (List.range n).map fun (i : Nat) => decide ((i : Int) < c)

theorem grants_length (c : Int) (n : Nat) : (grants c n).length = n := by simp [grants]

theorem grants_succ (c : Int) (n : Nat) : grants c (n + 1) = grants c n ++ [decide ((n : Int) < c)] := by
  simp [grants, List.range_succ]

/-- The counter after `n` acquisitions in a row. -/
def after (c : Int) (n : Nat) : Int := if (n : Int) ≤ c then c - n else min c 0

theorem after_pos (c : Int) (n : Nat) : 0 < after c n ↔ (n : Int) < c := by unfold after; split <;> omega

theorem after_win (c : Int) (n : Nat) (h : 0 < after c n) : after c n - 1 = after c (n + 1) := by
  rw [after_pos] at h; unfold after; split <;> split <;> omega

theorem after_lose (c : Int) (n : Nat) (h : ¬ 0 < after c n) : after c n = after c (n + 1) := by
  rw [after_pos] at h; unfold after; split <;> split <;> omega

theorem after_range (c : Int) (n : Nat) (h : -2147483648 < c) (h' : c < 2147483648) : -2147483648 < after c n ∧ after c n < 2147483648 := by
  unfold after; split <;> omega

/-- Where a thread is that has called `Acquire` alone. -/
inductive Inside {N : Nat} (t : Fin N) (s : Sys N) (c : Int) : Prop
  | acquire (h : Solo t s .acquire c)
  | test (h : Solo t s (.test c) (c - 1))
  | undo (h : Solo t s .undo (c - 1)) (h' : ¬ 0 < c)
  | leaveTrue (h : Solo t s (.leave true) (c - 1)) (h' : 0 < c)
  | leaveFalse (h : Solo t s (.leave false) c) (h' : ¬ 0 < c)

theorem acquires_append (t : Nat) (a b : List Bool) : acquires t (a ++ b) = acquires t a ++ acquires t b := by
  simp [acquires]

theorem solo_run {N : Nat} {t : Fin N} {s : Sys N} (c : Int) (hc : -2147483648 < c) (hc' : c < 2147483648) (h0 : Quiet s)
    (hcnt : s.acquires_allowed_ = c) {es : List Ev} {s' : Sys N} (h : Run s es s')
    (hes : ∀ e ∈ es, e = .callAcquire t ∨ ∃ b, e = .retAcquire t b) :
    ∃ n, (es = acquires t (grants c n) ∧ Solo t s' .idle (after c n)) ∨
      (es = acquires t (grants c n) ++ [.callAcquire t] ∧ Inside t s' (after c n)) := by
  induction h with
  | nil => exact ⟨0, .inl ⟨rfl, h0 t, fun u _ => h0 u, by rw [hcnt]; unfold after; split <;> simp <;> omega⟩⟩
  | @step s1 s2 es e h1 hs ih =>
    obtain ⟨n, hn⟩ := ih (fun e he => hes e (List.mem_append_left _ he))
    have hr := after_range c n hc hc'
    have hme : ∀ u, e = some u → u = .callAcquire t ∨ ∃ b, u = .retAcquire t b := fun u hu =>
      hes u (by rw [hu]; simp)
    have hidle : ∀ (u : Fin N) (p : Pc), s1.pc u = p → p ≠ .idle → u = t := by
      intro u p hp hne
      by_contra hut
      rcases hn with ⟨_, hi⟩ | ⟨_, hi⟩
      · exact hne (hp.symm.trans (hi.others u hut))
      · cases hi with
        | acquire h => exact hne (hp.symm.trans (h.others u hut))
        | test h => exact hne (hp.symm.trans (h.others u hut))
        | undo h _ => exact hne (hp.symm.trans (h.others u hut))
        | leaveTrue h _ => exact hne (hp.symm.trans (h.others u hut))
        | leaveFalse h _ => exact hne (hp.symm.trans (h.others u hut))
    cases hs with
    | callAcquire u hu =>
      rcases hme _ rfl with h | ⟨b, h⟩
      · injection h with h
        have hut : u = t := Fin.ext h
        subst hut
        rcases hn with ⟨he, hi⟩ | ⟨_, hi⟩
        · exact ⟨n, .inr ⟨by rw [he]; rfl, .acquire (hi.move _)⟩⟩
        · exfalso; cases hi with
          | acquire h => have := h.pc; rw [hu] at this; exact nomatch this
          | test h => have := h.pc; rw [hu] at this; exact nomatch this
          | undo h _ => have := h.pc; rw [hu] at this; exact nomatch this
          | leaveTrue h _ => have := h.pc; rw [hu] at this; exact nomatch this
          | leaveFalse h _ => have := h.pc; rw [hu] at this; exact nomatch this
      · exact nomatch h
    | fetchSub u hu =>
      have hut := hidle u _ hu (fun h => nomatch h)
      subst hut
      rcases hn with ⟨he, hi⟩ | ⟨he, hi⟩
      · have := hi.pc; rw [hu] at this; exact nomatch this
      · refine ⟨n, .inr ⟨by simpa using he, ?_⟩⟩
        cases hi with
        | acquire h =>
          rw [h.counter, wrap32_small (by omega) (by omega)]
          exact .test (h.set _ _)
        | test h => have := h.pc; rw [hu] at this; exact nomatch this
        | undo h _ => have := h.pc; rw [hu] at this; exact nomatch this
        | leaveTrue h _ => have := h.pc; rw [hu] at this; exact nomatch this
        | leaveFalse h _ => have := h.pc; rw [hu] at this; exact nomatch this
    | test u old hu =>
      have hut := hidle u _ hu (fun h => nomatch h)
      subst hut
      rcases hn with ⟨he, hi⟩ | ⟨he, hi⟩
      · have := hi.pc; rw [hu] at this; exact nomatch this
      · refine ⟨n, .inr ⟨by simpa using he, ?_⟩⟩
        cases hi with
        | acquire h => have := h.pc; rw [hu] at this; exact nomatch this
        | test h =>
          have := h.pc
          rw [hu] at this
          injection this with this
          subst this
          split
          · exact .leaveTrue (h.move _) (by omega)
          · exact .undo (h.move _) (by omega)
        | undo h _ => have := h.pc; rw [hu] at this; exact nomatch this
        | leaveTrue h _ => have := h.pc; rw [hu] at this; exact nomatch this
        | leaveFalse h _ => have := h.pc; rw [hu] at this; exact nomatch this
    | undo u hu =>
      have hut := hidle u _ hu (fun h => nomatch h)
      subst hut
      rcases hn with ⟨he, hi⟩ | ⟨he, hi⟩
      · have := hi.pc; rw [hu] at this; exact nomatch this
      · refine ⟨n, .inr ⟨by simpa using he, ?_⟩⟩
        cases hi with
        | acquire h => have := h.pc; rw [hu] at this; exact nomatch this
        | test h => have := h.pc; rw [hu] at this; exact nomatch this
        | undo h h' =>
          have hw : wrap32 (s1.acquires_allowed_ + 1) = after c n := by
            rw [h.counter, wrap32_small (by omega) (by omega)]; omega
          rw [hw]
          exact .leaveFalse (h.set _ _) h'
        | leaveTrue h _ => have := h.pc; rw [hu] at this; exact nomatch this
        | leaveFalse h _ => have := h.pc; rw [hu] at this; exact nomatch this
    | retAcquire u b hu =>
      have hut := hidle u _ hu (fun h => nomatch h)
      subst hut
      rcases hn with ⟨he, hi⟩ | ⟨he, hi⟩
      · have := hi.pc; rw [hu] at this; exact nomatch this
      · have hacq : ∀ b : Bool, b = decide ((n : Int) < c) →
            es ++ (some (Ev.retAcquire (u : Nat) b)).toList = acquires u (grants c (n + 1)) := by
          intro b hb
          rw [he, grants_succ, acquires_append, ← hb]
          simp [acquires]
        cases hi with
        | acquire h => have := h.pc; rw [hu] at this; exact nomatch this
        | test h => have := h.pc; rw [hu] at this; exact nomatch this
        | undo h _ => have := h.pc; rw [hu] at this; exact nomatch this
        | leaveTrue h h' =>
          have := h.pc; rw [hu] at this; injection this with this; subst this
          refine ⟨n + 1, .inl ⟨hacq true ?_, ?_⟩⟩
          · rw [after_pos] at h'; simp [h']
          · rw [← after_win c n h']; exact h.move _
        | leaveFalse h h' =>
          have := h.pc; rw [hu] at this; injection this with this; subst this
          refine ⟨n + 1, .inl ⟨hacq false ?_, ?_⟩⟩
          · rw [after_pos] at h'; simp [h']
          · rw [← after_lose c n h']; exact h.move _
    | callRelease u hu => rcases hme _ rfl with h | ⟨b, h⟩ <;> exact nomatch h
    | fetchAdd u hu =>
      have hut := hidle u _ hu (fun h => nomatch h)
      subst hut
      exfalso
      rcases hn with ⟨he, hi⟩ | ⟨he, hi⟩
      · have := hi.pc; rw [hu] at this; exact nomatch this
      · cases hi with
        | acquire h => have := h.pc; rw [hu] at this; exact nomatch this
        | test h => have := h.pc; rw [hu] at this; exact nomatch this
        | undo h _ => have := h.pc; rw [hu] at this; exact nomatch this
        | leaveTrue h _ => have := h.pc; rw [hu] at this; exact nomatch this
        | leaveFalse h _ => have := h.pc; rw [hu] at this; exact nomatch this
    | retRelease u hu => rcases hme _ rfl with h | ⟨b, h⟩ <;> exact nomatch h

/-- One call alone can always be completed. -/
theorem solo_acquire {N : Nat} {t : Fin N} {s : Sys N} (h0 : Quiet s) : ∃ b s', Run s (acquires t [b]) s' ∧ Quiet s' := by
  have hq : ∀ {s1 : Sys N} {p : Pc} {c : Int}, Solo t s1 p c → Quiet (s1.at t .idle) := by
    intro s1 p c h u
    by_cases hu : u = t
    · simp [Sys.at, hu]
    · simp [Sys.at, hu, h.others u hu]
  have hs0 : Solo t s .idle s.acquires_allowed_ := ⟨h0 t, fun u _ => h0 u, rfl⟩
  have r1 := Run.step (Run.nil s) (Step.callAcquire s t (h0 t))
  have s1 := hs0.move .acquire
  have r2 := r1.step (Step.fetchSub _ t s1.pc)
  have s2 := s1.set (wrap32 ((s.at t .acquire).acquires_allowed_ - 1)) (.test (s.at t .acquire).acquires_allowed_)
  have r3 := r2.step (Step.test _ t _ s2.pc)
  by_cases hp : (s.at t .acquire).acquires_allowed_ > 0
  · rw [if_pos hp] at r3
    have s3 := s2.move (.leave true)
    have r4 := r3.step (Step.retAcquire _ t true s3.pc)
    exact ⟨true, _, r4, hq s3⟩
  · rw [if_neg hp] at r3
    have s3 := s2.move .undo
    have r4 := r3.step (Step.undo _ t s3.pc)
    have s4 := s3.set (wrap32 (((({ (s.at t .acquire) with
      acquires_allowed_ := wrap32 ((s.at t .acquire).acquires_allowed_ - 1) } : Sys N).at t
        (.test (s.at t .acquire).acquires_allowed_)).at t .undo).acquires_allowed_ + 1)) (.leave false)
    have r5 := r4.step (Step.retAcquire _ t false s4.pc)
    exact ⟨false, _, r5, hq s4⟩

theorem Run.trans {N : Nat} {s s' s'' : Sys N} {es es' : List Ev} (h : Run s es s') (h' : Run s' es' s'') : Run s (es ++ es') s'' := by
  induction h' with
  | nil => simpa using h
  | step _ hs ih => rw [← List.append_assoc]; exact ih.step hs

theorem solo_acquires {N : Nat} {t : Fin N} {s : Sys N} (h0 : Quiet s) (k : Nat) :
    ∃ bs s', bs.length = k ∧ Run s (acquires t bs) s' ∧ Quiet s' := by
  induction k with
  | zero => exact ⟨[], s, rfl, .nil s, h0⟩
  | succ k ih =>
    obtain ⟨bs, s1, h1, h2, h3⟩ := ih
    obtain ⟨b, s2, h4, h5⟩ := solo_acquire (t := t) h3
    exact ⟨bs ++ [b], s2, by simp [h1], by rw [acquires_append]; exact h2.trans h4, h5⟩

end Limiter
end Lsmdb
