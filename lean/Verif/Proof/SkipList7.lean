import Verif.Proof.SkipList6

/-!
# Readers concurrent with the writer end
-/

namespace Lsmdb
namespace SkipList
open Spec

section
variable {K : Type} {cmp : K → K → Int} {base : Mem K} {key : Nat → K}

theorem filter_le (p q : Nat → Bool) (h : ∀ a, p a = true → q a = true) (l : List Nat) :
    (l.filter p).length ≤ (l.filter q).length := by
  induction l with
  | nil => simp
  | cons x l ih =>
    have := h x
    simp only [List.filter_cons]
    cases hp : p x <;> cases hq : q x
    · simpa using ih
    · simp only [Bool.false_eq_true, if_false, if_true, List.length_cons]; omega
    · exact absurd (this hp) (by rw [hq]; decide)
    · simp only [if_true, List.length_cons]; omega

theorem range_filter (L n : Nat) : ((List.range n).filter (fun z => decide (1 ≤ z ∧ z ≤ L))).length ≤ L := by
  have : ∀ n, ((List.range n).filter (fun z => decide (1 ≤ z ∧ z ≤ L))).length ≤ min L (n - 1) := by
    intro n
    induction n with
    | zero => simp
    | succ n ih =>
      rw [List.range_succ, List.filter_append, List.length_append]
      simp only [List.filter_cons, List.filter_nil]
      split
      · rename_i h; simp only [decide_eq_true_eq] at h; simp only [List.length_cons, List.length_nil]; omega
      · simp only [List.length_nil]; omega
  exact Nat.le_trans (this n) (Nat.min_le_left _ _)

theorem above_lin {log : List (Ev K)} (hg : GoodAt cmp base key log) (n x : Nat) :
    above cmp key (pub log) n x ≤ lin log := by
  refine Nat.le_trans (filter_le _ (fun z => decide (1 ≤ z ∧ z ≤ lin log)) ?_ _) (range_filter _ _)
  intro a h
  simp only [decide_eq_true_eq] at h ⊢
  exact (hg.level0 a).mp h.1

/-- A step that goes on either moves to a later node or goes down. -/
theorem body_go {keyOf : Ptr → M K} {q : Search K} {p p' : Pos} {next : Ptr} (h : q.body cmp keyOf p next = .ok (.go p')) :
    (p'.x = next ∧ next ≠ none ∧ p'.level = p.level) ∨ (p'.x = p.x ∧ p'.level + 1 = p.level) := by
  cases q with
  | ge k =>
    simp only [Search.body, geBody, KeyIsAfterNode, bind, Except.bind, pure, Except.pure] at h
    cases next with
    | none =>
      simp only [Bool.false_eq_true, if_false] at h
      right
      cases e : p.prev with
      | none =>
        simp only [e] at h
        split at h
        · cases h
        · cases h; exact ⟨rfl, by simp only; omega⟩
      | some arr =>
        simp only [e] at h
        by_cases hl : p.level < arr.length
        · simp only [if_pos hl] at h
          split at h
          · cases h
          · cases h; exact ⟨rfl, by simp only; omega⟩
        · simp only [if_neg hl] at h; cases h
    | some y =>
      cases ek : keyOf (some y) with
      | error f => simp only [ek] at h; cases h
      | ok k' =>
        simp only [ek] at h
        by_cases hk : cmp k' k < 0
        · simp only [decide_eq_true hk, if_true] at h
          cases h
          exact .inl ⟨rfl, fun e => (nomatch e), rfl⟩
        · simp only [decide_eq_false hk, Bool.false_eq_true, if_false] at h
          right
          cases e : p.prev with
          | none =>
            simp only [e] at h
            split at h
            · cases h
            · cases h; exact ⟨rfl, by simp only; omega⟩
          | some arr =>
            simp only [e] at h
            by_cases hl : p.level < arr.length
            · simp only [if_pos hl] at h
              split at h
              · cases h
              · cases h; exact ⟨rfl, by simp only; omega⟩
            · simp only [if_neg hl] at h; cases h
  | lt k =>
    simp only [Search.body, ltBody, bind, Except.bind, pure, Except.pure] at h
    cases next with
    | none =>
      simp only [if_true] at h
      split at h
      · cases h
      · cases h; exact .inr ⟨rfl, by simp only; omega⟩
    | some y =>
      cases ek : keyOf (some y) with
      | error f => simp only [ek] at h; cases h
      | ok k' =>
        simp only [ek] at h
        by_cases hk : cmp k' k ≥ 0
        · simp only [decide_eq_true hk, if_true] at h
          split at h
          · cases h
          · cases h; exact .inr ⟨rfl, by simp only; omega⟩
        · simp only [decide_eq_false hk, Bool.false_eq_true, if_false] at h
          cases h
          exact .inl ⟨rfl, fun e => (nomatch e), rfl⟩
  | last =>
    simp only [Search.body, lastBody, pure, Except.pure] at h
    cases next with
    | none =>
      simp only at h
      split at h
      · cases h
      · cases h; exact .inr ⟨rfl, by simp only; omega⟩
    | some y => cases h; exact .inl ⟨rfl, fun e => (nomatch e), rfl⟩

/-- Where a search by a reader is; it gets closer to the end with every load. -/
theorem searching_ok (hc : CmpOK cmp) (b : Build) {log : List (Ev K)} (hg : Good cmp base key log) {q : Search K} {p0 p : Pos}
    {T0 T n : Nat} (hp0 : PosOK cmp key (pub (log.take T0)) q p0) (hn : p0.prev = none) (hT0 : T0 ≤ log.length)
    (h : Searching cmp b base log q p0 T0 n p T) :
    PosOK cmp key (pub (log.take T)) q p ∧ p.prev = none ∧ T ≤ log.length ∧
      ∀ x0 x, p0.x = some x0 → p.x = some x →
        n + (above cmp key (pub log) (base.replay log).nodes.length x + p.level) ≤
          above cmp key (pub log) (base.replay log).nodes.length x0 + p0.level := by
  induction h with
  | start => exact ⟨hp0, hn, hT0, fun x0 x h1 h2 => by rw [h1] at h2; cases h2; omega⟩
  | @load n p p' T T' t next s hTt ht hpre hcl hbody ih =>
    obtain ⟨hp, hpn, hT, hm⟩ := ih
    obtain ⟨x, hx, hl, hb⟩ := hp
    obtain ⟨r, T2, hcl2, h1, h2, hr⟩ := cload_ok hg hTt ht hl (hb.imp_right And.left)
    rw [hx, hcl2] at hcl
    injection hcl with hcl
    injection hcl with e1 e2
    subst e1; subst e2
    rw [← hx] at hr
    have hp' : PosOK cmp key (pub (log.take T2)) q p := PosOK.mono h1 ⟨x, hx, hl, hb⟩
    have hI := (hg T2 (by omega)).inv
    have hstep := step_ok hc hI hp' hr (hi := 12) hl (by
      cases q with
      | ge k => intro arr e; rw [hpn] at e; cases e
      | lt k => trivial
      | last => trivial)
    rcases hstep with ⟨p2, hbody2, hp2, _, hn2, _, _, _⟩ | ⟨p2, r2, hbody2, _, _, _⟩
    · have e : q.body cmp (ckey base log T2) p r = .ok (.go p2) := hbody2
      rw [hbody] at e
      cases e
      refine ⟨hp2, hn2 hpn, by omega, ?_⟩
      intro x0 x' e0 e'
      have h3 := hm x0 x e0 hx
      rcases body_go hbody with ⟨g1, g2, g3⟩ | ⟨g1, g2⟩
      · have hok : NextOK cmp key (pub (log.take T2)) p.level x r := by
          obtain ⟨r', hr', hok⟩ := hI.linked p.level x hl (hb.imp_right fun e => pub_mono log h1 e.1)
          have hr : (base.replay (log.take T2)).next (some x) p.level = .ok r := hx ▸ hr
          rw [hr'] at hr
          cases hr
          exact hok
        rw [g1] at e'
        rw [e'] at hok
        have h4 := above_lt hc hg.now.inv (x := x) (y := x') (by
          have := hI.sub0 hok.1
          have h5 := pub_mono log (show T2 ≤ log.length by omega) this
          rwa [List.take_length] at h5) hok.2.1
        omega
      · rw [g1, hx] at e'
        cases e'
        omega
    · have e : q.body cmp (ckey base log T2) p r = .ok (.ret (r2, p2)) := hbody2
      rw [hbody] at e
      cases e

/-- The next load does not fault, whatever it returns. -/
theorem searching_next (hc : CmpOK cmp) (b : Build) {log : List (Ev K)} (hg : Good cmp base key log) {q : Search K} {p : Pos}
    {T t : Nat} (hp : PosOK cmp key (pub (log.take T)) q p) (hpn : p.prev = none) (hTt : T ≤ t) (ht : t ≤ log.length) :
    q.pre cmp b (ckey base log T) p = .ok () ∧ ∃ next T' r, cload base log T t p.x p.level = .ok (next, T') ∧
      q.body cmp (ckey base log T') p next = .ok r := by
  refine ⟨pre_ok b (hg T (by omega)).inv hp, ?_⟩
  obtain ⟨x, hx, hl, hb⟩ := hp
  obtain ⟨r, T2, hcl2, h1, h2, hr⟩ := cload_ok hg hTt ht hl (hb.imp_right And.left)
  rw [← hx] at hr hcl2
  have hp' : PosOK cmp key (pub (log.take T2)) q p := PosOK.mono h1 ⟨x, hx, hl, hb⟩
  have hstep := step_ok hc (hg T2 (by omega)).inv hp' hr (hi := 12) hl (by
    cases q with
    | ge k => intro arr e; rw [hpn] at e; cases e
    | lt k => trivial
    | last => trivial)
  rcases hstep with ⟨p2, hbody2, _⟩ | ⟨p2, r2, hbody2, _⟩
  · exact ⟨r, T2, _, hcl2, hbody2⟩
  · exact ⟨r, T2, _, hcl2, hbody2⟩

end
end SkipList
end Lsmdb
