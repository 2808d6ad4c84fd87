import Verif.Proof.SkipList1

namespace Lsmdb
namespace SkipList
open Spec

theorem filter_length_lt {α : Type} (p q : α → Bool) (l : List α) (himp : ∀ a ∈ l, p a = true → q a = true)
    {a : α} (ha : a ∈ l) (hq : q a = true) (hp : p a = false) :
    (l.filter p).length < (l.filter q).length := by
  have hle : ∀ l : List α, (∀ a ∈ l, p a = true → q a = true) → (l.filter p).length ≤ (l.filter q).length := by
    intro l
    induction l with
    | nil => intro _; exact Nat.le_refl _
    | cons x xs ih =>
      intro h
      have h1 := ih (fun a ha => h a (List.mem_cons_of_mem _ ha))
      have h2 := h x (by simp)
      simp only [List.filter_cons]
      cases hpx : p x <;> cases hqx : q x <;> simp_all <;> omega
  induction l with
  | nil => cases ha
  | cons x xs ih =>
    simp only [List.filter_cons]
    rcases List.mem_cons.mp ha with rfl | ha'
    · have := hle xs (fun a ha => himp a (List.mem_cons_of_mem _ ha))
      rw [hp, hq]; simp; omega
    · have h1 := ih (fun a ha => himp a (List.mem_cons_of_mem _ ha)) ha'
      have h2 := himp x (by simp)
      cases hpx : p x <;> cases hqx : q x <;> simp_all <;> omega

section
variable {K : Type} (cmp : K → K → Int) (key : Nat → K)

/-- Number of linked nodes above `x`: how far a search can still move. -/
noncomputable def above (S : Nat → Nat → Prop) (n x : Nat) : Nat :=
  ((List.range n).filter (fun z => @decide (S 0 z ∧ nlt cmp key x z) (Classical.propDecidable _))).length

theorem above_le (S : Nat → Nat → Prop) (n x : Nat) : above cmp key S n x ≤ n := by
  unfold above
  have := List.length_filter_le (fun z => @decide (S 0 z ∧ nlt cmp key x z) (Classical.propDecidable _)) (List.range n)
  simpa using this

/-- A position may be `x` for search `q`. -/
def bound : Search K → Nat → Prop
  | .ge k, x => cmp (key x) k < 0
  | .lt k, x => cmp (key x) k < 0
  | .last, _ => True

/-- The search position is on the list of its level and not beyond the target. -/
def PosOK (S : Nat → Nat → Prop) (q : Search K) (p : Pos) : Prop :=
  ∃ x, p.x = some x ∧ p.level < 12 ∧ (x = 0 ∨ (S p.level x ∧ bound cmp key q x))

/-- `p` is the node after which `k` belongs at level `j`. -/
def PrevOK (S : Nat → Nat → Prop) (k : K) (j p : Nat) : Prop :=
  (p = 0 ∨ (S j p ∧ cmp (key p) k < 0)) ∧ ∀ z, S j z → nlt cmp key p z → ¬ cmp (key z) k < 0

/-- `prev` has been filled correctly from level `lo` up to `hi`. -/
def PrevsOK (S : Nat → Nat → Prop) (k : K) (arr : List (Option Ptr)) (lo hi : Nat) : Prop :=
  arr.length = 12 ∧ ∀ j, lo ≤ j → j < hi → ∃ p, arr[j]? = some (some (some p)) ∧ PrevOK cmp key S k j p

def PrevInv (S : Nat → Nat → Prop) (q : Search K) (hi : Nat) (lo : Nat) (prev : Option (List (Option Ptr))) :
    Prop :=
  match q with
  | .ge k => ∀ arr, prev = some arr → PrevsOK cmp key S k arr lo hi
  | _ => True

/-- Correct results of the searches, in terms of the nodes linked at level 0. -/
def RetOK (S : Nat → Nat → Prop) : Search K → Ptr → Prop
  | .ge k, none => ∀ z, S 0 z → cmp (key z) k < 0
  | .ge k, some y => S 0 y ∧ ¬ cmp (key y) k < 0 ∧
      ∀ z, S 0 z → ¬ cmp (key z) k < 0 → cmp (key y) (key z) ≤ 0
  | .lt k, r => ∃ x, r = some x ∧ (x = 0 ∨ (S 0 x ∧ cmp (key x) k < 0)) ∧
      ∀ z, S 0 z → cmp (key z) k < 0 → z = x ∨ nlt cmp key z x
  | .last, r => ∃ x, r = some x ∧ (x = 0 ∨ S 0 x) ∧ ∀ z, S 0 z → z = x ∨ nlt cmp key z x

variable {cmp key}

theorem above_lt (hc : CmpOK cmp) {m : Mem K} {S} (h : Inv cmp key m S) {x y : Nat}
    (hy : S 0 y) (hxy : nlt cmp key x y) :
    above cmp key S m.nodes.length y < above cmp key S m.nodes.length x := by
  classical
  unfold above
  apply filter_length_lt (a := y)
  · intro z _ hz
    simp only [decide_eq_true_eq] at hz ⊢
    exact ⟨hz.1, nlt_trans hc hxy hz.2⟩
  · exact List.mem_range.mpr (h.valid 0 y hy).2.1
  · simp only [decide_eq_true_eq]; exact ⟨hy, hxy⟩
  · simp only [decide_eq_false_iff_not]; exact fun hz => nlt_irrefl hc hz.2

theorem pre_ok (b : Build) {m : Mem K} {S} (h : Inv cmp key m S) {q : Search K} {p : Pos}
    (hp : PosOK cmp key S q p) : q.pre cmp b m.key p = .ok () := by
  obtain ⟨x, hx, hl, hb⟩ := hp
  cases q with
  | ge k => rfl
  | last => rfl
  | lt k =>
    simp only [Search.pre, ltPre, assertIf, hx]
    cases b.asserts
    · simp
    · by_cases h0 : x = 0
      · subst h0; simp [cassert, bind, Except.bind, pure, Except.pure]
      · have hS := hb.resolve_left h0
        have hk := h.key_ok hS.1
        have hb' : cmp (key x) k < 0 := hS.2
        simp [cassert, bind, Except.bind, pure, Except.pure, h0, hk, hb']

/-- What one iteration does: either it moves on, keeping the invariant and getting closer to the end,
or it returns a correct result. -/
theorem step_ok (hc : CmpOK cmp) {m : Mem K} {S} (h : Inv cmp key m S) {q : Search K} {p : Pos}
    (hp : PosOK cmp key S q p) {r : Ptr} (hr : m.next p.x p.level = .ok r) {hi : Nat} (hhi : p.level < hi)
    (hprev : PrevInv cmp key S q hi (p.level + 1) p.prev) :
    (∃ p', q.body cmp m.key p r = .ok (.go p') ∧ PosOK cmp key S q p' ∧ p'.level < hi ∧
      (p.prev = none → p'.prev = none) ∧ (p.prev ≠ none → p'.prev ≠ none) ∧
      PrevInv cmp key S q hi (p'.level + 1) p'.prev ∧
      ∀ x x', p.x = some x → p'.x = some x' →
        above cmp key S m.nodes.length x' + p'.level < above cmp key S m.nodes.length x + p.level) ∨
    (∃ p' r', q.body cmp m.key p r = .ok (.ret (r', p')) ∧ RetOK cmp key S q r' ∧
      (p.prev ≠ none → p'.prev ≠ none) ∧ PrevInv cmp key S q hi 0 p'.prev) := by
  obtain ⟨x, hx, hl, hb⟩ := hp
  have hxS : x = 0 ∨ S p.level x := hb.imp_right And.left
  obtain ⟨r', hr', hok⟩ := h.linked p.level x hl hxS
  rw [hx, hr'] at hr
  cases hr
  -- the position is not above anything it should not be above
  have hfar (z : Nat) (hz : S 0 z) (k : K) (hb' : x = 0 ∨ cmp (key x) k < 0) (hzk : ¬ cmp (key z) k < 0) :
      nlt cmp key x z := by
    refine ⟨(h.valid 0 z hz).1, ?_⟩
    rcases hb' with e | e
    · exact Or.inl e
    · exact Or.inr (lt_of_lt_of_le hc e (le_of_not_lt hc hzk))
  cases q with
  | ge k =>
    have hbk : x = 0 ∨ cmp (key x) k < 0 := hb.imp_right And.right
    simp only [Search.body, geBody]
    -- the branch that goes down or returns
    have down (hstop : KeyIsAfterNode cmp m.key k r = .ok false)
        (hgap : ∀ z, S p.level z → nlt cmp key x z → ¬ cmp (key z) k < 0) :
        ∃ pv : Option (List (Option Ptr)),
          (geBody cmp k m.key p r = if p.level = 0 then .ok (.ret (r, { p with prev := pv }))
              else .ok (.go { p with prev := pv, level := p.level - 1 })) ∧
          (p.prev = none → pv = none) ∧ (p.prev ≠ none → pv ≠ none) ∧
          PrevInv cmp key S (.ge k) hi p.level pv := by
      cases hpv : p.prev with
      | none =>
        refine ⟨none, ?_, fun _ => rfl, fun e => absurd rfl e, ?_⟩
        · simp only [geBody, hstop, bind, Except.bind, hpv, pure, Except.pure, Bool.false_eq_true, if_false]
        · intro arr e; cases e
      | some arr =>
        obtain ⟨hlen, hall⟩ := hprev arr hpv
        refine ⟨some (arr.set p.level (some p.x)), ?_, fun e => (by cases e), fun _ e => (by cases e), ?_⟩
        · have : p.level < arr.length := by omega
          simp only [geBody, hstop, bind, Except.bind, hpv, pure, Except.pure, Bool.false_eq_true, if_false,
            this, if_true]
        · intro arr' e
          cases e
          refine ⟨by simp [hlen], ?_⟩
          intro j h1 h2
          by_cases hj : j = p.level
          · subst hj
            refine ⟨x, ?_, hb.imp_right (fun e => ⟨e.1, e.2⟩), hgap⟩
            rw [List.getElem?_set_self (by omega), hx]
          · obtain ⟨pj, hpj, hok⟩ := hall j (by omega) h2
            exact ⟨pj, by rw [List.getElem?_set_ne (Ne.symm hj)]; exact hpj, hok⟩
    -- finish a stopping branch
    have finish (hstop : KeyIsAfterNode cmp m.key k r = .ok false)
        (hgap : ∀ z, S p.level z → nlt cmp key x z → ¬ cmp (key z) k < 0)
        (hret : p.level = 0 → RetOK cmp key S (.ge k) r) :
        (∃ p', geBody cmp k m.key p r = .ok (.go p') ∧ PosOK cmp key S (.ge k) p' ∧ p'.level < hi ∧
          (p.prev = none → p'.prev = none) ∧ (p.prev ≠ none → p'.prev ≠ none) ∧
          PrevInv cmp key S (.ge k) hi (p'.level + 1) p'.prev ∧
          ∀ x x', p.x = some x → p'.x = some x' →
            above cmp key S m.nodes.length x' + p'.level < above cmp key S m.nodes.length x + p.level) ∨
        (∃ p' r'', geBody cmp k m.key p r = .ok (.ret (r'', p')) ∧ RetOK cmp key S (.ge k) r'' ∧
          (p.prev ≠ none → p'.prev ≠ none) ∧ PrevInv cmp key S (.ge k) hi 0 p'.prev) := by
      obtain ⟨pv, hbody, hn1, hn2, hpinv⟩ := down hstop hgap
      by_cases h0 : p.level = 0
      · right
        refine ⟨{ p with prev := pv }, r, by rw [hbody, if_pos h0], hret h0, hn2, ?_⟩
        rw [h0] at hpinv; exact hpinv
      · left
        refine ⟨{ p with prev := pv, level := p.level - 1 }, by rw [hbody, if_neg h0],
          ⟨x, hx, by simp only; omega, ?_⟩, by simp only; omega, hn1, hn2, ?_, ?_⟩
        · exact hb.imp_right (fun e => ⟨h.sub (by simp only; omega) e.1, e.2⟩)
        · simp only
          rw [Nat.sub_add_cancel (by omega)]; exact hpinv
        · intro a c ha hc'
          simp only at hc' ⊢
          rw [ha] at hc'; cases hc'; omega
    cases r with
    | none =>
      apply finish rfl
      · intro z hz hlt; exact absurd hlt (hok z hz)
      · intro h0
        rw [h0] at hok
        intro z hz
        apply Classical.byContradiction
        intro hcon
        exact hok z hz (hfar z hz k hbk hcon)
    | some y =>
      obtain ⟨hy, hxy, hmin⟩ := hok
      have hky := h.key_ok hy
      by_cases hcmp : cmp (key y) k < 0
      · left
        have hkia : KeyIsAfterNode cmp m.key k (some y) = .ok true := by
          simp [KeyIsAfterNode, hky, hcmp, bind, Except.bind, pure, Except.pure]
        refine ⟨{ p with x := some y }, ?_, ⟨y, rfl, hl, Or.inr ⟨hy, hcmp⟩⟩, hhi, id, id, hprev, ?_⟩
        · simp [hkia, bind, Except.bind, pure, Except.pure]
        · intro a c ha hc'
          rw [hx] at ha; cases ha; cases hc'
          have := above_lt hc h (h.sub0 hy) hxy
          simp only; omega
      · have hkia : KeyIsAfterNode cmp m.key k (some y) = .ok false := by
          simp [KeyIsAfterNode, hky, hcmp, bind, Except.bind, pure, Except.pure]
        apply finish hkia
        · intro z hz hlt
          rcases hmin z hz hlt with e | e
          · exact e ▸ hcmp
          · intro hzk
            rcases e.2 with e0 | e0
            · exact (h.valid _ _ hy).1 e0
            · exact hcmp (lt_trans' hc e0 hzk)
        · intro h0
          rw [h0] at hy hmin
          refine ⟨hy, hcmp, ?_⟩
          intro z hz hzk
          rcases hmin z hz (hfar z hz k hbk hzk) with e | e
          · rw [e, cmp_self hc]; exact Int.le_refl _
          · rcases e.2 with e0 | e0
            · exact absurd e0 (h.valid _ _ hy).1
            · omega
  | lt k =>
    have hbk : x = 0 ∨ cmp (key x) k < 0 := hb.imp_right And.right
    have hlow (hgap : ∀ z, S p.level z → nlt cmp key x z → ¬ cmp (key z) k < 0) (h0 : p.level = 0) :
        RetOK cmp key S (.lt k) p.x := by
      rw [h0] at hgap hb
      refine ⟨x, hx, hb, ?_⟩
      intro z hz hzk
      have hxS0 : x = 0 ∨ S 0 x := by rw [h0] at hxS; exact hxS
      rcases nlt_total hc h (Or.inr hz) hxS0 with e | e | e
      · exact Or.inl e
      · exact Or.inr e
      · exact absurd hzk (hgap z hz e)
    have finish (hbody : ltBody cmp k m.key p r = (if p.level = 0 then .ok (.ret (p.x, p))
          else .ok (.go { p with level := p.level - 1 })))
        (hgap : ∀ z, S p.level z → nlt cmp key x z → ¬ cmp (key z) k < 0) :
        (∃ p', ltBody cmp k m.key p r = .ok (.go p') ∧ PosOK cmp key S (.lt k) p' ∧ p'.level < hi ∧
          (p.prev = none → p'.prev = none) ∧ (p.prev ≠ none → p'.prev ≠ none) ∧
          PrevInv cmp key S (.lt k) hi (p'.level + 1) p'.prev ∧
          ∀ x x', p.x = some x → p'.x = some x' →
            above cmp key S m.nodes.length x' + p'.level < above cmp key S m.nodes.length x + p.level) ∨
        (∃ p' r'', ltBody cmp k m.key p r = .ok (.ret (r'', p')) ∧ RetOK cmp key S (.lt k) r'' ∧
          (p.prev ≠ none → p'.prev ≠ none) ∧ PrevInv cmp key S (.lt k) hi 0 p'.prev) := by
      by_cases h0 : p.level = 0
      · right
        exact ⟨p, p.x, by rw [hbody, if_pos h0], hlow hgap h0, id, trivial⟩
      · left
        refine ⟨{ p with level := p.level - 1 }, by rw [hbody, if_neg h0],
          ⟨x, hx, by simp only; omega, ?_⟩, by simp only; omega, id, id, trivial, ?_⟩
        · exact hb.imp_right (fun e => ⟨h.sub (by simp only; omega) e.1, e.2⟩)
        · intro a c ha hc'
          simp only at hc' ⊢
          rw [ha] at hc'; cases hc'; omega
    cases r with
    | none =>
      apply finish
      · simp [ltBody, bind, Except.bind, pure, Except.pure]
      · intro z hz hlt; exact absurd hlt (hok z hz)
    | some y =>
      obtain ⟨hy, hxy, hmin⟩ := hok
      have hky := h.key_ok hy
      by_cases hcmp : cmp (key y) k < 0
      · left
        have hge : ¬ 0 ≤ cmp (key y) k := by omega
        refine ⟨{ p with x := some y }, ?_, ⟨y, rfl, hl, Or.inr ⟨hy, hcmp⟩⟩, hhi, id, id, hprev, ?_⟩
        · simp [Search.body, ltBody, hky, hge, bind, Except.bind, pure, Except.pure]
        · intro a c ha hc'
          rw [hx] at ha; cases ha; cases hc'
          have := above_lt hc h (h.sub0 hy) hxy
          simp only; omega
      · have hge : 0 ≤ cmp (key y) k := by omega
        apply finish
        · simp [ltBody, hky, hge, bind, Except.bind, pure, Except.pure]
        · intro z hz hlt
          rcases hmin z hz hlt with e | e
          · exact e ▸ hcmp
          · intro hzk
            rcases e.2 with e0 | e0
            · exact (h.valid _ _ hy).1 e0
            · exact hcmp (lt_trans' hc e0 hzk)
  | last =>
    cases r with
    | none =>
      by_cases h0 : p.level = 0
      · right
        refine ⟨p, p.x, by simp [Search.body, lastBody, h0, pure, Except.pure], ?_, id, trivial⟩
        rw [h0] at hxS hok
        refine ⟨x, hx, hxS, ?_⟩
        intro z hz
        rcases nlt_total hc h (Or.inr hz) hxS with e | e | e
        · exact Or.inl e
        · exact Or.inr e
        · exact absurd e (hok z hz)
      · left
        refine ⟨{ p with level := p.level - 1 }, by simp [Search.body, lastBody, h0, pure, Except.pure],
          ⟨x, hx, by simp only; omega, ?_⟩, by simp only; omega, id, id, trivial, ?_⟩
        · exact hb.imp_right (fun e => ⟨h.sub (by simp only; omega) e.1, e.2⟩)
        · intro a c ha hc'
          simp only at hc' ⊢
          rw [ha] at hc'; cases hc'; omega
    | some y =>
      obtain ⟨hy, hxy, hmin⟩ := hok
      left
      refine ⟨{ p with x := some y }, by simp [Search.body, lastBody, pure, Except.pure],
        ⟨y, rfl, hl, Or.inr ⟨hy, trivial⟩⟩, hhi, id, id, hprev, ?_⟩
      intro a c ha hc'
      rw [hx] at ha; cases ha; cases hc'
      have := above_lt hc h (h.sub0 hy) hxy
      simp only; omega

theorem loop_ok (hc : CmpOK cmp) (b : Build) {m : Mem K} {S} (h : Inv cmp key m S) {q : Search K} {hi : Nat} :
    ∀ (fuel : Nat) (p : Pos) (x : Nat), PosOK cmp key S q p → p.x = some x → p.level < hi →
      PrevInv cmp key S q hi (p.level + 1) p.prev →
      above cmp key S m.nodes.length x + p.level < fuel →
      ∃ r p', loop cmp b m q fuel p = .ok (r, p') ∧ RetOK cmp key S q r ∧
        (p.prev ≠ none → p'.prev ≠ none) ∧ PrevInv cmp key S q hi 0 p'.prev := by
  intro fuel
  induction fuel with
  | zero => intro p x _ _ _ _ hf; omega
  | succ fuel ih =>
    intro p x hp hx hlt hprev hf
    obtain ⟨x', hx', hl, hb⟩ := hp
    rw [hx] at hx'; cases hx'
    have hxS : x = 0 ∨ S p.level x := hb.imp_right And.left
    obtain ⟨r, hr, _⟩ := h.linked p.level x hl hxS
    have hr' : m.next p.x p.level = .ok r := by rw [hx]; exact hr
    have hp : PosOK cmp key S q p := ⟨x, hx, hl, hb⟩
    have hpre := pre_ok b h hp
    rcases step_ok hc h hp hr' hlt hprev with ⟨p', hbody, hp', hlt', _, hn, hprev', hdec⟩ |
        ⟨p', r', hbody, hret, hn, hprev'⟩
    · have hp2 := hp'
      obtain ⟨y, hy, _⟩ := hp2
      have hd := hdec x y hx hy
      obtain ⟨r2, p2, h1, h2, h3, h4⟩ := ih p' y hp' hy hlt' hprev' (by omega)
      refine ⟨r2, p2, ?_, h2, fun e => h3 (hn e), h4⟩
      simp only [loop, hpre, hr', hbody, bind, Except.bind, h1]
    · refine ⟨r', p', ?_, hret, hn, hprev'⟩
      simp only [loop, hpre, hr', hbody, bind, Except.bind, pure, Except.pure]

/-- The searches on a well-formed memory: they end, without fault, with a correct result. -/
theorem find_ok (hc : CmpOK cmp) (b : Build) {m : Mem K} {S} (h : Inv cmp key m S)
    (hH : 1 ≤ m.maxH ∧ m.maxH ≤ 12) (q : Search K) (prev : Option (List (Option Ptr)))
    (hprev : ∀ arr, prev = some arr → arr.length = 12) :
    ∃ r p', find cmp b m q prev = .ok (r, p') ∧ RetOK cmp key S q r ∧ (prev ≠ none → p'.prev ≠ none) ∧
      PrevInv cmp key S q m.maxH 0 p'.prev := by
  have hstart : startPos m.maxH prev = .ok ⟨some 0, m.maxH - 1, prev⟩ := by
    unfold startPos; rw [if_neg (by omega)]
  have hle := above_le cmp key S m.nodes.length 0
  obtain ⟨r, p', h1, h2, h3, h4⟩ := loop_ok hc b h (q := q) (hi := m.maxH) (fuelFor m)
    ⟨some 0, m.maxH - 1, prev⟩ 0 ⟨0, rfl, by simp only; omega, Or.inl rfl⟩ rfl (by simp only; omega) (by
      cases q with
      | ge k =>
        intro arr e
        refine ⟨hprev arr e, ?_⟩
        intro j h1 h2
        simp only at h1; omega
      | lt k => trivial
      | last => trivial) (by unfold fuelFor; simp only; omega)
  exact ⟨r, p', by simp only [find, hstart, bind, Except.bind]; exact h1, h2, h3, h4⟩

end
end SkipList
end Lsmdb
