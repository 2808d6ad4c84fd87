import Verif.Proof.SkipList5

namespace Lsmdb
namespace SkipList
open Spec

section
variable {K : Type} {cmp : K → K → Int} {base : Mem K} {key : Nat → K}

theorem iterKey_ok (b : Build) {m : Mem K} {S} (hi : Inv cmp key m S) {y : Nat} (hy : S 0 y) :
    iterKey b m (some y) = .ok (key y) := by
  unfold iterKey
  simp only [Valid, Option.isSome, assertIf, cassert, bind, Except.bind, pure, Except.pure, if_true, hi.key_ok hy]
  cases b.asserts <;> rfl

theorem position_ok (b : Build) {m : Mem K} {S} (hi : Inv cmp key m S) {node : Ptr} (hn : NodeOK S node) :
    position b m node = .ok (node.map key) := by
  rcases hn with rfl | ⟨y, rfl, hy⟩
  · rfl
  · simp [position, Valid, iterKey_ok b hi hy, bind, Except.bind, pure, Except.pure]

/-- Strictly increasing in the comparator. -/
def Increasing (cmp : K → K → Int) (l : List K) : Prop := l.Pairwise (fun a b => cmp a b < 0)

theorem scan_fwd (hc : CmpOK cmp) (b : Build) {m : Mem K} {S} (hi : Inv cmp key m S) :
    ∀ (n y : Nat), S 0 y → above cmp key S m.nodes.length y ≤ n → ∃ L, (∀ fuel, n + 2 ≤ fuel →
        scanForward cmp b m fuel (some y) = .ok L) ∧ Increasing cmp L ∧
        ∀ k, k ∈ L ↔ ∃ z, S 0 z ∧ (z = y ∨ nlt cmp key y z) ∧ key z = k := by
  intro n
  induction n with
  | zero =>
    intro y hy hab
    obtain ⟨r, hr, hok⟩ := hi.linked 0 y (by omega) (Or.inr hy)
    cases r with
    | some y' =>
      have := above_lt hc hi hok.1 hok.2.1
      omega
    | none =>
      refine ⟨[key y], ?_, by simp [Increasing], ?_⟩
      · intro fuel hf
        obtain ⟨f, rfl⟩ : ∃ f, fuel = f + 1 + 1 := ⟨fuel - 2, by omega⟩
        have hnext : iter cmp b m (some y) .next = .ok none := by
          simp only [iter, Valid, Option.isSome, assertIf, cassert, bind, Except.bind, pure, Except.pure, if_true]
          cases b.asserts <;> simpa using hr
        simp [scanForward, Valid, iterKey_ok b hi hy, hnext, bind, Except.bind, pure, Except.pure]
      · intro k
        simp only [List.mem_singleton]
        constructor
        · rintro rfl; exact ⟨y, hy, Or.inl rfl, rfl⟩
        · rintro ⟨z, hz, rfl | h, rfl⟩
          · rfl
          · exact absurd h (hok z hz)
  | succ n ih =>
    intro y hy hab
    obtain ⟨r, hr, hok⟩ := hi.linked 0 y (by omega) (Or.inr hy)
    have hnext : iter cmp b m (some y) .next = .ok r := by
      simp only [iter, Valid, Option.isSome, assertIf, cassert, bind, Except.bind, pure, Except.pure, if_true]
      cases b.asserts <;> simpa using hr
    cases r with
    | none =>
      refine ⟨[key y], ?_, by simp [Increasing], ?_⟩
      · intro fuel hf
        obtain ⟨f, rfl⟩ : ∃ f, fuel = f + 1 + 1 := ⟨fuel - 2, by omega⟩
        simp [scanForward, Valid, iterKey_ok b hi hy, hnext, bind, Except.bind, pure, Except.pure]
      · intro k
        simp only [List.mem_singleton]
        constructor
        · rintro rfl; exact ⟨y, hy, Or.inl rfl, rfl⟩
        · rintro ⟨z, hz, rfl | h, rfl⟩
          · rfl
          · exact absurd h (hok z hz)
    | some y' =>
      obtain ⟨h1, h2, h3⟩ := hok
      have hlt := above_lt hc hi h1 h2
      obtain ⟨L, hL, hinc, hmem⟩ := ih y' h1 (by omega)
      refine ⟨key y :: L, ?_, ?_, ?_⟩
      · intro fuel hf
        obtain ⟨f, rfl⟩ : ∃ f, fuel = f + 1 := ⟨fuel - 1, by omega⟩
        have e1 := hL f (by omega)
        have e0 : scanForward cmp b m (f + 1) (some y) = (do
          let k ← iterKey b m (some y)
          let node ← iter cmp b m (some y) .next
          return k :: (← scanForward cmp b m f node)) := by simp [scanForward, Valid]
        rw [e0]
        simp only [iterKey_ok b hi hy, hnext, e1, bind, Except.bind, pure, Except.pure]
      · unfold Increasing at *
        rw [List.pairwise_cons]
        refine ⟨?_, hinc⟩
        intro k hk
        obtain ⟨z, hz, hz', rfl⟩ := (hmem k).mp hk
        have hyz : nlt cmp key y z := by
          rcases hz' with rfl | h
          · exact h2
          · exact nlt_trans hc h2 h
        exact hyz.2.resolve_left (hi.valid 0 y hy).1
      · intro k
        rw [List.mem_cons, hmem k]
        constructor
        · rintro (rfl | ⟨z, hz, hz', rfl⟩)
          · exact ⟨y, hy, Or.inl rfl, rfl⟩
          · refine ⟨z, hz, Or.inr ?_, rfl⟩
            rcases hz' with rfl | h
            · exact h2
            · exact nlt_trans hc h2 h
        · rintro ⟨z, hz, rfl | h, rfl⟩
          · exact Or.inl rfl
          · exact Or.inr ⟨z, hz, h3 z hz h, rfl⟩

/-- Number of linked nodes below `x`. -/
noncomputable def below (cmp : K → K → Int) (key : Nat → K) (S : Nat → Nat → Prop) (n x : Nat) : Nat :=
  ((List.range n).filter (fun z => @decide (S 0 z ∧ nlt cmp key z x) (Classical.propDecidable _))).length

theorem below_lt (hc : CmpOK cmp) {m : Mem K} {S} (h : Inv cmp key m S) {x y : Nat}
    (hy : S 0 y) (hxy : nlt cmp key y x) :
    below cmp key S m.nodes.length y < below cmp key S m.nodes.length x := by
  classical
  unfold below
  apply filter_length_lt (a := y)
  · intro z _ hz
    simp only [decide_eq_true_eq] at hz ⊢
    exact ⟨hz.1, nlt_trans hc hz.2 hxy⟩
  · exact List.mem_range.mpr (h.valid 0 y hy).2.1
  · simp only [decide_eq_true_eq]; exact ⟨hy, hxy⟩
  · simp only [decide_eq_false_iff_not]; exact fun hz => nlt_irrefl hc hz.2

theorem scan_bwd (hc : CmpOK cmp) (b : Build) {m : Mem K} {S} (hi : Inv cmp key m S)
    (hH : 1 ≤ m.maxH ∧ m.maxH ≤ 12) :
    ∀ (n y : Nat), S 0 y → below cmp key S m.nodes.length y ≤ n → ∃ L, (∀ fuel, n + 2 ≤ fuel →
        scanBackward cmp b m fuel (some y) = .ok L) ∧ L.Pairwise (fun a c => cmp c a < 0) ∧
        ∀ k, k ∈ L ↔ ∃ z, S 0 z ∧ (z = y ∨ nlt cmp key z y) ∧ key z = k := by
  intro n
  induction n with
  | zero =>
    intro y hy hab
    obtain ⟨r, p', hf, hret, _, _⟩ := find_ok hc b hi hH (.lt (key y)) none (by intro _ e; cases e)
    obtain ⟨x, rfl, h1, h2⟩ := hret
    have hprev : iter cmp b m (some y) .prev = .ok (dropHead (some x)) := by
      simp only [iter, Valid, Option.isSome, assertIf, cassert, bind, Except.bind, pure, Except.pure, if_true,
        hi.key_ok hy, hf]
      cases b.asserts <;> simp
    by_cases hx0 : x = 0
    · subst hx0
      refine ⟨[key y], ?_, by simp, ?_⟩
      · intro fuel hfu
        obtain ⟨f, rfl⟩ : ∃ f, fuel = f + 1 + 1 := ⟨fuel - 2, by omega⟩
        simp [scanBackward, Valid, iterKey_ok b hi hy, hprev, dropHead, bind, Except.bind, pure, Except.pure]
      · intro k
        simp only [List.mem_singleton]
        constructor
        · rintro rfl; exact ⟨y, hy, Or.inl rfl, rfl⟩
        · rintro ⟨z, hz, rfl | h, rfl⟩
          · rfl
          · have hz0 := (hi.valid 0 z hz).1
            rcases h2 z hz (h.2.resolve_left hz0) with e | e
            · exact absurd e hz0
            · exact absurd rfl e.1
    · have h1' := h1.resolve_left hx0
      have := below_lt hc hi h1'.1 ⟨(hi.valid 0 y hy).1, Or.inr h1'.2⟩
      omega
  | succ n ih =>
    intro y hy hab
    obtain ⟨r, p', hf, hret, _, _⟩ := find_ok hc b hi hH (.lt (key y)) none (by intro _ e; cases e)
    obtain ⟨x, rfl, h1, h2⟩ := hret
    have hprev : iter cmp b m (some y) .prev = .ok (dropHead (some x)) := by
      simp only [iter, Valid, Option.isSome, assertIf, cassert, bind, Except.bind, pure, Except.pure, if_true,
        hi.key_ok hy, hf]
      cases b.asserts <;> simp
    by_cases hx0 : x = 0
    · subst hx0
      refine ⟨[key y], ?_, by simp, ?_⟩
      · intro fuel hfu
        obtain ⟨f, rfl⟩ : ∃ f, fuel = f + 1 + 1 := ⟨fuel - 2, by omega⟩
        simp [scanBackward, Valid, iterKey_ok b hi hy, hprev, dropHead, bind, Except.bind, pure, Except.pure]
      · intro k
        simp only [List.mem_singleton]
        constructor
        · rintro rfl; exact ⟨y, hy, Or.inl rfl, rfl⟩
        · rintro ⟨z, hz, rfl | h, rfl⟩
          · rfl
          · have hz0 := (hi.valid 0 z hz).1
            rcases h2 z hz (h.2.resolve_left hz0) with e | e
            · exact absurd e hz0
            · exact absurd rfl e.1
    · have h1' := h1.resolve_left hx0
      have hxy : nlt cmp key x y := ⟨(hi.valid 0 y hy).1, Or.inr h1'.2⟩
      have hlt := below_lt hc hi h1'.1 hxy
      obtain ⟨L, hL, hinc, hmem⟩ := ih x h1'.1 (by omega)
      have hne : (some x : Ptr) ≠ some 0 := by simpa using hx0
      have hdrop : dropHead (some x) = some x := by simp [dropHead, hx0]
      refine ⟨key y :: L, ?_, ?_, ?_⟩
      · intro fuel hfu
        obtain ⟨f, rfl⟩ : ∃ f, fuel = f + 1 := ⟨fuel - 1, by omega⟩
        have e1 := hL f (by omega)
        have e0 : scanBackward cmp b m (f + 1) (some y) = (do
          let k ← iterKey b m (some y)
          let node ← iter cmp b m (some y) .prev
          return k :: (← scanBackward cmp b m f node)) := by simp [scanBackward, Valid]
        rw [e0]
        simp only [iterKey_ok b hi hy, hprev, hdrop, e1, bind, Except.bind, pure, Except.pure]
      · rw [List.pairwise_cons]
        refine ⟨?_, hinc⟩
        intro k hk
        obtain ⟨z, hz, hz', rfl⟩ := (hmem k).mp hk
        have hyz : nlt cmp key z y := by
          rcases hz' with rfl | h
          · exact hxy
          · exact nlt_trans hc h hxy
        exact hyz.2.resolve_left (hi.valid 0 z hz).1
      · intro k
        rw [List.mem_cons, hmem k]
        constructor
        · rintro (rfl | ⟨z, hz, hz', rfl⟩)
          · exact ⟨y, hy, Or.inl rfl, rfl⟩
          · refine ⟨z, hz, Or.inr ?_, rfl⟩
            rcases hz' with rfl | h
            · exact hxy
            · exact nlt_trans hc h hxy
        · rintro ⟨z, hz, rfl | h, rfl⟩
          · exact Or.inl rfl
          · exact Or.inr ⟨z, hz, h2 z hz (h.2.resolve_left (hi.valid 0 z hz).1), rfl⟩

theorem increasing_nodup (hc : CmpOK cmp) {l : List K} (h : Increasing cmp l) : l.Nodup := by
  refine List.Pairwise.imp ?_ h
  intro a c hlt e
  subst e
  have := cmp_self hc a
  omega

theorem distinct_nodup (hc : CmpOK cmp) {l : List K} (h : Distinct cmp l) : l.Nodup := by
  refine List.Pairwise.imp ?_ h
  intro a c hne e
  subst e
  exact hne (cmp_self hc a)

/-- Iterating from `SeekToFirst`. -/
theorem forward_all (hc : CmpOK cmp) (b : Build) {m : Mem K} {S} (hi : Inv cmp key m S)
    {ks : List K} (hk : KeysAre key S ks) (hd : Distinct cmp ks) :
    ∃ node L fuel0, iter cmp b m none .seekToFirst = .ok node ∧
      (∀ fuel, fuel0 ≤ fuel → scanForward cmp b m fuel node = .ok L) ∧ L.Perm ks ∧ Increasing cmp L := by
  obtain ⟨r, hr, hok⟩ := hi.linked 0 0 (by omega) (Or.inl rfl)
  cases r with
  | none =>
    refine ⟨none, [], 1, hr, ?_, ?_, by simp [Increasing]⟩
    · intro fuel hf
      obtain ⟨f, rfl⟩ : ∃ f, fuel = f + 1 := ⟨fuel - 1, by omega⟩
      simp [scanForward, Valid]
    · have : ks = [] := by
        apply List.eq_nil_iff_forall_not_mem.mpr
        intro k hkm
        obtain ⟨z, hz, rfl⟩ := (hk k).mp hkm
        exact hok z hz ⟨(hi.valid 0 z hz).1, Or.inl rfl⟩
      rw [this]
  | some y =>
    obtain ⟨h1, h2, h3⟩ := hok
    obtain ⟨L, hL, hinc, hmem⟩ := scan_fwd hc b hi _ y h1 (Nat.le_refl _)
    refine ⟨some y, L, _, hr, hL, ?_, hinc⟩
    rw [List.perm_ext_iff_of_nodup (increasing_nodup hc hinc) (distinct_nodup hc hd)]
    intro k
    rw [hmem k, hk k]
    constructor
    · rintro ⟨z, hz, _, rfl⟩; exact ⟨z, hz, rfl⟩
    · rintro ⟨z, hz, rfl⟩
      exact ⟨z, hz, h3 z hz ⟨(hi.valid 0 z hz).1, Or.inl rfl⟩, rfl⟩

/-- Iterating from `SeekToLast`. -/
theorem backward_all (hc : CmpOK cmp) (b : Build) {m : Mem K} {S} (hi : Inv cmp key m S)
    (hH : 1 ≤ m.maxH ∧ m.maxH ≤ 12)
    {ks : List K} (hk : KeysAre key S ks) (hd : Distinct cmp ks) :
    ∃ node L fuel0, iter cmp b m none .seekToLast = .ok node ∧
      (∀ fuel, fuel0 ≤ fuel → scanBackward cmp b m fuel node = .ok L) ∧ L.Perm ks ∧
      L.Pairwise (fun a c => cmp c a < 0) := by
  obtain ⟨r, p', hf, hret, _, _⟩ := find_ok hc b hi hH .last none (by intro _ e; cases e)
  obtain ⟨x, rfl, h1, h2⟩ := hret
  have hit : iter cmp b m none .seekToLast = .ok (dropHead (some x)) := by
    simp [iter, hf, bind, Except.bind, pure, Except.pure]
  by_cases hx0 : x = 0
  · subst hx0
    refine ⟨none, [], 1, hit, ?_, ?_, by simp⟩
    · intro fuel hf
      obtain ⟨f, rfl⟩ : ∃ f, fuel = f + 1 := ⟨fuel - 1, by omega⟩
      simp [scanBackward, Valid]
    · have : ks = [] := by
        apply List.eq_nil_iff_forall_not_mem.mpr
        intro k hkm
        obtain ⟨z, hz, rfl⟩ := (hk k).mp hkm
        rcases h2 z hz with e | e
        · exact (hi.valid 0 z hz).1 e
        · exact e.1 rfl
      rw [this]
  · have h1' := h1.resolve_left hx0
    obtain ⟨L, hL, hinc, hmem⟩ := scan_bwd hc b hi hH _ x h1' (Nat.le_refl _)
    have hdrop : dropHead (some x) = some x := by simp [dropHead, hx0]
    refine ⟨some x, L, _, by rw [hit, hdrop], hL, ?_, hinc⟩
    have hnd : L.Nodup := by
      refine List.Pairwise.imp ?_ hinc
      intro a c hlt e
      subst e
      have := cmp_self hc a
      omega
    rw [List.perm_ext_iff_of_nodup hnd (distinct_nodup hc hd)]
    intro k
    rw [hmem k, hk k]
    constructor
    · rintro ⟨z, hz, _, rfl⟩; exact ⟨z, hz, rfl⟩
    · rintro ⟨z, hz, rfl⟩
      exact ⟨z, hz, h2 z hz, rfl⟩

/-! ### Sessions -/

theorem Good.take {log : List (Ev K)} (h : Good cmp base key log) (N : Nat) : Good cmp base key (log.take N) := by
  intro t ht
  simp only [List.length_take] at ht
  rw [List.take_take]
  exact h _ (by omega)

theorem take_take_le (log : List (Ev K)) {T N : Nat} (h : T ≤ N) : (log.take N).take T = log.take T := by
  rw [List.take_take]; congr 1; omega

theorem session_ok (hc : CmpOK cmp) (b : Build) {log : List (Ev K)} (hg : Good cmp base key log)
    (ks : Nat → List K) (hk : ∀ T, T ≤ log.length → KeysAre key (pub (log.take T)) (ks T)) {node : Ptr}
    {T N : Nat} (hs : Session cmp b base log node T N) :
    T ≤ N ∧ N ≤ log.length ∧ NodeOK (pub (log.take T)) node := by
  induction hs with
  | start h1 h2 => exact ⟨h1, h2, Or.inl rfl⟩
  | wait _ h1 h2 h3 h4 ih =>
    exact ⟨h4, h2, ih.2.2.imp_right (fun ⟨y, e, h⟩ => ⟨y, e, pub_mono log h3 h⟩)⟩
  | op _ hpre hth hrun ih =>
    rename_i node node' T T' N th ts o hs
    have hlen : (log.take N).length = N := by simp; omega
    obtain ⟨r, T2, h1, h2, h3, h4, _⟩ := citer_ok hc b (hg.take N) (by omega) (by omega)
      (by rw [take_take_le log ih.1]; exact ih.2.2) o hpre ks
      (fun T hT => by rw [take_take_le log (by omega)]; exact hk T (by omega)) hrun
    cases h1
    refine ⟨by omega, ih.2.1, ?_⟩
    rw [take_take_le log (by omega)] at h4; exact h4

end
end SkipList
end Lsmdb
