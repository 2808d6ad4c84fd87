import Verif.Proof.SkipList3

namespace Lsmdb
namespace SkipList
open Spec

section
variable {K : Type} {cmp : K → K → Int} {base : Mem K} {key : Nat → K}

/-! ### From nodes to keys -/

/-- The list `ks` of keys is exactly the keys of the nodes linked at level 0. -/
def KeysAre (key : Nat → K) (S : Nat → Nat → Prop) (ks : List K) : Prop :=
  ∀ k, k ∈ ks ↔ ∃ z, S 0 z ∧ key z = k

theorem spec_ge {S} {ks : List K} (hk : KeysAre key S ks) {t : K} {r : Ptr}
    (h : RetOK cmp key S (.ge t) r) : Least cmp ks (fun k => cmp k t ≥ 0) (r.map key) := by
  cases r with
  | none =>
    intro k hkm
    obtain ⟨z, hz, rfl⟩ := (hk k).mp hkm
    have := h z hz
    simp only; omega
  | some y =>
    obtain ⟨h1, h2, h3⟩ := h
    refine ⟨(hk _).mpr ⟨y, h1, rfl⟩, by simp only; omega, ?_⟩
    intro k hkm hge
    obtain ⟨z, hz, rfl⟩ := (hk k).mp hkm
    exact h3 z hz (by omega)

theorem spec_lt {m : Mem K} {S} (hi : Inv cmp key m S) {ks : List K}
    (hc : CmpOK cmp) (hk : KeysAre key S ks) {t : K} {r : Ptr}
    (h : RetOK cmp key S (.lt t) r) :
    Greatest cmp ks (fun k => cmp k t < 0) ((dropHead r).map key) ∧
    (dropHead r = none ∨ ∃ y, dropHead r = some y ∧ S 0 y) := by
  obtain ⟨x, rfl, h1, h2⟩ := h
  unfold dropHead
  by_cases h0 : x = 0
  · subst h0
    refine ⟨?_, Or.inl (by simp)⟩
    intro k hkm hlt
    obtain ⟨z, hz, rfl⟩ := (hk k).mp hkm
    rcases h2 z hz hlt with e | e
    · exact (hi.valid 0 z hz).1 e
    · exact e.1 rfl
  · have h1' := h1.resolve_left h0
    have e : (some x : Ptr) ≠ some 0 := by simpa using h0
    rw [if_neg e]
    refine ⟨⟨(hk _).mpr ⟨x, h1'.1, rfl⟩, h1'.2, ?_⟩, Or.inr ⟨x, rfl, h1'.1⟩⟩
    intro k hkm hlt
    obtain ⟨z, hz, rfl⟩ := (hk k).mp hkm
    rcases h2 z hz hlt with e | e
    · rw [e, cmp_self hc]; exact Int.le_refl _
    · rcases e.2 with e0 | e0
      · exact absurd e0 (hi.valid 0 z hz).1
      · omega

theorem spec_last {m : Mem K} {S} (hi : Inv cmp key m S) {ks : List K}
    (hc : CmpOK cmp) (hk : KeysAre key S ks) {r : Ptr}
    (h : RetOK cmp key S .last r) :
    Greatest cmp ks (fun _ => True) ((dropHead r).map key) ∧
    (dropHead r = none ∨ ∃ y, dropHead r = some y ∧ S 0 y) := by
  obtain ⟨x, rfl, h1, h2⟩ := h
  unfold dropHead
  by_cases h0 : x = 0
  · subst h0
    refine ⟨?_, Or.inl (by simp)⟩
    intro k hkm _
    obtain ⟨z, hz, rfl⟩ := (hk k).mp hkm
    rcases h2 z hz with e | e
    · exact (hi.valid 0 z hz).1 e
    · exact e.1 rfl
  · have h1' := h1.resolve_left h0
    have e : (some x : Ptr) ≠ some 0 := by simpa using h0
    rw [if_neg e]
    refine ⟨⟨(hk _).mpr ⟨x, h1', rfl⟩, trivial, ?_⟩, Or.inr ⟨x, rfl, h1'⟩⟩
    intro k hkm _
    obtain ⟨z, hz, rfl⟩ := (hk k).mp hkm
    rcases h2 z hz with e | e
    · rw [e, cmp_self hc]; exact Int.le_refl _
    · rcases e.2 with e0 | e0
      · exact absurd e0 (hi.valid 0 z hz).1
      · omega

theorem spec_first {m : Mem K} {S} (hi : Inv cmp key m S) (hc : CmpOK cmp) {ks : List K}
    (hk : KeysAre key S ks) {r : Ptr}
    (h : NextOK cmp key S 0 0 r) : Least cmp ks (fun _ => True) (r.map key) := by
  cases r with
  | none =>
    intro k hkm _
    obtain ⟨z, hz, rfl⟩ := (hk k).mp hkm
    exact h z hz ⟨(hi.valid 0 z hz).1, Or.inl rfl⟩
  | some y =>
    obtain ⟨h1, h2, h3⟩ := h
    refine ⟨(hk _).mpr ⟨y, h1, rfl⟩, trivial, ?_⟩
    intro k hkm _
    obtain ⟨z, hz, rfl⟩ := (hk k).mp hkm
    rcases h3 z hz ⟨(hi.valid 0 z hz).1, Or.inl rfl⟩ with e | e
    · rw [e, cmp_self hc]; exact Int.le_refl _
    · rcases e.2 with e0 | e0
      · exact absurd e0 (hi.valid 0 y h1).1
      · omega

theorem spec_next {m : Mem K} {S} (hi : Inv cmp key m S) (hc : CmpOK cmp) {ks : List K}
    (hk : KeysAre key S ks) {x : Nat} (hx : x ≠ 0) {r : Ptr}
    (h : NextOK cmp key S 0 x r) : Least cmp ks (fun k => cmp k (key x) > 0) (r.map key) := by
  have conv (z : Nat) (hz : S 0 z) : cmp (key z) (key x) > 0 ↔ nlt cmp key x z := by
    have := hc.swap (key x) (key z)
    constructor
    · intro h; exact ⟨(hi.valid 0 z hz).1, Or.inr (this.mpr h)⟩
    · rintro ⟨_, h | h⟩
      · exact absurd h hx
      · exact this.mp h
  cases r with
  | none =>
    intro k hkm hgt
    obtain ⟨z, hz, rfl⟩ := (hk k).mp hkm
    exact h z hz ((conv z hz).mp hgt)
  | some y =>
    obtain ⟨h1, h2, h3⟩ := h
    refine ⟨(hk _).mpr ⟨y, h1, rfl⟩, (conv y h1).mpr h2, ?_⟩
    intro k hkm hgt
    obtain ⟨z, hz, rfl⟩ := (hk k).mp hkm
    rcases h3 z hz ((conv z hz).mp hgt) with e | e
    · rw [e, cmp_self hc]; exact Int.le_refl _
    · rcases e.2 with e0 | e0
      · exact absurd e0 (hi.valid 0 y h1).1
      · omega

/-! ### Sequential operations -/

/-- Positions an iterator can be at. -/
def NodeOK (S : Nat → Nat → Prop) (node : Ptr) : Prop := node = none ∨ ∃ y, node = some y ∧ S 0 y

theorem ge_node {S} {t : K} {r : Ptr} (h : RetOK cmp key S (.ge t) r) : NodeOK S r := by
  cases r with
  | none => exact Or.inl rfl
  | some y => exact Or.inr ⟨y, rfl, h.1⟩

theorem next_node {S} {x : Nat} {r : Ptr} (h : NextOK cmp key S 0 x r) : NodeOK S r := by
  cases r with
  | none => exact Or.inl rfl
  | some y => exact Or.inr ⟨y, rfl, h.1⟩

theorem iter_ok (hc : CmpOK cmp) (b : Build) {m : Mem K} {S} (hi : Inv cmp key m S)
    (hH : 1 ≤ m.maxH ∧ m.maxH ≤ 12) {ks : List K} (hk : KeysAre key S ks) {node : Ptr}
    (hn : NodeOK S node) (op : IterOp K) (hpre : IterPre (Valid node) op) :
    ∃ node', iter cmp b m node op = .ok node' ∧ NodeOK S node' ∧
      IterSpec cmp ks (node.map key) op (node'.map key) := by
  cases op with
  | seek t =>
    obtain ⟨r, p', hf, hret, _, _⟩ := find_ok hc b hi hH (.ge t) none (by intro _ e; cases e)
    exact ⟨r, by simp [iter, hf, bind, Except.bind, pure, Except.pure], ge_node hret, spec_ge hk hret⟩
  | seekToFirst =>
    obtain ⟨r, hr, hok⟩ := hi.linked 0 0 (by omega) (Or.inl rfl)
    exact ⟨r, hr, next_node hok, spec_first hi hc hk hok⟩
  | seekToLast =>
    obtain ⟨r, p', hf, hret, _, _⟩ := find_ok hc b hi hH .last none (by intro _ e; cases e)
    have := spec_last hi hc hk hret
    exact ⟨dropHead r, by simp [iter, hf, bind, Except.bind, pure, Except.pure], this.2, this.1⟩
  | next =>
    rcases hn with rfl | ⟨x, rfl, hx⟩
    · cases hpre
    · obtain ⟨r, hr, hok⟩ := hi.linked 0 x (by omega) (Or.inr hx)
      refine ⟨r, ?_, next_node hok, key x, rfl, spec_next hi hc hk (hi.valid 0 x hx).1 hok⟩
      simp only [iter, Valid, Option.isSome, assertIf, cassert, bind, Except.bind, pure, Except.pure, if_true]
      cases b.asserts <;> simpa using hr
  | prev =>
    rcases hn with rfl | ⟨x, rfl, hx⟩
    · cases hpre
    · obtain ⟨r, p', hf, hret, _, _⟩ := find_ok hc b hi hH (.lt (key x)) none (by intro _ e; cases e)
      have hs := spec_lt hi hc hk hret
      refine ⟨_, ?_, hs.2, key x, rfl, hs.1⟩
      simp only [iter, Valid, Option.isSome, assertIf, cassert, bind, Except.bind, pure, Except.pure, if_true,
        hi.key_ok hx, hf]
      cases b.asserts <;> simp

theorem contains_ok (hc : CmpOK cmp) (b : Build) {m : Mem K} {S} (hi : Inv cmp key m S)
    (hH : 1 ≤ m.maxH ∧ m.maxH ≤ 12) {ks : List K} (hk : KeysAre key S ks) (k : K) :
    ∃ r, Contains cmp b m k = .ok r ∧ (r = true ↔ ∃ k' ∈ ks, cmp k k' = 0) := by
  obtain ⟨r, p', hf, hret, _, _⟩ := find_ok hc b hi hH (.ge k) none (by intro _ e; cases e)
  cases r with
  | none =>
    refine ⟨false, by simp [Contains, hf, bind, Except.bind, pure, Except.pure], ?_⟩
    constructor
    · intro h; cases h
    · rintro ⟨k', hk', he⟩
      obtain ⟨z, hz, rfl⟩ := (hk k').mp hk'
      have h1 := hret z hz
      have h2 := cmp_zero_symm hc he
      omega
  | some y =>
    obtain ⟨h1, h2, h3⟩ := hret
    refine ⟨decide (cmp k (key y) = 0), by simp [Contains, hf, hi.key_ok h1, bind, Except.bind, pure, Except.pure], ?_⟩
    rw [decide_eq_true_eq]
    constructor
    · intro h; exact ⟨key y, (hk _).mpr ⟨y, h1, rfl⟩, h⟩
    · rintro ⟨k', hk', he⟩
      obtain ⟨z, hz, rfl⟩ := (hk k').mp hk'
      have hz0 := cmp_zero_symm hc he
      have hle := h3 z hz (by omega)
      have h4 := hc.trans (key y) (key z) k hle (by omega)
      have h5 : cmp (key y) k = 0 := by omega
      exact cmp_zero_symm hc h5

/-! ### Histories -/

/-- Key of node number `x`: node 0 is the head, node `i` the `i`-th inserted key. -/
def keyFn (k0 : K) (ks : List K) (x : Nat) : K := ((k0 :: ks)[x]?).getD k0

theorem keyFn_succ (k0 : K) (ks : List K) (i : Nat) (h : i < ks.length) : keyFn k0 ks (i + 1) = ks[i] := by
  simp [keyFn, h]

/-- Memory after the constructor. -/
def baseMem (k0 : K) : Mem K := ⟨[⟨k0, List.replicate 12 (some none)⟩], 1⟩

theorem construct_eq (k0 : K) (seed : UInt32) :
    construct k0 seed = .ok ⟨baseMem k0, [], Random.init seed⟩ := rfl

theorem pub_nil (l y : Nat) : ¬ pub ([] : List (Ev K)) l y := by
  rintro ⟨x, h⟩; cases h

theorem quiet_init (k0 : K) (seed : UInt32) (key : Nat → K) :
    Quiet cmp (baseMem k0) key ⟨baseMem k0, [], Random.init seed⟩ 0 := by
  refine ⟨rfl, ?_, rfl, rfl, fun l y _ => pub_nil l y⟩
  intro t ht
  simp only [List.length_nil, Nat.le_zero] at ht
  subst ht
  refine ⟨⟨by simp [baseMem, Mem.replay], ?_, ?_, ?_, ?_, ?_⟩, by simp [baseMem, Mem.replay], ?_, ?_⟩
  · intro x n hx h0
    simp only [List.take_nil, Mem.replay, List.foldl_nil, baseMem] at hx
    cases x with
    | zero => exact absurd rfl h0
    | succ x => simp at hx
  · intro l y h; exact absurd h (pub_nil l y)
  · intro l y h; exact absurd h (pub_nil _ y)
  · intro x y h; exact absurd h (pub_nil _ x)
  · intro l x hl hx
    have hx0 : x = 0 := hx.resolve_right (pub_nil l x)
    subst hx0
    refine ⟨none, ?_, fun z hz => absurd hz (pub_nil l z)⟩
    simp only [List.take_nil, Mem.replay, List.foldl_nil, baseMem, Mem.next, List.getElem?_cons_zero]
    rw [List.getElem?_replicate, if_pos hl]
  · intro y
    constructor
    · intro h; exact absurd h (pub_nil _ y)
    · intro h; simp [lin] at h; omega
  · intro lg x l v h
    simp at h

theorem insertAll_ok (hc : CmpOK cmp) (b : Build) (hb : b.line249 = false) (k0 : K) {ks : List K}
    (hd : Distinct cmp ks) : ∀ (rest done : List K) (s : SL K), ks = done ++ rest →
      Quiet cmp base (keyFn k0 ks) s done.length →
      ∃ s', insertAll cmp b s rest = .ok s' ∧ Quiet cmp base (keyFn k0 ks) s' ks.length ∧
        ∃ ext, s'.log = s.log ++ ext := by
  intro rest
  induction rest with
  | nil =>
    intro done s he hq
    simp only [List.append_nil] at he
    subst he
    exact ⟨s, rfl, hq, [], by simp⟩
  | cons k rest ih =>
    intro done s he hq
    have hlt : done.length < ks.length := by rw [he]; simp
    have hget : ks[done.length] = k := by simp [he]
    obtain ⟨s1, h1, h2, e1, h3⟩ := insert_ok (k := k) hc b hb hq (by
        rw [keyFn_succ k0 ks _ hlt, hget]) (by
        intro y hy1 hy2
        obtain ⟨i, rfl⟩ : ∃ i, y = i + 1 := ⟨y - 1, by omega⟩
        rw [keyFn_succ k0 ks i (by omega)]
        have := (List.pairwise_iff_getElem.mp hd) i done.length (by omega) hlt (by omega)
        rw [hget] at this
        exact fun e => this (cmp_zero_symm hc e))
    obtain ⟨s2, h4, h5, e2, h6⟩ := ih (done ++ [k]) s1 (by simp [he]) (by simpa using h2)
    refine ⟨s2, by simp [insertAll, h1, h4, bind, Except.bind], h5, e1 ++ e2, ?_⟩
    rw [h6, h3]; simp

theorem build_ok (hc : CmpOK cmp) (b : Build) (hb : b.line249 = false) (k0 : K) (seed : UInt32) {ks : List K}
    (hd : Distinct cmp ks) :
    ∃ s, SkipList.build cmp b k0 seed ks = .ok s ∧ Quiet cmp (baseMem k0) (keyFn k0 ks) s ks.length := by
  obtain ⟨s, h1, h2, _⟩ := insertAll_ok hc b hb k0 hd ks [] _ rfl (quiet_init k0 seed (keyFn k0 ks))
  exact ⟨s, by simp [SkipList.build, construct_eq, bind, Except.bind, h1], h2⟩

theorem keysAre_of {log : List (Ev K)} {k0 : K} {ks : List K} (hg : GoodAt cmp base (keyFn k0 ks) log)
    (hle : lin log ≤ ks.length) : KeysAre (keyFn k0 ks) (pub log) (ks.take (lin log)) := by
  intro k
  constructor
  · intro hk
    obtain ⟨i, hi, rfl⟩ := List.mem_iff_getElem.mp hk
    simp only [List.length_take] at hi
    refine ⟨i + 1, (hg.level0 _).mpr (by omega), ?_⟩
    rw [keyFn_succ k0 ks i (by omega)]; simp
  · rintro ⟨z, hz, rfl⟩
    have := (hg.level0 z).mp hz
    obtain ⟨i, rfl⟩ : ∃ i, z = i + 1 := ⟨z - 1, by omega⟩
    rw [keyFn_succ k0 ks i (by omega)]
    have hm : (ks.take (lin log))[i]'(by simp; omega) ∈ ks.take (lin log) := List.getElem_mem _
    simpa using hm

theorem Quiet.keysAre {s : SL K} {k0 : K} {ks : List K} (h : Quiet cmp base (keyFn k0 ks) s ks.length) :
    KeysAre (keyFn k0 ks) (pub s.log) ks := by
  have := keysAre_of h.good.now (by rw [h.count]; exact Nat.le_refl _)
  rw [h.count, List.take_length] at this
  exact this

theorem Quiet.inv {s : SL K} {n : Nat} (h : Quiet cmp base key s n) : Inv cmp key s.mem (pub s.log) := by
  rw [h.mem]; exact h.good.now.inv

theorem Quiet.height {s : SL K} {n : Nat} (h : Quiet cmp base key s n) : 1 ≤ s.mem.maxH ∧ s.mem.maxH ≤ 12 := by
  rw [h.mem]; exact h.good.now.height

end
end SkipList
end Lsmdb
