import Verif.Proof.Cache3

/-! # Reference counts: the list part of the invariant -/

namespace Lsmdb
namespace Cache

/-- Abstract view of a shard: cached entries without (oldest first) and with client references, number
of client references per entry, entries already deleted. -/
structure Abs where
  idle : List Nat
  busy : List Nat
  held : Nat → Nat
  dead : List Nat

namespace Abs
/-- The cached entries. -/
def all (A : Abs) : List Nat := A.idle ++ A.busy
/-- A client gets another reference to a cached entry. -/
def ref (A : Abs) (a : Nat) : Abs :=
  { A with idle := A.idle.erase a, busy := if a ∈ A.idle then A.busy ++ [a] else A.busy,
           held := upd A.held a (A.held a + 1) }
/-- A client gives a reference back. -/
def release (A : Abs) (a : Nat) : Abs :=
  if 1 < A.held a then { A with held := upd A.held a (A.held a - 1) }
  else if a ∈ A.busy then
    { A with idle := A.idle ++ [a], busy := A.busy.erase a, held := upd A.held a (A.held a - 1) }
  else { A with held := upd A.held a (A.held a - 1), dead := A.dead ++ [a] }
/-- An entry leaves the cache. -/
def uncache (A : Abs) (a : Nat) : Abs :=
  { A with idle := A.idle.erase a, busy := A.busy.erase a,
           dead := if A.held a = 0 then A.dead ++ [a] else A.dead }
end Abs

/-- What one run of a deleter records. -/
def deletion (h : Heap) (a : Nat) : Deletion := ⟨a, h.deleter a, h.key a, h.value a⟩

structure LRel (h : Heap) (log : List Deletion) (A : Abs) : Prop where
  dl_lru : DL h.next h.prev .lru A.idle
  dl_use : DL h.next h.prev .inUse A.busy
  nodup : A.all.Nodup
  lt : ∀ a ∈ A.all, a < h.fresh
  idle0 : ∀ a ∈ A.idle, A.held a = 0
  busy0 : ∀ a ∈ A.busy, 0 < A.held a
  heldlt : ∀ a, h.fresh ≤ a → A.held a = 0
  live : ∀ a, h.live a = true ↔ a < h.fresh ∧ (0 < A.held a ∨ a ∈ A.all)
  refs : ∀ a, h.live a = true → (h.refs a).toNat = A.held a + if a ∈ A.all then 1 else 0
  inC : ∀ a, h.live a = true → h.inCache a = decide (a ∈ A.all)
  nself : ∀ a, h.live a = true → h.next (.node a) ≠ some (.node a)
  log : log = A.dead.map (deletion h)
  dead : ∀ a, a ∈ A.dead ↔ a < h.fresh ∧ A.held a = 0 ∧ a ∉ A.all
  deadnd : A.dead.Nodup

/-- The fields that the list operations do not touch. -/
structure Frame (h h' : Heap) : Prop where
  fresh : h'.fresh = h.fresh
  nextHash : h'.nextHash = h.nextHash
  charge : h'.charge = h.charge
  hash : h'.hash = h.hash
  key : h'.key = h.key
  value : h'.value = h.value
  deleter : h'.deleter = h.deleter

theorem Frame.refl (h : Heap) : Frame h h := ⟨rfl, rfl, rfl, rfl, rfl, rfl, rfl⟩

theorem Frame.deletion {h h' : Heap} (f : Frame h h') (a : Nat) : deletion h' a = deletion h a := by
  simp only [Cache.deletion, f.key, f.value, f.deleter]

section
variable {h : Heap} {log : List Deletion} {A : Abs}

theorem LRel.live_all (r : LRel h log A) {a : Nat} (ha : a ∈ A.all) : h.live a = true :=
  (r.live a).mpr ⟨r.lt a ha, Or.inr ha⟩

theorem LRel.nodes (r : LRel h log A) : Nodes h A.all :=
  fun a ha => ⟨r.live_all ha, r.nself a (r.live_all ha), r.lt a ha⟩

theorem erase_not_mem {L : List Nat} {a : Nat} (h : a ∉ L) : L.erase a = L :=
  List.erase_of_not_mem h

theorem Abs.all_erase (A : Abs) (a : Nat) (hn : A.all.Nodup) :
    A.all.erase a = A.idle.erase a ++ A.busy.erase a := by
  unfold Abs.all at hn ⊢
  rw [List.erase_append]
  have hd := (List.nodup_append.mp hn).2.2
  split
  · rename_i hm
    rw [erase_not_mem (L := A.busy) (fun hb => hd a hm a hb rfl)]
  · rename_i hm
    rw [erase_not_mem (L := A.idle) hm]

/-- Unlinking a cached entry. -/
theorem LRel.unlink (r : LRel h log A) {a : Nat} (ha : a ∈ A.all) :
    ∃ nx' pv', LRU_Remove h (.node a) = .ok { h with next := nx', prev := pv' } ∧
      DL nx' pv' .lru (A.idle.erase a) ∧ DL nx' pv' .inUse (A.busy.erase a) ∧
      (∀ b, h.next (.node b) ≠ some (.node b) → nx' (.node b) ≠ some (.node b)) := by
  have hn := List.nodup_append.mp r.nodup
  rcases List.mem_append.mp ha with hi | hb
  · have hnb : a ∉ A.busy := fun hb => hn.2.2 a hi a hb rfl
    obtain ⟨L1, L2, _, e1, e2⟩ := List.exists_erase_eq hi
    have hd := r.dl_lru
    rw [e1] at hd
    obtain ⟨nx', pv', h1, h2, h3, h4⟩ := LRU_Remove_spec isHead_lru hd (e1 ▸ hn.1)
      (fun b hb => r.live_all (List.mem_append.mpr (Or.inl (e1 ▸ hb))))
    refine ⟨nx', pv', h1, by rw [e2]; exact h2, ?_, h4⟩
    rw [erase_not_mem hnb]
    exact h3 .inUse A.busy isHead_inUse (by simp) (fun b hb hb' => hn.2.2 b (e1 ▸ hb') b hb rfl) r.dl_use
  · have hni : a ∉ A.idle := fun hi => hn.2.2 a hi a hb rfl
    obtain ⟨L1, L2, _, e1, e2⟩ := List.exists_erase_eq hb
    have hd := r.dl_use
    rw [e1] at hd
    obtain ⟨nx', pv', h1, h2, h3, h4⟩ := LRU_Remove_spec isHead_inUse hd (e1 ▸ hn.2.1)
      (fun b hb => r.live_all (List.mem_append.mpr (Or.inr (e1 ▸ hb))))
    refine ⟨nx', pv', h1, ?_, by rw [e2]; exact h2, h4⟩
    rw [erase_not_mem hni]
    exact h3 .lru A.idle isHead_lru (by simp) (fun b hb hb' => hn.2.2 b hb b (e1 ▸ hb') rfl) r.dl_lru

/-- Appending to the in-use list. -/
theorem link_use {h : Heap} {I B : List Nat} {a : Nat} (d1 : DL h.next h.prev .lru I)
    (d2 : DL h.next h.prev .inUse B) (hn : (I ++ B).Nodup) (ha : a ∉ I ++ B)
    (hl : ∀ b ∈ I ++ B, h.live b = true) (hla : h.live a = true) :
    ∃ nx' pv', LRU_Append h .inUse (.node a) = .ok { h with next := nx', prev := pv' } ∧
      DL nx' pv' .lru I ∧ DL nx' pv' .inUse (B ++ [a]) ∧
      (∀ b, (b ≠ a → h.next (.node b) ≠ some (.node b)) → nx' (.node b) ≠ some (.node b)) := by
  have hn' := List.nodup_append.mp hn
  have ha' : a ∉ I ∧ a ∉ B := by simpa using ha
  obtain ⟨nx', pv', h1, h2, h3, h4⟩ := LRU_Append_spec isHead_inUse d2 hn'.2.1 ha'.2
    (fun b hb => hl b (List.mem_append.mpr (Or.inr hb))) hla
  refine ⟨nx', pv', h1, ?_, h2, h4⟩
  refine h3 .lru I isHead_lru (by simp) (fun b hb hb' => ?_) d1
  rcases List.mem_append.mp hb' with hb' | hb'
  · exact hn'.2.2 b hb b hb' rfl
  · rw [List.mem_singleton] at hb'; exact ha'.1 (hb' ▸ hb)

/-- Appending to the LRU list. -/
theorem link_lru {h : Heap} {I B : List Nat} {a : Nat} (d1 : DL h.next h.prev .lru I)
    (d2 : DL h.next h.prev .inUse B) (hn : (I ++ B).Nodup) (ha : a ∉ I ++ B)
    (hl : ∀ b ∈ I ++ B, h.live b = true) (hla : h.live a = true) :
    ∃ nx' pv', LRU_Append h .lru (.node a) = .ok { h with next := nx', prev := pv' } ∧
      DL nx' pv' .lru (I ++ [a]) ∧ DL nx' pv' .inUse B ∧
      (∀ b, (b ≠ a → h.next (.node b) ≠ some (.node b)) → nx' (.node b) ≠ some (.node b)) := by
  have hn' := List.nodup_append.mp hn
  have ha' : a ∉ I ∧ a ∉ B := by simpa using ha
  obtain ⟨nx', pv', h1, h2, h3, h4⟩ := LRU_Append_spec isHead_lru d1 hn'.1 ha'.1
    (fun b hb => hl b (List.mem_append.mpr (Or.inl hb))) hla
  refine ⟨nx', pv', h1, h2, ?_, h4⟩
  refine h3 .inUse B isHead_inUse (by simp) (fun b hb hb' => ?_) d2
  rcases List.mem_append.mp hb' with hb' | hb'
  · exact hn'.2.2 b hb' b hb rfl
  · rw [List.mem_singleton] at hb'; exact ha'.2 (hb' ▸ hb)

theorem u32_eq_iff {x : UInt32} {n : Nat} (hn : n < 2 ^ 32) (h : x.toNat = n) : x = UInt32.ofNat n := by
  apply UInt32.toNat_inj.mp
  rw [UInt32.toNat_ofNat', Nat.mod_eq_of_lt hn, h]

theorem u32_succ {x : UInt32} (h : x.toNat + 1 < 2 ^ 32) : (x + 1).toNat = x.toNat + 1 := by
  rw [UInt32.toNat_add]
  exact Nat.mod_eq_of_lt h

theorem u32_pred {x : UInt32} (h : 0 < x.toNat) : (x - 1).toNat = x.toNat - 1 := by
  have : (1 : UInt32) ≤ x := by rw [UInt32.le_iff_toNat_le]; exact h
  rw [UInt32.toNat_sub_of_le _ _ this]; rfl

theorem u32_eq_one {x : UInt32} : x = 1 ↔ x.toNat = 1 := by
  rw [← UInt32.toNat_inj]; rfl

theorem u32_eq_zero {x : UInt32} : x = 0 ↔ x.toNat = 0 := by
  rw [← UInt32.toNat_inj]; rfl

/-- `Ref` on a cached entry. -/
theorem LRel.Ref (r : LRel h log A) {a : Nat} (ha : a ∈ A.all) (hov : A.held a + 3 ≤ 2 ^ 32) :
    ∃ h', Ref h a = .ok h' ∧ LRel h' log (A.ref a) ∧ Frame h h' := by
  have hla := r.live_all ha
  have hn := List.nodup_append.mp r.nodup
  have hrefs := r.refs a hla
  rw [if_pos ha] at hrefs
  have hinC : h.inCache a = true := by rw [r.inC a hla]; simp [ha]
  have hsucc : (h.refs a + 1).toNat = (h.refs a).toNat + 1 := u32_succ (by omega)
  -- membership in the new abstract state
  have hmem : ∀ b, b ∈ (A.ref a).all ↔ b ∈ A.all := by
    intro b
    simp only [Abs.ref, Abs.all, List.mem_append]
    rw [hn.1.mem_erase_iff]
    split
    · rename_i hi
      simp only [List.mem_append, List.mem_singleton]
      constructor
      · rintro (h | h | h)
        · exact Or.inl h.2
        · exact Or.inr h
        · exact Or.inl (h ▸ hi)
      · rintro (h | h)
        · by_cases e : b = a
          · exact Or.inr (Or.inr e)
          · exact Or.inl ⟨e, h⟩
        · exact Or.inr (Or.inl h)
    · rename_i hi
      constructor
      · rintro (h | h)
        · exact Or.inl h.2
        · exact Or.inr h
      · rintro (h | h)
        · exact Or.inl ⟨fun e => hi (e ▸ h), h⟩
        · exact Or.inr h
  have finish : ∀ (nx' pv' : Ptr → Option Ptr), DL nx' pv' .lru (A.ref a).idle →
      DL nx' pv' .inUse (A.ref a).busy →
      (∀ b, h.live b = true → nx' (.node b) ≠ some (.node b)) →
      LRel { h with next := nx', prev := pv', refs := upd h.refs a (h.refs a + 1) } log (A.ref a) := by
    intro nx' pv' d1 d2 hs
    refine ⟨d1, d2, ?_, ?_, ?_, ?_, ?_, ?_, ?_, ?_, hs, r.log, ?_, r.deadnd⟩
    · simp only [Abs.ref, Abs.all]
      split
      · rename_i hi
        rw [List.nodup_append]
        refine ⟨hn.1.erase a, ?_, ?_⟩
        · rw [List.nodup_append]
          refine ⟨hn.2.1, by simp, ?_⟩
          intro x hx y hy
          rw [List.mem_singleton] at hy; subst hy
          rintro rfl
          exact hn.2.2 x hi x hx rfl
        · intro x hx y hy
          rw [hn.1.mem_erase_iff] at hx
          rcases List.mem_append.mp hy with hy | hy
          · exact hn.2.2 x hx.2 y hy
          · rw [List.mem_singleton] at hy; subst hy; exact hx.1
      · rename_i hi
        rw [erase_not_mem hi]; exact r.nodup
    · intro b hb; exact r.lt b ((hmem b).mp hb)
    · intro b hb
      simp only [Abs.ref] at hb ⊢
      rw [hn.1.mem_erase_iff] at hb
      rw [upd_other _ _ hb.1]; exact r.idle0 b hb.2
    · intro b hb
      simp only [Abs.ref] at hb ⊢
      by_cases e : b = a
      · subst e; rw [upd_same]; omega
      · rw [upd_other _ _ e]
        split at hb
        · rcases List.mem_append.mp hb with hb | hb
          · exact r.busy0 b hb
          · exact absurd (List.mem_singleton.mp hb) e
        · exact r.busy0 b hb
    · intro b hb
      have : b ≠ a := fun e => by
        have := r.lt a ha
        subst e
        exact absurd this (Nat.not_lt.mpr hb)
      simp only [Abs.ref]
      rw [upd_other _ _ this]; exact r.heldlt b hb
    · intro b
      show h.live b = true ↔ b < h.fresh ∧ _
      rw [hmem, r.live b]
      simp only [Abs.ref]
      by_cases e : b = a
      · subst e; rw [upd_same]; simp [ha]
      · rw [upd_other _ _ e]
    · intro b hb
      show (upd h.refs a (h.refs a + 1) b).toNat = _
      have := r.refs b hb
      simp only [hmem]
      simp only [Abs.ref]
      by_cases e : b = a
      · subst e
        rw [upd_same, upd_same, if_pos ha, hsucc]; omega
      · rw [upd_other _ _ e, upd_other _ _ e]; exact this
    · intro b hb
      have := r.inC b hb
      simp only [hmem]; exact this
    · intro b
      show b ∈ A.dead ↔ b < h.fresh ∧ _
      rw [hmem, r.dead b]
      simp only [Abs.ref]
      by_cases e : b = a
      · subst e; rw [upd_same]; simp [ha]
      · rw [upd_other _ _ e]
  by_cases hi : a ∈ A.idle
  · have h0 := r.idle0 a hi
    have hone : h.refs a = 1 := u32_eq_one.mpr (by omega)
    obtain ⟨nx1, pv1, e1, d1, d2, s1⟩ := r.unlink ha
    have hnb : a ∉ A.busy := fun hb => hn.2.2 a hi a hb rfl
    obtain ⟨nx2, pv2, e2, d3, d4, s2⟩ := link_use (h := { h with next := nx1, prev := pv1 }) (a := a) d1 d2
      (by rw [← A.all_erase a r.nodup]; exact r.nodup.erase a)
      (by rw [← A.all_erase a r.nodup, r.nodup.mem_erase_iff]; simp)
      (by rw [← A.all_erase a r.nodup]; exact fun b hb => r.live_all (List.mem_of_mem_erase hb)) hla
    rw [erase_not_mem hnb] at d4
    refine ⟨_, ?_, finish nx2 pv2 d3 (by simp only [Abs.ref, if_pos hi]; exact d4)
      (fun b hb => s2 b (fun _ => s1 b (r.nself b hb))), ⟨rfl, rfl, rfl, rfl, rfl, rfl, rfl⟩⟩
    unfold Cache.Ref
    simp only [derefNode, hla, hone, hinC, and_self, if_true, bind, Except.bind]
    rw [e1]
    simp only []
    rw [e2]
    simp only [hone, pure, Except.pure]
  · have hb : a ∈ A.busy := by
      rcases List.mem_append.mp ha with h | h
      · exact absurd h hi
      · exact h
    have h0 := r.busy0 a hb
    have hone : h.refs a ≠ 1 := fun e => by
      have := u32_eq_one.mp e
      omega
    refine ⟨{ h with refs := upd h.refs a (h.refs a + 1) }, ?_, finish h.next h.prev ?_ ?_ r.nself,
      ⟨rfl, rfl, rfl, rfl, rfl, rfl, rfl⟩⟩
    · unfold Cache.Ref
      simp [derefNode, hla, hone, bind, Except.bind, pure, Except.pure]
    · simp only [Abs.ref, erase_not_mem hi]; exact r.dl_lru
    · simp only [Abs.ref, if_neg hi]; exact r.dl_use

/-- The core of `Unref` when the last reference goes away. -/
theorem unref_delete {h : Heap} {log : List Deletion} {a : Nat} (hla : h.live a = true)
    (hr : (h.refs a).toNat = 1) (hc : h.inCache a = false)
    (hs : h.next (.node a) ≠ some (.node a)) :
    Unref h log a = .ok ({ h with refs := upd h.refs a (h.refs a - 1), live := upd h.live a false },
      log ++ [deletion h a]) := by
  have e1 : h.refs a = 1 := u32_eq_one.mpr hr
  have hgt : h.refs a > 0 := by rw [e1]; decide
  unfold Unref
  simp only [derefNode, hla, if_true, bind, Except.bind, cassert, hgt, decide_true, upd_same]
  rw [if_pos (by rw [e1]; rfl)]
  rw [keyOf_ok (h := { h with refs := upd h.refs a (h.refs a - 1) }) hla hs]
  simp [hc, Slice.toString, Slice.ofBytes, pure, Except.pure, deletion]

/-- `Unref` when references remain and the entry is not moved. -/
theorem unref_keep {h : Heap} {log : List Deletion} {a : Nat} (hla : h.live a = true)
    (hr : 2 ≤ (h.refs a).toNat) (hc : h.inCache a = true → 3 ≤ (h.refs a).toNat) :
    Unref h log a = .ok ({ h with refs := upd h.refs a (h.refs a - 1) }, log) := by
  have hgt : h.refs a > 0 := by
    rw [gt_iff_lt, UInt32.lt_iff_toNat_lt]
    have : (0 : UInt32).toNat = 0 := rfl
    omega
  have hp := u32_pred (x := h.refs a) (by omega)
  unfold Unref
  simp only [derefNode, hla, if_true, bind, Except.bind, cassert, hgt, decide_true, upd_same]
  rw [if_neg (by rw [u32_eq_zero]; omega), if_neg (by
    rintro ⟨h1, h2⟩
    rw [u32_eq_one] at h2
    have := hc h1
    omega)]
  rfl

/-- `Unref` of a cached entry whose last client reference goes away: it moves to the LRU list. -/
theorem unref_move {h : Heap} {log : List Deletion} {a : Nat} (hla : h.live a = true)
    (hr : (h.refs a).toNat = 2) (hc : h.inCache a = true) {h1 h2 : Heap}
    (e1 : LRU_Remove { h with refs := upd h.refs a (h.refs a - 1) } (.node a) = .ok h1)
    (e2 : LRU_Append h1 .lru (.node a) = .ok h2) :
    Unref h log a = .ok (h2, log) := by
  have hgt : h.refs a > 0 := by
    rw [gt_iff_lt, UInt32.lt_iff_toNat_lt]
    have : (0 : UInt32).toNat = 0 := rfl
    omega
  have hp := u32_pred (x := h.refs a) (by omega)
  unfold Unref
  simp only [derefNode, hla, if_true, bind, Except.bind, cassert, hgt, decide_true, upd_same]
  rw [if_neg (by rw [u32_eq_zero]; omega), if_pos ⟨hc, by rw [u32_eq_one]; omega⟩, e1]
  simp only []
  rw [e2]
  rfl

/-- `Release` by a client that holds a reference. -/
theorem LRel.Unref (r : LRel h log A) {a : Nat} (ha : 0 < A.held a) :
    ∃ h' log', Unref h log a = .ok (h', log') ∧ LRel h' log' (A.release a) ∧ Frame h h' := by
  have haf : a < h.fresh := by
    rcases Nat.lt_or_ge a h.fresh with h1 | h1
    · exact h1
    · have := r.heldlt a h1; omega
  have hla : h.live a = true := (r.live a).mpr ⟨haf, Or.inl ha⟩
  have hrefs := r.refs a hla
  have hinC := r.inC a hla
  have hn := List.nodup_append.mp r.nodup
  have hni : a ∉ A.idle := fun hi => by have := r.idle0 a hi; omega
  have hpred : ∀ b, h.live b = true → ∀ (A' : Abs), A'.held = upd A.held a (A.held a - 1) →
      (b ∈ A'.all ↔ b ∈ A.all) →
      (upd h.refs a (h.refs a - 1) b).toNat = A'.held b + if b ∈ A'.all then 1 else 0 := by
    intro b hb A' hA hm
    have := r.refs b hb
    simp only [hm]
    rw [hA]
    by_cases e : b = a
    · subst e
      rw [upd_same, upd_same, u32_pred (by omega)]
      omega
    · rw [upd_other _ _ e, upd_other _ _ e]; exact this
  by_cases h1 : 1 < A.held a
  · -- other references remain
    refine ⟨_, log, unref_keep hla (by omega) (fun hc => ?_), ?_, ⟨rfl, rfl, rfl, rfl, rfl, rfl, rfl⟩⟩
    · rw [hinC] at hc
      rw [if_pos (by simpa using hc)] at hrefs
      omega
    · have e : A.release a = { A with held := upd A.held a (A.held a - 1) } := if_pos h1
      rw [e]
      have hheld : ∀ b, (0 < upd A.held a (A.held a - 1) b ↔ 0 < A.held b) := by
        intro b
        by_cases e : b = a
        · subst e; rw [upd_same]; omega
        · rw [upd_other _ _ e]
      refine ⟨r.dl_lru, r.dl_use, r.nodup, r.lt, ?_, ?_, ?_, ?_, ?_, r.inC, r.nself, r.log, ?_, r.deadnd⟩
      · intro b hb
        have h1 := r.idle0 b hb
        have := hheld b
        show upd A.held a (A.held a - 1) b = 0
        omega
      · intro b hb; exact (hheld b).mpr (r.busy0 b hb)
      · intro b hb
        have h1 := r.heldlt b hb
        have := hheld b
        show upd A.held a (A.held a - 1) b = 0
        omega
      · intro b
        show _ ↔ _ ∧ (0 < upd A.held a (A.held a - 1) b ∨ _)
        rw [hheld]; exact r.live b
      · intro b hb; exact hpred b hb _ rfl Iff.rfl
      · intro b
        show _ ↔ _ ∧ upd A.held a (A.held a - 1) b = 0 ∧ _
        have h3 : upd A.held a (A.held a - 1) b = 0 ↔ A.held b = 0 := by
          have := hheld b; omega
        rw [h3]; exact r.dead b
  · have h1' : A.held a = 1 := by omega
    by_cases hb : a ∈ A.busy
    · -- the entry becomes idle
      have hall : a ∈ A.all := List.mem_append.mpr (Or.inr hb)
      rw [if_pos hall] at hrefs
      have e : A.release a = Abs.mk (A.idle ++ [a]) (A.busy.erase a) (upd A.held a (A.held a - 1))
          A.dead := by
        unfold Abs.release; rw [if_neg h1, if_pos hb]
      obtain ⟨nx1, pv1, e1, d1, d2, s1⟩ := r.unlink hall
      rw [erase_not_mem hni] at d1
      have hnd2 : (A.idle ++ A.busy.erase a).Nodup := by
        have := r.nodup.erase a
        rw [A.all_erase a r.nodup, erase_not_mem hni] at this; exact this
      have e1' : LRU_Remove { h with refs := upd h.refs a (h.refs a - 1) } (.node a) =
          .ok { h with refs := upd h.refs a (h.refs a - 1), next := nx1, prev := pv1 } := by
        have hder : ∀ (pv : Ptr → Option Ptr) (rf : Nat → UInt32) (q : Option Ptr),
            deref { h with prev := pv, refs := rf } q = deref h q := by
          intro pv rf q; cases q with
          | none => rfl
          | some q => cases q <;> rfl
        have hder2 : ∀ (pv : Ptr → Option Ptr) (q : Option Ptr),
            deref { h with prev := pv } q = deref h q := by
          intro pv q; cases q with
          | none => rfl
          | some q => cases q <;> rfl
        have hder3 : ∀ (rf : Nat → UInt32) (q : Option Ptr),
            deref { h with refs := rf } q = deref h q := by
          intro pv q; cases q with
          | none => rfl
          | some q => cases q <;> rfl
        unfold LRU_Remove at e1 ⊢
        simp only [bind, Except.bind, hder] at e1 ⊢
        revert e1
        cases deref h (some (.node a)) with
        | error => intro e1; cases e1
        | ok q =>
          simp only []
          cases deref h (h.next q) with
          | error => intro e1; cases e1
          | ok n =>
            simp only []
            cases deref h (upd h.prev n (h.prev q) q) with
            | error => intro e1; cases e1
            | ok p =>
              simp only [pure, Except.pure, Except.ok.injEq, Heap.mk.injEq, true_and, and_true,
                and_imp]
              exact fun h1 h2 => ⟨h1, h2⟩
      obtain ⟨nx2, pv2, e2, d3, d4, s2⟩ := link_lru
        (h := { h with refs := upd h.refs a (h.refs a - 1), next := nx1, prev := pv1 }) (a := a) d1 d2
        hnd2 (by
          rw [List.mem_append, hn.2.1.mem_erase_iff]; simp [hni])
        (fun b hb => r.live_all (by
          rcases List.mem_append.mp hb with hb | hb
          · exact List.mem_append.mpr (Or.inl hb)
          · exact List.mem_append.mpr (Or.inr (List.mem_of_mem_erase hb)))) hla
      have hmem : ∀ b, b ∈ A.idle ++ [a] ++ A.busy.erase a ↔ b ∈ A.all := by
        intro b
        simp only [Abs.all, List.mem_append, List.mem_singleton, hn.2.1.mem_erase_iff]
        constructor
        · rintro ((h | rfl) | h)
          · exact Or.inl h
          · exact Or.inr hb
          · exact Or.inr h.2
        · rintro (h | h)
          · exact Or.inl (Or.inl h)
          · by_cases e : b = a
            · exact Or.inl (Or.inr e)
            · exact Or.inr ⟨e, h⟩
      refine ⟨_, log, unref_move hla (by omega) (by rw [hinC]; simp [hall]) e1' e2, ?_,
        ⟨rfl, rfl, rfl, rfl, rfl, rfl, rfl⟩⟩
      rw [e]
      refine ⟨d3, d4, ?_, ?_, ?_, ?_, ?_, ?_, ?_, ?_, ?_, r.log, ?_, r.deadnd⟩
      · show (A.idle ++ [a] ++ A.busy.erase a).Nodup
        have : (A.idle ++ [a] ++ A.busy.erase a).Perm A.all := by
          have h5 := (List.perm_cons_erase hb).symm
          simp only [Abs.all, List.append_assoc, List.singleton_append]
          exact List.Perm.append_left _ h5
        exact this.nodup_iff.mpr r.nodup
      · intro b hb'; exact r.lt b ((hmem b).mp hb')
      · intro b hb'
        show upd A.held a (A.held a - 1) b = 0
        rcases List.mem_append.mp hb' with h3 | h3
        · by_cases e : b = a
          · subst e; rw [upd_same]; omega
          · rw [upd_other _ _ e]; exact r.idle0 b h3
        · rw [List.mem_singleton.mp h3, upd_same]; omega
      · intro b hb'
        show 0 < upd A.held a (A.held a - 1) b
        rw [hn.2.1.mem_erase_iff] at hb'
        rw [upd_other _ _ hb'.1]; exact r.busy0 b hb'.2
      · intro b hb'
        show upd A.held a (A.held a - 1) b = 0
        by_cases e : b = a
        · subst e; rw [upd_same]; omega
        · rw [upd_other _ _ e]; exact r.heldlt b hb'
      · intro b
        show h.live b = true ↔ b < h.fresh ∧ (0 < upd A.held a (A.held a - 1) b ∨
          b ∈ A.idle ++ [a] ++ A.busy.erase a)
        rw [hmem, r.live b]
        by_cases e : b = a
        · subst e; simp [hall]
        · rw [upd_other _ _ e]
      · intro b hb'; exact hpred b hb' _ rfl (hmem b)
      · intro b hb'
        have := r.inC b hb'
        show h.inCache b = decide (b ∈ A.idle ++ [a] ++ A.busy.erase a)
        simp only [hmem]; exact this
      · intro b hb'
        exact s2 b (fun _ => s1 b (r.nself b hb'))
      · intro b
        show b ∈ A.dead ↔ b < h.fresh ∧ upd A.held a (A.held a - 1) b = 0 ∧
          b ∉ A.idle ++ [a] ++ A.busy.erase a
        rw [hmem, r.dead b]
        by_cases e : b = a
        · subst e; simp [hall]
        · rw [upd_other _ _ e]
    · -- the entry is deleted
      have hall : a ∉ A.all := by
        intro hh
        rcases List.mem_append.mp hh with hh | hh
        · exact hni hh
        · exact hb hh
      rw [if_neg hall] at hrefs
      have e : A.release a = { A with held := upd A.held a (A.held a - 1), dead := A.dead ++ [a] } := by
        unfold Abs.release; rw [if_neg h1, if_neg hb]
      have hfr : Frame h { h with refs := upd h.refs a (h.refs a - 1), live := upd h.live a false } :=
        ⟨rfl, rfl, rfl, rfl, rfl, rfl, rfl⟩
      refine ⟨_, _, unref_delete hla (by omega) (by rw [hinC]; simp [hall]) (r.nself a hla), ?_, hfr⟩
      rw [e]
      have hlive' : ∀ b, upd h.live a false b = true ↔ b ≠ a ∧ h.live b = true := by
        intro b
        by_cases e : b = a
        · subst e; simp [upd_same]
        · rw [upd_other _ _ e]; simp [e]
      refine ⟨r.dl_lru, r.dl_use, r.nodup, r.lt, ?_, ?_, ?_, ?_, ?_, ?_, ?_, ?_, ?_, ?_⟩
      · intro b hb'
        show upd A.held a (A.held a - 1) b = 0
        rw [upd_other _ _ (show b ≠ a from fun e => hni (e ▸ hb'))]; exact r.idle0 b hb'
      · intro b hb'
        show 0 < upd A.held a (A.held a - 1) b
        rw [upd_other _ _ (show b ≠ a from fun e => hb (e ▸ hb'))]; exact r.busy0 b hb'
      · intro b hb'
        show upd A.held a (A.held a - 1) b = 0
        by_cases e : b = a
        · subst e; rw [upd_same]; omega
        · rw [upd_other _ _ e]; exact r.heldlt b hb'
      · intro b
        show upd h.live a false b = true ↔ b < h.fresh ∧ (0 < upd A.held a (A.held a - 1) b ∨ b ∈ A.all)
        rw [hlive', r.live b]
        by_cases e : b = a
        · subst e; rw [upd_same]; simp [hall]; omega
        · rw [upd_other _ _ e]; simp [e]
      · intro b hb'
        exact hpred b ((hlive' b).mp hb').2 _ rfl Iff.rfl
      · intro b hb'; exact r.inC b ((hlive' b).mp hb').2
      · intro b hb'; exact r.nself b ((hlive' b).mp hb').2
      · show log ++ [deletion h a] = (A.dead ++ [a]).map (deletion h)
        rw [r.log]; simp
      · intro b
        show b ∈ A.dead ++ [a] ↔ b < h.fresh ∧ upd A.held a (A.held a - 1) b = 0 ∧ b ∉ A.all
        rw [List.mem_append, List.mem_singleton, r.dead b]
        by_cases e : b = a
        · subst e; rw [upd_same]; simp [hall, haf, h1']
        · rw [upd_other _ _ e]; simp [e]
      · show (A.dead ++ [a]).Nodup
        rw [List.nodup_append]
        refine ⟨r.deadnd, by simp, ?_⟩
        intro x hx y hy
        rw [List.mem_singleton] at hy; subst hy
        rintro rfl
        have := (r.dead x).mp hx
        omega

/-- `FinishErase` of a cached entry. -/
theorem finishErase1_spec {s : Shard} {A : Abs} (r : LRel s.heap s.log A) {a : Nat} (ha : a ∈ A.all) :
    ∃ h' log', finishErase1 s a =
        .ok { s with heap := h', usage := s.usage - s.heap.charge a, log := log' } ∧
      LRel h' log' (A.uncache a) ∧ Frame s.heap h' := by
  have hla := r.live_all ha
  have hrefs := r.refs a hla
  rw [if_pos ha] at hrefs
  have hinC : s.heap.inCache a = true := by rw [r.inC a hla]; simp [ha]
  have hn := List.nodup_append.mp r.nodup
  obtain ⟨nx1, pv1, e1, d1, d2, s1⟩ := r.unlink ha
  have hmem : ∀ b, b ∈ (A.uncache a).all ↔ b ≠ a ∧ b ∈ A.all := by
    intro b
    have : (A.uncache a).all = A.all.erase a := (A.all_erase a r.nodup).symm
    rw [this, r.nodup.mem_erase_iff]
  have hnd : (A.uncache a).all.Nodup := by
    have : (A.uncache a).all = A.all.erase a := (A.all_erase a r.nodup).symm
    rw [this]; exact r.nodup.erase a
  have hib : ∀ b, b ∈ (A.uncache a).idle → b ∈ A.idle := fun b hb => List.mem_of_mem_erase hb
  have hbb : ∀ b, b ∈ (A.uncache a).busy → b ∈ A.busy := fun b hb => List.mem_of_mem_erase hb
  have hpredr : (s.heap.refs a - 1).toNat = A.held a := by rw [u32_pred (by omega)]; omega
  have start : ∀ (res : M (Heap × List Deletion)),
      Cache.Unref { s.heap with next := nx1, prev := pv1, inCache := upd s.heap.inCache a false } s.log a = res →
      finishErase1 s a = res.bind (fun q => .ok
        { s with heap := q.1, usage := s.usage - s.heap.charge a, log := q.2 }) := by
    intro res hres
    unfold finishErase1
    simp only [derefNode, hla, if_true, bind, Except.bind, hinC, cassert]
    rw [e1]
    simp only []
    rw [hres]
    cases res <;> rfl
  by_cases h0 : A.held a = 0
  · have hu := unref_delete
      (h := { s.heap with next := nx1, prev := pv1, inCache := upd s.heap.inCache a false }) (log := s.log)
      (a := a) hla (by show (s.heap.refs a).toNat = 1; omega) (upd_same _ _ _) (s1 a (r.nself a hla))
    refine ⟨_, _, start _ hu, ?_, ⟨rfl, rfl, rfl, rfl, rfl, rfl, rfl⟩⟩
    have hlive' : ∀ b, upd s.heap.live a false b = true ↔ b ≠ a ∧ s.heap.live b = true := by
      intro b
      by_cases e : b = a
      · subst e; simp [upd_same]
      · rw [upd_other _ _ e]; simp [e]
    refine ⟨d1, d2, hnd, fun b hb => r.lt b ((hmem b).mp hb).2, fun b hb => r.idle0 b (hib b hb),
      fun b hb => r.busy0 b (hbb b hb), r.heldlt, ?_, ?_, ?_, ?_, ?_, ?_, ?_⟩
    · intro b
      show upd s.heap.live a false b = true ↔ _ ∧ (0 < A.held b ∨ _)
      rw [hlive', r.live b, hmem]
      by_cases e : b = a
      · subst e; simp [h0]
      · simp [e]
    · intro b hb
      obtain ⟨hne, hb'⟩ := (hlive' b).mp hb
      show (upd s.heap.refs a _ b).toNat = A.held b + _
      rw [upd_other _ _ hne, r.refs b hb']
      simp only [hmem]
      simp [hne]
    · intro b hb
      obtain ⟨hne, hb'⟩ := (hlive' b).mp hb
      show upd s.heap.inCache a false b = _
      rw [upd_other _ _ hne, r.inC b hb']
      simp only [hmem]
      simp [hne]
    · intro b hb
      exact s1 b (r.nself b ((hlive' b).mp hb).2)
    · simp only [Abs.uncache, h0, if_true, List.map_append]
      rw [r.log]
      rfl
    · intro b
      show b ∈ (A.uncache a).dead ↔ b < s.heap.fresh ∧ A.held b = 0 ∧ _
      rw [hmem]
      simp only [Abs.uncache, h0, if_true, List.mem_append, List.mem_singleton, r.dead b]
      by_cases e : b = a
      · subst e; simp [h0, r.lt b ha]
      · simp [e]
    · simp only [Abs.uncache, h0, if_true]
      rw [List.nodup_append]
      refine ⟨r.deadnd, by simp, ?_⟩
      intro x hx y hy
      rw [List.mem_singleton] at hy; subst hy
      rintro rfl
      exact ((r.dead x).mp hx).2.2 ha
  · have hu := unref_keep
      (h := { s.heap with next := nx1, prev := pv1, inCache := upd s.heap.inCache a false }) (log := s.log)
      (a := a) hla (by show 2 ≤ (s.heap.refs a).toNat; omega)
      (fun hc => by
        have h1 : upd s.heap.inCache a false a = true := hc
        rw [upd_same] at h1; cases h1)
    refine ⟨_, _, start _ hu, ?_, ⟨rfl, rfl, rfl, rfl, rfl, rfl, rfl⟩⟩
    refine ⟨d1, d2, hnd, fun b hb => r.lt b ((hmem b).mp hb).2, fun b hb => r.idle0 b (hib b hb),
      fun b hb => r.busy0 b (hbb b hb), r.heldlt, ?_, ?_, ?_, ?_, ?_, ?_, ?_⟩
    · intro b
      show s.heap.live b = true ↔ _ ∧ (0 < A.held b ∨ _)
      rw [r.live b, hmem]
      by_cases e : b = a
      · subst e; simp [ha]; omega
      · simp [e]
    · intro b hb'
      show (upd s.heap.refs a (s.heap.refs a - 1) b).toNat = A.held b + _
      by_cases e : b = a
      · subst e
        rw [upd_same, hpredr]
        simp [hmem]
      · rw [upd_other _ _ e, r.refs b hb']
        simp only [hmem]
        simp [e]
    · intro b hb'
      show upd s.heap.inCache a false b = _
      by_cases e : b = a
      · subst e; rw [upd_same]; simp [hmem]
      · rw [upd_other _ _ e, r.inC b hb']
        simp only [hmem]
        simp [e]
    · intro b hb'
      exact s1 b (r.nself b hb')
    · simp only [Abs.uncache, if_neg h0]
      exact r.log
    · intro b
      show b ∈ (A.uncache a).dead ↔ b < s.heap.fresh ∧ A.held b = 0 ∧ _
      rw [hmem]
      simp only [Abs.uncache, if_neg h0, r.dead b]
      by_cases e : b = a
      · subst e; simp [ha]; omega
      · simp [e]
    · simp only [Abs.uncache, if_neg h0]
      exact r.deadnd

end

end Cache
end Lsmdb
