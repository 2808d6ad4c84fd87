import Verif.Props.Cache

/-!
# Entries that stay in the cache, and entries that do not come back
-/

namespace Lsmdb
namespace CacheConc
open Cache Spec Props

variable {hf : Slice → M UInt32} {capacity : UInt64} {c : Sharded} {tr : CTrace}

/-- What a Lookup finds is the current entry of the key. -/
theorem finds_current (hH : HashFn hf) (hr : Reach hf capacity c tr) {k : Slice} (hk : k.WF) {h : Handle}
    (hd : Finds hf c k (some h)) : current tr k.bytes = some h := by
  obtain ⟨H, hH⟩ := hH
  have g := reach_inv hH hr
  obtain ⟨s, A, hs, r, t⟩ := g.sh _ (shardIndex_lt (H k.bytes))
  have := (Finds_iff g hH hk hs r _).mp hd
  cases hfd : A.find s.heap.key k.bytes with
  | none => rw [hfd] at this; cases this
  | some a =>
    rw [hfd] at this
    injection this with this
    obtain ⟨h1, h2⟩ := find_mem hfd
    have h3 := t.cur a h1
    rw [h2] at h3
    rw [h3, this]

/-- What is found depends on the bytes of the key only. -/
theorem finds_bytes (hH : HashFn hf) (hr : Reach hf capacity c tr) {k k' : Slice} (hk : k.WF) (hk' : k'.WF)
    (hb : k'.bytes = k.bytes) {x : Option Handle} (hd : Finds hf c k' x) : Finds hf c k x := by
  obtain ⟨H, hH⟩ := hH
  have g := reach_inv hH hr
  obtain ⟨s, A, hs, r, t⟩ := g.sh _ (shardIndex_lt (H k.bytes))
  refine (Finds_iff g hH hk hs r _).mpr ?_
  have := (Finds_iff g hH hk' (by rw [hb]; exact hs) r _).mp hd
  rw [hb] at this
  exact this

/-- A cached entry is found under its key. -/
theorem cached_finds (hH : HashFn hf) (hr : Reach hf capacity c tr) {k : Slice} (hk : k.WF) {h : Handle} {i : CInfo}
    (hi : inserted tr h = some i) (hb : i.key = k.bytes) (hc : Cached hf c h) : Finds hf c k (some h) := by
  obtain ⟨k', c', hk', e⟩ := hc
  have h1 := finds_current hH hr hk' ⟨c', e⟩
  obtain ⟨Hh, hHh⟩ := id hH
  obtain ⟨j, h2, h3⟩ := (reach_inv hHh hr).curkey _ _ h1
  rw [hi] at h2
  injection h2 with h2
  subst h2
  exact finds_bytes hH hr hk hk' (by rw [← h3, hb]) ⟨c', e⟩

/-- What is cached after an Insert is the new entry or was cached. -/
theorem cached_insert (hH : HashFn hf) (hr : Reach hf capacity c tr) {k : Slice} {v : Nat} {ch : UInt64} {d : Nat}
    (ha : Allowed tr (.insert k v ch d)) {c' : Sharded} {x : Option Handle} (e : cstep hf c (.insert k v ch d) = .ok (c', x)) {h : Handle}
    (hc : Cached hf c' h) : x = some h ∨ Cached hf c h := by
  obtain ⟨H, hH⟩ := hH
  have g := reach_inv hH hr
  obtain ⟨s, A, s', A', hs, r, t, e', r', t', g', nd, hcap, h0, h1⟩ := step_insert g hH ha
  rw [e'] at e
  injection e with e
  injection e with e1 e2
  subst e1; subst e2
  have hj := shardIndex_lt (H k.bytes)
  by_cases hsh : h.shard = shardIndex (H k.bytes)
  · rw [cached_own g hj g' hH r' t' hsh] at hc
    rw [cached_at g hH hs r t hsh]
    by_cases hz : s.capacity = 0
    · have := t'.zero (by rw [← t.capEq, hz])
      rw [this] at hc; cases hc
    · have hpos : s.capacity > 0 := by
        rw [gt_iff_lt, UInt64.lt_iff_toNat_lt]
        have : s.capacity.toNat ≠ 0 := fun e => hz (UInt64.toNat_inj.mp e)
        exact Nat.pos_of_ne_zero this
      obtain ⟨ev, rest, hsp, hA', -, -⟩ := h1 hpos
      have hm : h.addr ∈ (A.add s.heap.key k.bytes s.heap.fresh).all := by
        rw [hA'] at hc
        rw [Abs.all, List.mem_append] at hc ⊢
        rcases hc with hc | hc
        · left; rw [hsp]; exact List.mem_append.mpr (Or.inr hc)
        · right; exact hc
      rcases (Abs.add_mem r k.bytes h.addr).mp hm with h2 | h2
      · exact Or.inr h2.1
      · left; rw [← h2, ← hsh]
  · exact Or.inr ((cached_other g g' hH hsh).mp hc)

/-- The outcome of a call is determined. -/
theorem det {op : COp} {c1 c2 : Sharded} {x1 x2 : Option Handle} (e1 : cstep hf c op = .ok (c1, x1))
    (e2 : cstep hf c op = .ok (c2, x2)) : c1 = c2 ∧ x1 = x2 := by
  rw [e1] at e2
  injection e2 with e2
  injection e2 with e3 e4
  exact ⟨e3, e4⟩

/-- While a client has a reference to the current entry of a key, it is in the cache. -/
theorem in_use_cached (hH : HashFn hf) (hcap : perShard capacity ≠ 0) (hr : Reach hf capacity c tr) {kb : Bytes} {h : Handle}
    (hc : current tr kb = some h) (ho : 0 < outstanding tr h) : Cached hf c h := by
  induction hr generalizing kb h with
  | init => cases hc
  | @step c tr op c' x hr ha e ih =>
    have hins : ∀ {kb h}, current tr kb = some h → ∃ i, inserted tr h = some i ∧ i.key = kb := by
      obtain ⟨Hh, hHh⟩ := hH
      exact fun h => (reach_inv hHh hr).curkey _ _ h
    cases op with
    | insert k v ch d =>
      obtain ⟨c1, y, e1, hn, ⟨c2, hfd⟩, -⟩ := C26_insert_found hH hr hcap ha
      obtain ⟨rfl, rfl⟩ := det e e1
      simp only [current] at hc
      split at hc
      · injection hc with hc
        subst hc
        exact ⟨k, c2, ha.1, hfd⟩
      · rename_i ne
        obtain ⟨i, h1, h2⟩ := hins hc
        have hne : y ≠ h := by rintro rfl; rw [hn] at h1; cases h1
        have ho' : 0 < outstanding tr h := by
          simp only [outstanding, obtained, released, Option.some.injEq, hne, if_false] at ho
          exact ho
        have hb := ih hc ho'
        obtain ⟨c3, y3, e3, hev⟩ := C30_lru hH hr ha
        obtain ⟨rfl, hy⟩ := det e e3
        injection hy with hy
        subst hy
        rcases Classical.em (Cached hf c' h) with h3 | h3
        · exact h3
        · have := (hev h ⟨hb, h3, fun hcur => ?_⟩).2.1
          · omega
          · obtain ⟨j, h4, h5⟩ := hins hcur
            rw [h1] at h4
            injection h4 with h4
            subst h4
            exact ne (h5.symm.trans h2)
    | lookup k =>
      obtain ⟨c1, y, e1, hall⟩ := C31_lookup_release hH hr (Or.inl ⟨k, rfl⟩) ha
      obtain ⟨rfl, rfl⟩ := det e e1
      have key : Cached hf c h := by
        by_cases hx : x = some h
        · subst hx
          exact ⟨k, c', ha.1, e⟩
        · refine ih hc ?_
          simp only [outstanding, obtained, released, hx, if_false] at ho
          exact ho
      obtain ⟨k', c3, hk', e3⟩ := key
      obtain ⟨c4, e4⟩ := (hall k' hk' _).mpr ⟨c3, e3⟩
      exact ⟨k', c4, hk', e4⟩
    | release y =>
      obtain ⟨c1, y, e1, hall⟩ := C31_lookup_release hH hr (Or.inr ⟨_, rfl⟩) ha
      obtain ⟨rfl, rfl⟩ := det e e1
      have key : Cached hf c h := by
        refine ih hc ?_
        simp only [outstanding, obtained, released] at ho ⊢
        omega
      obtain ⟨k', c3, hk', e3⟩ := key
      obtain ⟨c4, e4⟩ := (hall k' hk' _).mpr ⟨c3, e3⟩
      exact ⟨k', c4, hk', e4⟩
    | erase k =>
      obtain ⟨c1, e1, -, hall⟩ := C31_erase hH hr ha
      obtain ⟨rfl, rfl⟩ := det e e1
      simp only [current] at hc
      split at hc
      · cases hc
      · rename_i ne
        obtain ⟨k', c3, hk', e3⟩ := ih hc ho
        have h1 := finds_current hH hr hk' ⟨c3, e3⟩
        obtain ⟨i, h2, h3⟩ := hins h1
        obtain ⟨j, h4, h5⟩ := hins hc
        rw [h2] at h4
        injection h4 with h4
        subst h4
        obtain ⟨c4, e4⟩ := (hall k' hk' (by rw [← h3, h5]; exact fun h => ne h.symm) _).mpr ⟨c3, e3⟩
        exact ⟨k', c4, hk', e4⟩
    | pruneShard i =>
      obtain ⟨c1, e1, hall⟩ := C32_prune_shard hH hr ha
      obtain ⟨rfl, rfl⟩ := det e e1
      exact (hall h).mpr ⟨ih hc ho, fun _ => ho⟩

/-- An entry that nobody refers to and that is not in the cache. -/
def Left (hf : Slice → M UInt32) (c : Sharded) (tr : CTrace) (h : Handle) : Prop :=
  inserted tr h ≠ none ∧ outstanding tr h = 0 ∧ ¬ Cached hf c h

/-- It does not come back. -/
theorem Left.step (hH : HashFn hf) (hr : Reach hf capacity c tr) {op : COp} (ha : Allowed tr op) {c' : Sharded} {x : Option Handle}
    (e : cstep hf c op = .ok (c', x)) {h : Handle} (l : Left hf c tr h) : Left hf c' (⟨op, x⟩ :: tr) h := by
  obtain ⟨l1, l2, l3⟩ := l
  cases op with
  | insert k v ch d =>
    obtain ⟨H, hH'⟩ := id hH
    obtain ⟨s, A, s', A', hs, r, t, e', -⟩ := step_insert (reach_inv hH' hr) hH' ha
    obtain ⟨rfl, rfl⟩ := det e e'
    have hn := t.noins _ (Nat.le_refl _)
    have hne : ¬ (some (⟨shardIndex (H k.bytes), s.heap.fresh⟩ : Handle) = some h) := by
      intro e; injection e with e; subst e; exact l1 hn
    refine ⟨?_, ?_, fun hc => ?_⟩
    · simp only [inserted, hne, if_false]; exact l1
    · simp only [outstanding, obtained, released, hne, if_false] at l2 ⊢; exact l2
    · rcases cached_insert hH hr ha e hc with h1 | h1
      · exact hne h1
      · exact l3 h1
  | lookup k =>
    obtain ⟨c1, y, e1, hall⟩ := C31_lookup_release hH hr (Or.inl ⟨k, rfl⟩) ha
    obtain ⟨rfl, rfl⟩ := det e e1
    have hx : x ≠ some h := by rintro rfl; exact l3 ⟨k, c', ha.1, e⟩
    refine ⟨l1, ?_, ?_⟩
    · simp only [outstanding, obtained, released, hx, if_false] at l2 ⊢; exact l2
    · rintro ⟨k', c3, hk', e3⟩
      obtain ⟨c4, e4⟩ := (hall k' hk' _).mp ⟨c3, e3⟩
      exact l3 ⟨k', c4, hk', e4⟩
  | release y =>
    obtain ⟨c1, y, e1, hall⟩ := C31_lookup_release hH hr (Or.inr ⟨_, rfl⟩) ha
    obtain ⟨rfl, rfl⟩ := det e e1
    refine ⟨l1, ?_, ?_⟩
    · simp only [outstanding, obtained, released] at l2 ⊢; omega
    · rintro ⟨k', c3, hk', e3⟩
      obtain ⟨c4, e4⟩ := (hall k' hk' _).mp ⟨c3, e3⟩
      exact l3 ⟨k', c4, hk', e4⟩
  | erase k =>
    obtain ⟨c1, e1, hnone, hall⟩ := C31_erase hH hr ha
    obtain ⟨rfl, rfl⟩ := det e e1
    refine ⟨l1, l2, ?_⟩
    rintro ⟨k', c3, hk', e3⟩
    have hr' : Reach hf capacity c' (⟨.erase k, none⟩ :: tr) := .step hr ha e
    by_cases hb : k'.bytes = k.bytes
    · obtain ⟨c4, e4⟩ := finds_bytes hH hr' ha hk' hb ⟨c3, e3⟩
      obtain ⟨c5, e5⟩ := hnone
      rw [e4] at e5
      cases e5
    · obtain ⟨c4, e4⟩ := (hall k' hk' hb _).mp ⟨c3, e3⟩
      exact l3 ⟨k', c4, hk', e4⟩
  | pruneShard i =>
    obtain ⟨c1, e1, hall⟩ := C32_prune_shard hH hr ha
    obtain ⟨rfl, rfl⟩ := det e e1
    exact ⟨l1, l2, fun hc => l3 ((hall h).mp hc).1⟩

end CacheConc
end Lsmdb
