import Verif.Proof.Cache8
import Verif.Proof.Hash

/-! # Lemmas that connect the invariant with the vocabulary of the specification -/

namespace Lsmdb
namespace Cache
open Spec

variable {hf : Slice → M UInt32} {capacity : UInt64} {c : Sharded} {tr : CTrace}

/-- The program's hash function is a function of the bytes. -/
theorem HashSlice_HashFn : HashFn HashSlice := by
  refine ⟨fun bs => Hash.hashBytes32 (0 ^^^ (UInt32.ofNat bs.length * Hash.m)) bs, ?_⟩
  intro k hk
  have hk : k.off + k.len ≤ k.buf.length := hk
  have h1 : k.buf = k.buf.take k.off ++ k.bytes ++ k.buf.drop (k.off + k.len) := by
    unfold Slice.bytes
    rw [← List.drop_drop, List.append_assoc, List.take_append_drop, List.take_append_drop]
  have h2 : (k.buf.take k.off).length = k.off := by rw [List.length_take]; omega
  have h3 : k.bytes.length = k.len := by
    unfold Slice.bytes; rw [List.length_take, List.length_drop]; omega
  have := Hash.Hash_eq32 (k.buf.take k.off) k.bytes (k.buf.drop (k.off + k.len)) 0
  rw [← h1, h2, h3] at this
  rw [HashSlice, this]; simp only [h3]

/-- What is known about a handle in one of the sixteen shards. -/
theorem deletions_eq {H : Bytes → UInt32} {i a : Nat} {s : Shard} {A : Abs} (hs : c.shards[i]? = some s)
    (r : Rel H s A) :
    deletions c.shards ⟨i, a⟩ = if a ∈ A.dead then [deletion s.heap a] else [] := by
  have hgen : ∀ L : List Nat, L.Nodup → (L.map (deletion s.heap)).filter (fun d => d.addr == a) =
      if a ∈ L then [deletion s.heap a] else [] := by
    intro L hL
    induction L with
    | nil => rfl
    | cons b L ih =>
      rw [List.nodup_cons] at hL
      rw [List.map_cons, List.filter_cons, ih hL.2]
      by_cases e : b = a
      · subst e; simp [deletion, hL.1]
      · have e' : ¬ a = b := fun h => e h.symm
        simp [deletion, e, e']
  unfold deletions
  simp only [hs]
  rw [r.l.log]
  exact hgen _ r.l.deadnd

theorem chargeOf_eq {H : Bytes → UInt32} {cap : UInt64} {i : Nat} {s : Shard} {A : Abs}
    (t : TRel H cap i s A tr) {a : Nat} (ha : a < s.heap.fresh) :
    chargeOf tr ⟨i, a⟩ = (s.heap.charge a).toNat := by
  unfold chargeOf; rw [t.ins a ha]

/-- The handles of one shard and their charges. -/
theorem shard_sum {H : Bytes → UInt32} {cap : UInt64} {i : Nat} {s : Shard} {A : Abs} (r : Rel H s A)
    (t : TRel H cap i s A tr) (L : List Nat) (hL : ∀ a ∈ L, a ∈ A.all) :
    ((L.map (fun a => (⟨i, a⟩ : Handle))).map (chargeOf tr)).sum = csum s.heap.charge L := by
  unfold csum
  rw [List.map_map]
  congr 1
  apply List.map_congr_left
  intro a ha
  exact chargeOf_eq t (r.l.lt a (hL a ha))

theorem handles_nodup (i : Nat) {L : List Nat} (h : L.Nodup) : (L.map (fun a => (⟨i, a⟩ : Handle))).Nodup := by
  unfold List.Nodup
  rw [List.pairwise_map]
  exact List.Pairwise.imp (fun hne e => hne (by injection e)) h

theorem mem_handles {i : Nat} {L : List Nat} {h : Handle} :
    h ∈ L.map (fun a => (⟨i, a⟩ : Handle)) ↔ h.shard = i ∧ h.addr ∈ L := by
  rw [List.mem_map]
  constructor
  · rintro ⟨a, ha, rfl⟩; exact ⟨rfl, ha⟩
  · rintro ⟨h1, h2⟩; exact ⟨h.addr, h2, by rw [← h1]⟩

theorem foldl_total : ∀ (L : List Shard) (acc : UInt64),
    L.foldl (fun total s => total + Cache.TotalCharge s) acc =
      acc + L.foldr (fun s x => Cache.TotalCharge s + x) 0
  | [], acc => by simp
  | s :: L, acc => by
    rw [List.foldl_cons, foldl_total L, List.foldr_cons, UInt64.add_assoc]

/-- Handles cached after a call in a shard the call did not touch. -/
theorem cached_other {H : Bytes → UInt32} {tr' : CTrace} {j : Nat} {s' : Shard} (g : GInv H capacity c tr)
    (g' : GInv H capacity (setShard c j s') tr') (hH : ∀ k : Slice, k.WF → hf k = .ok (H k.bytes))
    {h : Handle} (hne : h.shard ≠ j) : Cached hf (setShard c j s') h ↔ Cached hf c h := by
  rcases Nat.lt_or_ge h.shard 16 with h1 | h1
  · obtain ⟨s1, A1, hs1, r1, t1⟩ := g.sh _ h1
    obtain ⟨s2, A2, hs2, r2, t2⟩ := g'.sh _ h1
    have e : s2 = s1 := by
      simp only [setShard] at hs2
      rw [List.getElem?_set_ne (fun e => hne e.symm), hs1] at hs2
      injection hs2 with hs2
      exact hs2.symm
    subst e
    rw [show h = ⟨h.shard, h.addr⟩ from rfl, Cached_iff g hH hs1 r1 t1, Cached_iff g' hH hs2 r2 t2]
    constructor
    · intro hm
      have hl := r2.l.live_all hm
      have e1 := r1.l.inC _ hl
      rw [r2.l.inC _ hl] at e1
      simpa [hm] using e1.symm
    · intro hm
      have hl := r1.l.live_all hm
      have e1 := r1.l.inC _ hl
      rw [r2.l.inC _ hl] at e1
      simpa [hm] using e1
  · constructor
    · intro hc; have := Cached_shard g' hH hc; omega
    · intro hc; have := Cached_shard g hH hc; omega

theorem get_set {H : Bytes → UInt32} (g : GInv H capacity c tr) {j : Nat} (hj : j < 16) (s' : Shard) :
    (setShard c j s').shards[j]? = some s' := by
  simp only [setShard]
  rw [List.getElem?_set_self (by rw [g.len]; exact hj)]

theorem cached_own {H : Bytes → UInt32} {tr' : CTrace} {j : Nat} {s' : Shard} {A' : Abs}
    (g : GInv H capacity c tr) (hj : j < 16)
    (g' : GInv H capacity (setShard c j s') tr') (hH : ∀ k : Slice, k.WF → hf k = .ok (H k.bytes))
    (r' : Rel H s' A') (t' : TRel H (perShard capacity) j s' A' tr') {h : Handle} (he : h.shard = j) :
    Cached hf (setShard c j s') h ↔ h.addr ∈ A'.all := by
  have := Cached_iff (a := h.addr) g' hH (get_set g hj s') r' t'
  rw [← this, ← he]

theorem cached_at {H : Bytes → UInt32} {j : Nat} {s : Shard} {A : Abs}
    (g : GInv H capacity c tr) (hH : ∀ k : Slice, k.WF → hf k = .ok (H k.bytes))
    (hs : c.shards[j]? = some s) (r : Rel H s A) (t : TRel H (perShard capacity) j s A tr) {h : Handle}
    (he : h.shard = j) : Cached hf c h ↔ h.addr ∈ A.all := by
  have := Cached_iff (a := h.addr) g hH hs r t
  rw [← this, ← he]

/-- What a Lookup of any key finds, before and after a step on shard `j`. -/
theorem finds_step {H : Bytes → UInt32} {tr' : CTrace} {j : Nat} {s s' : Shard} {A A' : Abs} {k : Slice}
    (g : GInv H capacity c tr) (hj : j < 16) (hs : c.shards[j]? = some s) (r : Rel H s A)
    (g' : GInv H capacity (setShard c j s') tr') (hH : ∀ k : Slice, k.WF → hf k = .ok (H k.bytes))
    (r' : Rel H s' A') (hk : k.WF)
    (hsame : shardIndex (H k.bytes) = j → A'.find s'.heap.key k.bytes = A.find s.heap.key k.bytes)
    (x : Option Handle) : Finds hf (setShard c j s') k x ↔ Finds hf c k x := by
  by_cases e : shardIndex (H k.bytes) = j
  · rw [Finds_iff g hH hk (by rw [e]; exact hs) r,
      Finds_iff g' hH hk (by rw [e]; exact get_set g hj s') r', hsame e]
  · obtain ⟨s1, A1, hs1, r1, t1⟩ := g.sh _ (shardIndex_lt (H k.bytes))
    have hs2 : (setShard c j s').shards[shardIndex (H k.bytes)]? = some s1 := by
      simp only [setShard]
      rw [List.getElem?_set_ne (fun h => e h.symm)]; exact hs1
    rw [Finds_iff g hH hk hs1 r1, Finds_iff g' hH hk hs2 r1]

theorem find_congr {H : Bytes → UInt32} {s s' : Shard} {A A' : Abs} (r : Rel H s A) (r' : Rel H s' A')
    {kb : Bytes} (hm : ∀ a, (a ∈ A'.all ∧ s'.heap.key a = kb) ↔ (a ∈ A.all ∧ s.heap.key a = kb)) :
    A'.find s'.heap.key kb = A.find s.heap.key kb := by
  apply option_ext'
  intro a
  have key : ∀ {s : Shard} {A : Abs}, Rel H s A → (A.find s.heap.key kb = some a ↔
      (a ∈ A.all ∧ s.heap.key a = kb)) := by
    intro s A r
    constructor
    · exact find_mem
    · rintro ⟨h1, h2⟩
      rw [← h2]; exact r.find_eq h1
  rw [key r', key r]; exact hm a

theorem cstep_lastId {op : COp} {c' : Sharded} {x : Option Handle} (e : cstep hf c op = .ok (c', x)) :
    c'.lastId = c.lastId := by
  cases op with
  | insert k v ch d =>
    simp only [cstep, Sharded.Insert, bind, Except.bind] at e
    cases h1 : hf k with
    | error f => rw [h1] at e; cases e
    | ok hash =>
      rw [h1] at e
      simp only [] at e
      cases h2 : getShard c (shardIndex hash) with
      | error f => rw [h2] at e; cases e
      | ok s =>
        rw [h2] at e
        simp only [] at e
        cases h3 : Cache.Insert s k hash v ch d with
        | error f => rw [h3] at e; cases e
        | ok p =>
          rw [h3] at e
          injection e with e
          injection e with e1 e2
          rw [← e1]; rfl
  | lookup k =>
    simp only [cstep, Sharded.Lookup, bind, Except.bind] at e
    cases h1 : hf k with
    | error f => rw [h1] at e; cases e
    | ok hash =>
      rw [h1] at e
      simp only [] at e
      cases h2 : getShard c (shardIndex hash) with
      | error f => rw [h2] at e; cases e
      | ok s =>
        rw [h2] at e
        simp only [] at e
        cases h3 : Cache.Lookup s k hash with
        | error f => rw [h3] at e; cases e
        | ok p =>
          rw [h3] at e
          injection e with e
          injection e with e1 e2
          rw [← e1]; rfl
  | release h =>
    simp only [cstep, Sharded.Release, bind, Except.bind] at e
    cases h2 : getShard c h.shard with
    | error f => rw [h2] at e; cases e
    | ok s =>
      rw [h2] at e
      simp only [] at e
      cases h3 : derefNode s.heap h.addr with
      | error f => rw [h3] at e; cases e
      | ok _ =>
        rw [h3] at e
        simp only [] at e
        by_cases h4 : shardIndex (s.heap.hash h.addr) = h.shard
        · simp only [h4, ne_eq, not_true_eq_false, if_false] at e
          cases h5 : Cache.Release s h.addr with
          | error f => rw [h5] at e; cases e
          | ok p =>
            rw [h5] at e
            injection e with e
            injection e with e1 e2
            rw [← e1]; rfl
        · simp only [ne_eq, h4, not_false_eq_true, if_true] at e
          cases e
  | erase k =>
    simp only [cstep, Sharded.Erase, bind, Except.bind] at e
    cases h1 : hf k with
    | error f => rw [h1] at e; cases e
    | ok hash =>
      rw [h1] at e
      simp only [] at e
      cases h2 : getShard c (shardIndex hash) with
      | error f => rw [h2] at e; cases e
      | ok s =>
        rw [h2] at e
        simp only [] at e
        cases h3 : Cache.Erase s k hash with
        | error f => rw [h3] at e; cases e
        | ok p =>
          rw [h3] at e
          injection e with e
          injection e with e1 e2
          rw [← e1]; rfl
  | pruneShard i =>
    simp only [cstep, Sharded.PruneShard, bind, Except.bind] at e
    cases h2 : getShard c i with
    | error f => rw [h2] at e; cases e
    | ok s =>
      rw [h2] at e
      simp only [] at e
      cases h3 : Cache.Prune s with
      | error f => rw [h3] at e; cases e
      | ok p =>
        rw [h3] at e
        injection e with e
        injection e with e1 e2
        rw [← e1]; rfl

/-- The ids of a run are the numbers after the last id, in order. -/
theorem runIds_eq : ∀ (ops : List (Option COp)) {c c' : Sharded} {ids : List UInt64},
    runIds hf c ops = .ok (c', ids) →
    ids = (List.range ids.length).map (fun i => c.lastId + UInt64.ofNat (i + 1))
  | [], c, c', ids, h => by
    injection h with h
    injection h with h1 h2
    subst h2; rfl
  | none :: ops, c, c', ids, h => by
    rw [runIds] at h
    simp only [bind, Except.bind] at h
    cases h1 : runIds hf (Sharded.NewId c).1 ops with
    | error f => rw [h1] at h; cases h
    | ok p =>
      obtain ⟨c2, ids2⟩ := p
      rw [h1] at h
      injection h with h
      injection h with h2 h3
      subst h3
      have ih := runIds_eq ops h1
      rw [List.length_cons, List.range_succ_eq_map, List.map_cons, List.map_map]
      refine List.cons_eq_cons.mpr ⟨rfl, ?_⟩
      conv => lhs; rw [ih]
      apply List.map_congr_left
      intro i _
      show c.lastId + 1 + UInt64.ofNat (i + 1) = c.lastId + UInt64.ofNat (i + 1 + 1)
      rw [UInt64.ofNat_add (i + 1) 1, UInt64.add_assoc, UInt64.add_comm 1]
      rfl
  | some op :: ops, c, c', ids, h => by
    rw [runIds] at h
    simp only [bind, Except.bind] at h
    cases h1 : cstep hf c op with
    | error f => rw [h1] at h; cases h
    | ok p =>
      obtain ⟨c2, x⟩ := p
      rw [h1] at h
      have := runIds_eq ops h
      rw [cstep_lastId h1] at this
      exact this

theorem perShard_toNat (cap : UInt64) : (perShard cap).toNat = (cap.toNat + 15) % 2 ^ 64 / 16 := by
  unfold perShard
  rw [UInt64.toNat_div, UInt64.toNat_add]
  rfl

theorem total_capacity_eq (hH : HashFn hf) (hr : Reach hf capacity c tr) :
    totalCapacity c = 16 * (perShard capacity).toNat := by
  obtain ⟨H, hH⟩ := hH
  have g := reach_inv hH hr
  have : c.shards.map (fun s => s.capacity.toNat) = List.replicate 16 (perShard capacity).toNat := by
    apply List.ext_getElem?
    intro i
    rw [List.getElem?_map, List.getElem?_replicate]
    split
    · rename_i hi
      obtain ⟨s, A, hs, r, t⟩ := g.sh i hi
      rw [hs]; simp [t.capEq]
    · rename_i hi
      rw [List.getElem?_eq_none (by rw [g.len]; omega)]; rfl
  unfold totalCapacity
  rw [this]
  simp
  omega

def insertKeys : CTrace → List Bytes
  | [] => []
  | ⟨.insert k _ _ _, _⟩ :: tr => k.bytes :: insertKeys tr
  | _ :: tr => insertKeys tr

theorem insertKeys_length : ∀ tr : CTrace, (insertKeys tr).length ≤ tr.length
  | [] => Nat.le_refl _
  | ⟨.insert k _ _ _, _⟩ :: tr => by simp [insertKeys, insertKeys_length tr]
  | ⟨.lookup k, _⟩ :: tr => Nat.le_succ_of_le (insertKeys_length tr)
  | ⟨.release k, _⟩ :: tr => Nat.le_succ_of_le (insertKeys_length tr)
  | ⟨.erase k, _⟩ :: tr => Nat.le_succ_of_le (insertKeys_length tr)
  | ⟨.pruneShard k, _⟩ :: tr => Nat.le_succ_of_le (insertKeys_length tr)

theorem current_insertKeys : ∀ (tr : CTrace) (kb : Bytes), current tr kb ≠ none → kb ∈ insertKeys tr
  | [], kb, h => absurd rfl h
  | ⟨.insert k _ _ _, _⟩ :: tr, kb, h => by
    simp only [current] at h
    simp only [insertKeys, List.mem_cons]
    by_cases e : k.bytes = kb
    · exact Or.inl e.symm
    · rw [if_neg e] at h
      exact Or.inr (current_insertKeys tr kb h)
  | ⟨.lookup k, _⟩ :: tr, kb, h => current_insertKeys tr kb h
  | ⟨.release k, _⟩ :: tr, kb, h => current_insertKeys tr kb h
  | ⟨.erase k, _⟩ :: tr, kb, h => by
    simp only [current] at h
    by_cases e : k.bytes = kb
    · rw [if_pos e] at h; exact absurd rfl h
    · rw [if_neg e] at h; exact current_insertKeys tr kb h
  | ⟨.pruneShard k, _⟩ :: tr, kb, h => current_insertKeys tr kb h

theorem obtained_le : ∀ (tr : CTrace) (h : Handle), obtained tr h ≤ tr.length
  | [], _ => Nat.le_refl _
  | ⟨.insert k _ _ _, r⟩ :: tr, h => by
    have := obtained_le tr h
    simp only [obtained, List.length_cons]; split <;> omega
  | ⟨.lookup k, _⟩ :: tr, h => by
    have := obtained_le tr h
    simp only [obtained, List.length_cons]; split <;> omega
  | ⟨.release k, _⟩ :: tr, h => Nat.le_succ_of_le (obtained_le tr h)
  | ⟨.erase k, _⟩ :: tr, h => Nat.le_succ_of_le (obtained_le tr h)
  | ⟨.pruneShard k, _⟩ :: tr, h => Nat.le_succ_of_le (obtained_le tr h)

/-- An insertion changes only chain pointers (used in an example). -/
theorem tableInsert_spec_example (h : Heap) (t : HTable) {m : TMap} (r : TReach h t m) {a : Nat}
    (hl : h.live a = true) (hn : h.next (.node a) ≠ some (.node a)) (hf : a < h.fresh)
    (hnew : ∀ k, m k ≠ some a) (hsz : ∃ n, KeyCount m n ∧ n < 2 ^ 31) :
    ∃ h' t', tableInsert h t a = .ok (h', t', m (h.hash a, h.key a)) ∧ h'.live = h.live ∧
      h'.next = h.next ∧ h'.fresh = h.fresh ∧ h'.hash = h.hash ∧ h'.key = h.key := by
  have i := TReach_inv r
  have hc := i.count
  obtain ⟨C, E, ok, hn', hload, hm⟩ := i
  obtain ⟨n, hn1, hn2⟩ := hsz
  have := KeyCount_unique hc hn1
  rw [ok.elems] at this
  have haE : a ∉ E := by
    intro ha
    refine hnew (h.hash a, h.key a) ?_
    rw [hm]
    exact (lookupIn_iff ok _ _ _).mpr ⟨ha, rfl, rfl⟩
  obtain ⟨nh', t', C', e, ok', hl'⟩ := tableInsert_spec ok hn' haE hl hn hf (by omega)
  refine ⟨{ h with nextHash := nh' }, t', ?_, rfl, rfl, rfl, rfl, rfl⟩
  rw [hm]; exact e

end Cache
end Lsmdb
