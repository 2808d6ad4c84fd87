import Verif.Proof.Cache4

/-! # One shard: every operation preserves the invariant -/

namespace Lsmdb
namespace Cache

/-- Sum of charges. -/
def csum (charge : Nat → UInt64) (L : List Nat) : Nat := (L.map (fun a => (charge a).toNat)).sum

theorem csum_perm {charge : Nat → UInt64} {L L' : List Nat} (h : L.Perm L') :
    csum charge L = csum charge L' := (h.map _).sum_nat

theorem csum_cons (charge : Nat → UInt64) (a : Nat) (L : List Nat) :
    csum charge (a :: L) = (charge a).toNat + csum charge L := by simp [csum]

theorem csum_congr {c c' : Nat → UInt64} {L : List Nat} (h : ∀ a ∈ L, c' a = c a) :
    csum c' L = csum c L := by
  unfold csum
  rw [List.map_congr_left (fun a ha => by rw [h a ha])]

/-- The data fields of handles, which no operation but `Insert` writes (and that only for the new
handle). -/
structure DFrame (h h' : Heap) : Prop where
  fresh : h'.fresh = h.fresh
  charge : h'.charge = h.charge
  hash : h'.hash = h.hash
  key : h'.key = h.key
  value : h'.value = h.value
  deleter : h'.deleter = h.deleter

theorem Frame.d {h h' : Heap} (f : Frame h h') : DFrame h h' :=
  ⟨f.fresh, f.charge, f.hash, f.key, f.value, f.deleter⟩

theorem DFrame.refl (h : Heap) : DFrame h h := ⟨rfl, rfl, rfl, rfl, rfl, rfl⟩

theorem DFrame.trans {h1 h2 h3 : Heap} (f : DFrame h1 h2) (g : DFrame h2 h3) : DFrame h1 h3 :=
  ⟨g.fresh.trans f.fresh, g.charge.trans f.charge, g.hash.trans f.hash, g.key.trans f.key,
    g.value.trans f.value, g.deleter.trans f.deleter⟩

structure Rel (H : Bytes → UInt32) (s : Shard) (A : Abs) : Prop where
  l : LRel s.heap s.log A
  tab : ∃ C, TabOK s.heap s.tab C A.all
  usage : s.usage = UInt64.ofNat (csum s.heap.charge A.all)
  hash : ∀ a, a < s.heap.fresh → s.heap.hash a = H (s.heap.key a)

/-- The cached entry with a key. -/
def Abs.find (A : Abs) (key : Nat → Bytes) (kb : Bytes) : Option Nat :=
  A.all.find? (fun a => decide (key a = kb))

theorem find?_congr' {p q : Nat → Bool} : ∀ {L : List Nat}, (∀ a ∈ L, p a = q a) → L.find? p = L.find? q
  | [], _ => rfl
  | a :: L, h => by
    rw [List.find?_cons, List.find?_cons, h a (by simp), find?_congr' (fun b hb => h b (by simp [hb]))]

variable {H : Bytes → UInt32} {s : Shard} {A : Abs}

theorem Rel.lookupIn (r : Rel H s A) (kb : Bytes) :
    lookupIn s.heap A.all kb (H kb) = A.find s.heap.key kb := by
  refine find?_congr' (fun a ha => ?_)
  have := r.hash a (r.l.lt a ha)
  simp only [matches_]
  by_cases e : s.heap.key a = kb
  · simp [e, this]
  · simp [e]

theorem Rel.uniq (r : Rel H s A) {a b : Nat} (ha : a ∈ A.all) (hb : b ∈ A.all)
    (h : s.heap.key a = s.heap.key b) : a = b := by
  obtain ⟨C, hC⟩ := r.tab
  refine hC.uniq a ha b hb ?_ h
  rw [r.hash a (r.l.lt a ha), r.hash b (r.l.lt b hb), h]

theorem Rel.find_eq (r : Rel H s A) {a : Nat} (ha : a ∈ A.all) :
    A.find s.heap.key (s.heap.key a) = some a := by
  have : ∃ b, A.find s.heap.key (s.heap.key a) = some b := by
    rw [← Option.isSome_iff_exists, Abs.find, List.find?_isSome]; exact ⟨a, ha, by simp⟩
  obtain ⟨b, hb⟩ := this
  have h1 := List.find?_some hb
  have h2 := List.mem_of_find?_eq_some hb
  rw [hb, r.uniq h2 ha (by simpa using h1)]

theorem find_mem {key : Nat → Bytes} {kb : Bytes} {a : Nat} (h : A.find key kb = some a) :
    a ∈ A.all ∧ key a = kb :=
  ⟨List.mem_of_find?_eq_some h, by simpa using List.find?_some h⟩

theorem find_none {key : Nat → Bytes} {kb : Bytes} (h : A.find key kb = none) :
    ∀ a ∈ A.all, key a ≠ kb := by
  intro a ha e
  have := List.find?_eq_none.mp h a ha
  simp [e] at this

theorem Abs.ref_all_perm (A : Abs) {a : Nat} (hn : A.all.Nodup) : (A.ref a).all.Perm A.all := by
  have hn' := List.nodup_append.mp hn
  simp only [Abs.ref, Abs.all]
  split
  · rename_i hi
    refine List.Perm.trans ?_ (List.Perm.append_right _ (List.perm_cons_erase hi).symm)
    rw [← List.append_assoc]
    refine List.perm_append_comm.trans ?_
    simp
  · rename_i hi
    rw [erase_not_mem hi]

theorem Abs.release_all_perm (A : Abs) {a : Nat} : (A.release a).all.Perm A.all := by
  unfold Abs.release
  split
  · exact List.Perm.refl _
  · split
    · rename_i hb
      simp only [Abs.all, List.append_assoc, List.singleton_append]
      exact List.Perm.append_left _ (List.perm_cons_erase hb).symm
    · exact List.Perm.refl _

theorem Lookup_none (r : Rel H s A) {key : Slice} (hk : key.WF)
    (hf : A.find s.heap.key key.bytes = none) : Lookup s key (H key.bytes) = .ok (s, none) := by
  obtain ⟨C, hC⟩ := r.tab
  unfold Lookup
  rw [tableLookup_spec hC r.l.nodes hk, r.lookupIn, hf]
  rfl

theorem Lookup_some (r : Rel H s A) {key : Slice} (hk : key.WF) {a : Nat}
    (hf : A.find s.heap.key key.bytes = some a) (hov : A.held a + 3 ≤ 2 ^ 32) :
    ∃ s', Lookup s key (H key.bytes) = .ok (s', some a) ∧ Rel H s' (A.ref a) ∧
      DFrame s.heap s'.heap ∧ s'.capacity = s.capacity := by
  obtain ⟨C, hC⟩ := r.tab
  obtain ⟨h', e, hl, fr⟩ := r.l.Ref (find_mem hf).1 hov
  have hp := A.ref_all_perm (a := a) r.l.nodup
  refine ⟨{ s with heap := h' }, ?_, ⟨hl, ⟨C, ?_⟩, ?_, ?_⟩, fr.d, rfl⟩
  · unfold Lookup
    rw [tableLookup_spec hC r.l.nodes hk, r.lookupIn, hf]
    simp only [bind, Except.bind]
    rw [e]
    rfl
  · exact (hC.congr fr.nextHash fr.hash fr.key).permE hp
  · show s.usage = UInt64.ofNat (csum h'.charge _)
    rw [fr.charge, csum_perm hp]; exact r.usage
  · show ∀ a, a < h'.fresh → h'.hash a = H (h'.key a)
    rw [fr.fresh, fr.hash, fr.key]; exact r.hash

theorem Release_spec (r : Rel H s A) {a : Nat} (ha : 0 < A.held a) :
    ∃ s', Release s a = .ok s' ∧ Rel H s' (A.release a) ∧ DFrame s.heap s'.heap ∧
      s'.capacity = s.capacity := by
  obtain ⟨C, hC⟩ := r.tab
  obtain ⟨h', log', e, hl, fr⟩ := r.l.Unref ha
  have hp := A.release_all_perm (a := a)
  refine ⟨{ s with heap := h', log := log' }, ?_, ⟨hl, ⟨C, ?_⟩, ?_, ?_⟩, fr.d, rfl⟩
  · unfold Release
    rw [e]
    rfl
  · exact (hC.congr fr.nextHash fr.hash fr.key).permE hp
  · show s.usage = UInt64.ofNat (csum h'.charge _)
    rw [fr.charge, csum_perm hp]; exact r.usage
  · show ∀ a, a < h'.fresh → h'.hash a = H (h'.key a)
    rw [fr.fresh, fr.hash, fr.key]; exact r.hash

/-- Changing only `next_hash` fields does not concern the lists. -/
theorem LRel.nextHash {h : Heap} {log : List Deletion} (l : LRel h log A) (nh : Nat → Option Nat) :
    LRel { h with nextHash := nh } log A :=
  ⟨l.dl_lru, l.dl_use, l.nodup, l.lt, l.idle0, l.busy0, l.heldlt, l.live, l.refs, l.inC, l.nself,
    l.log, l.dead, l.deadnd⟩

theorem Abs.uncache_all (A : Abs) (a : Nat) (hn : A.all.Nodup) :
    (A.uncache a).all = A.all.erase a := (A.all_erase a hn).symm

theorem usage_sub {charge : Nat → UInt64} {L : List Nat} {a : Nat} (ha : a ∈ L) :
    UInt64.ofNat (csum charge L) - charge a = UInt64.ofNat (csum charge (L.erase a)) := by
  rw [csum_perm (List.perm_cons_erase ha), csum_cons, UInt64.ofNat_add, UInt64.ofNat_toNat,
    UInt64.add_comm, UInt64.add_sub_cancel]

/-- `FinishErase` after the entry has left the table. -/
theorem FinishErase_spec {s : Shard} {A : Abs} {a : Nat} (l : LRel s.heap s.log A) (ha : a ∈ A.all)
    (tab : ∃ C, TabOK s.heap s.tab C (A.all.erase a))
    (usage : s.usage = UInt64.ofNat (csum s.heap.charge A.all))
    (hash : ∀ a, a < s.heap.fresh → s.heap.hash a = H (s.heap.key a)) :
    ∃ s', FinishErase s (some a) = .ok (s', true) ∧ Rel H s' (A.uncache a) ∧
      DFrame s.heap s'.heap ∧ s'.capacity = s.capacity ∧ s'.tab = s.tab := by
  obtain ⟨C, hC⟩ := tab
  obtain ⟨h', log', e, hl, fr⟩ := finishErase1_spec l ha
  refine ⟨{ s with heap := h', usage := s.usage - s.heap.charge a, log := log' }, ?_,
    ⟨hl, ⟨C, ?_⟩, ?_, ?_⟩, fr.d, rfl, rfl⟩
  · show (finishErase1 s a).bind (fun s => .ok (s, true)) = _
    rw [e]
    rfl
  · rw [A.uncache_all a l.nodup]
    exact hC.congr fr.nextHash fr.hash fr.key
  · show s.usage - s.heap.charge a = UInt64.ofNat (csum h'.charge _)
    rw [fr.charge, A.uncache_all a l.nodup, usage, usage_sub ha]
  · show ∀ a, a < h'.fresh → h'.hash a = H (h'.key a)
    rw [fr.fresh, fr.hash, fr.key]; exact hash

theorem removeKey_none (r : Rel H s A) {key : Slice} (hk : key.WF)
    (hf : A.find s.heap.key key.bytes = none) : removeKey s key (H key.bytes) = .ok (s, false) := by
  obtain ⟨C, hC⟩ := r.tab
  unfold removeKey
  rw [tableRemove_none hC r.l.nodes hk _ (by rw [r.lookupIn, hf])]
  rfl

theorem removeKey_some (r : Rel H s A) {key : Slice} (hk : key.WF) {a : Nat}
    (hf : A.find s.heap.key key.bytes = some a) :
    ∃ s', removeKey s key (H key.bytes) = .ok (s', true) ∧ Rel H s' (A.uncache a) ∧
      DFrame s.heap s'.heap ∧ s'.capacity = s.capacity := by
  obtain ⟨C, hC⟩ := r.tab
  obtain ⟨nh', t', C', e, hC', _⟩ := tableRemove_some hC r.l.nodes hk (H key.bytes) (r := a)
    (by rw [r.lookupIn, hf])
  have ha := (find_mem hf).1
  obtain ⟨s', e2, r', fr, hc, _⟩ := FinishErase_spec (H := H)
    (s := { s with heap := { s.heap with nextHash := nh' }, tab := t' }) (a := a)
    (r.l.nextHash nh') ha ⟨C', hC'⟩
    r.usage r.hash
  refine ⟨s', ?_, r', ⟨fr.fresh, fr.charge, fr.hash, fr.key, fr.value, fr.deleter⟩, hc⟩
  unfold removeKey
  rw [e]
  simp only [bind, Except.bind]
  rw [e2]

theorem Erase_spec (r : Rel H s A) {key : Slice} (hk : key.WF) :
    ∃ s', Erase s key (H key.bytes) = .ok s' ∧
      Rel H s' (match A.find s.heap.key key.bytes with | none => A | some a => A.uncache a) ∧
      DFrame s.heap s'.heap ∧ s'.capacity = s.capacity := by
  cases hf : A.find s.heap.key key.bytes with
  | none =>
    refine ⟨s, ?_, r, DFrame.refl _, rfl⟩
    unfold Erase
    rw [removeKey_none r hk hf]
    rfl
  | some a =>
    obtain ⟨s', e, r', fr, hc⟩ := removeKey_some r hk hf
    refine ⟨s', ?_, r', fr, hc⟩
    unfold Erase
    rw [e]
    rfl

/-- Removing the oldest idle entry. -/
theorem evictOne_spec (r : Rel H s A) {a : Nat} {rest : List Nat} (hi : A.idle = a :: rest) :
    ∃ s', evictOne s a = .ok s' ∧ Rel H s' { A with idle := rest, dead := A.dead ++ [a] } ∧
      DFrame s.heap s'.heap ∧ s'.capacity = s.capacity := by
  have hidle : a ∈ A.idle := by rw [hi]; simp
  have ha : a ∈ A.all := List.mem_append.mpr (Or.inl hidle)
  have hn := List.nodup_append.mp r.l.nodup
  have hla := r.l.live_all ha
  have h0 := r.l.idle0 a hidle
  have hrefs := r.l.refs a hla
  rw [if_pos ha, h0] at hrefs
  have hone : s.heap.refs a = 1 := u32_eq_one.mpr hrefs
  have hhash : s.heap.hash a = H (Slice.ofBytes (s.heap.key a)).bytes := by
    rw [ofBytes_bytes]; exact r.hash a (r.l.lt a ha)
  obtain ⟨s', e, r', fr, hc⟩ := removeKey_some r (ofBytes_WF (s.heap.key a)) (a := a)
    (by rw [ofBytes_bytes]; exact r.find_eq ha)
  refine ⟨s', ?_, ?_, fr, hc⟩
  · unfold evictOne
    simp only [derefNode, hla, if_true, bind, Except.bind, cassert, hone, decide_true]
    rw [keyOf_ok hla (r.l.nself a hla)]
    simp only []
    rw [hhash, e]
    rfl
  · have : A.uncache a = { A with idle := rest, dead := A.dead ++ [a] } := by
      unfold Abs.uncache
      rw [if_pos h0, erase_not_mem (L := A.busy) (fun hb => hn.2.2 a hidle a hb rfl), hi]
      simp
    rw [this] at r'
    exact r'

theorem Rel.next_lru (r : Rel H s A) : s.heap.next .lru = some ((A.idle.map Ptr.node).headD .lru) :=
  r.l.dl_lru.next_head

theorem evictLoop_spec : ∀ (idle : List Nat) (fuel : Nat) (s : Shard) (A : Abs), A.idle = idle →
    idle.length ≤ fuel → Rel H s A →
    ∃ s' ev rest, evictLoop fuel s = .ok s' ∧ idle = ev ++ rest ∧
      Rel H s' { A with idle := rest, dead := A.dead ++ ev } ∧ DFrame s.heap s'.heap ∧
      s'.capacity = s.capacity ∧ (rest ≠ [] → ¬ s'.usage > s.capacity) ∧
      (∀ p x q, ev = p ++ x :: q →
        UInt64.ofNat (csum s.heap.charge (x :: q ++ rest ++ A.busy)) > s.capacity)
  | [], fuel, s, A, hi, _, r => by
    refine ⟨s, [], [], ?_, rfl, ?_, DFrame.refl _, rfl, fun h => absurd rfl h, ?_⟩
    · have := r.next_lru
      rw [hi] at this
      unfold evictLoop
      rw [if_neg (by rw [this]; simp)]
    · rw [List.append_nil]; rw [← hi]; exact r
    · intro p x q e; simp at e
  | a :: L, fuel, s, A, hi, hf, r => by
    have hnx := r.next_lru
    rw [hi] at hnx
    simp only [List.map_cons, List.headD_cons] at hnx
    by_cases hu : s.usage > s.capacity
    · obtain ⟨s1, e1, r1, fr1, hc1⟩ := evictOne_spec r hi
      cases fuel with
      | zero => simp at hf
      | succ fuel =>
        obtain ⟨s', ev, rest, e2, hsp, r2, fr2, hc2, hstop, hover⟩ := evictLoop_spec L fuel s1
          { A with idle := L, dead := A.dead ++ [a] } rfl (by simpa using hf) r1
        refine ⟨s', a :: ev, rest, ?_, by rw [hsp]; rfl, ?_, fr1.trans fr2, hc2.trans hc1, ?_, ?_⟩
        · have hd : deref s.heap (some (.node a)) = .ok (.node a) := by
            have := r.l.live_all (a := a) (List.mem_append.mpr (Or.inl (by rw [hi]; simp)))
            simp [deref, this]
          rw [evictLoop.eq_def]
          simp only []
          rw [if_pos ⟨hu, by rw [hnx]; simp⟩]
          simp only [hnx]
          rw [hd]
          simp only [bind, Except.bind]
          rw [e1]
          simp only []
          exact e2
        · have : A.dead ++ a :: ev = A.dead ++ [a] ++ ev := by simp
          rw [this]; exact r2
        · intro h; rw [← hc1]; exact hstop h
        · intro p x q hpq
          cases p with
          | nil =>
            simp only [List.nil_append, List.cons.injEq] at hpq
            obtain ⟨rfl, rfl⟩ := hpq
            have : a :: ev ++ rest ++ A.busy = A.all := by
              simp [Abs.all, hi, hsp]
            rw [this, ← r.usage]; exact hu
          | cons y p =>
            simp only [List.cons_append, List.cons.injEq] at hpq
            have := hover p x q hpq.2
            rw [hc1, fr1.charge] at this
            exact this
    · refine ⟨s, [], a :: L, ?_, rfl, ?_, DFrame.refl _, rfl, fun _ => hu, ?_⟩
      · rw [evictLoop.eq_def]
        simp only []
        rw [if_neg (fun h => hu h.1)]
      · rw [List.append_nil, ← hi]; exact r
      · intro p x q e; simp at e

theorem pruneLoop_spec : ∀ (idle : List Nat) (fuel : Nat) (s : Shard) (A : Abs), A.idle = idle →
    idle.length ≤ fuel → Rel H s A →
    ∃ s', pruneLoop fuel s = .ok s' ∧ Rel H s' { A with idle := [], dead := A.dead ++ idle } ∧
      DFrame s.heap s'.heap ∧ s'.capacity = s.capacity
  | [], fuel, s, A, hi, _, r => by
    refine ⟨s, ?_, ?_, DFrame.refl _, rfl⟩
    · have := r.next_lru
      rw [hi] at this
      unfold pruneLoop
      rw [if_neg (by rw [this]; simp)]
    · rw [List.append_nil]; rw [← hi]; exact r
  | a :: L, fuel, s, A, hi, hf, r => by
    have hnx := r.next_lru
    rw [hi] at hnx
    simp only [List.map_cons, List.headD_cons] at hnx
    obtain ⟨s1, e1, r1, fr1, hc1⟩ := evictOne_spec r hi
    cases fuel with
    | zero => simp at hf
    | succ fuel =>
      obtain ⟨s', e2, r2, fr2, hc2⟩ := pruneLoop_spec L fuel s1
        { A with idle := L, dead := A.dead ++ [a] } rfl (by simpa using hf) r1
      refine ⟨s', ?_, ?_, fr1.trans fr2, hc2.trans hc1⟩
      · have hd : deref s.heap (some (.node a)) = .ok (.node a) := by
          have := r.l.live_all (a := a) (List.mem_append.mpr (Or.inl (by rw [hi]; simp)))
          simp [deref, this]
        rw [pruneLoop.eq_def]
        simp only []
        rw [if_pos (by rw [hnx]; simp)]
        simp only [hnx]
        rw [hd]
        simp only [bind, Except.bind]
        rw [e1]
        simp only []
        exact e2
      · have : A.dead ++ a :: L = A.dead ++ [a] ++ L := by simp
        rw [this]; exact r2

theorem idle_length (r : Rel H s A) : A.idle.length ≤ s.heap.fresh :=
  nodup_bounded_length _ _ (List.nodup_append.mp r.l.nodup).1
    (fun a ha => r.l.lt a (List.mem_append.mpr (Or.inl ha)))

theorem Prune_spec (r : Rel H s A) :
    ∃ s', Prune s = .ok s' ∧ Rel H s' { A with idle := [], dead := A.dead ++ A.idle } ∧
      DFrame s.heap s'.heap ∧ s'.capacity = s.capacity :=
  pruneLoop_spec A.idle s.heap.fresh s A rfl (idle_length r) r

/-! ## Insert -/

/-- The heap after `new LRUHandle` and the assignments. -/
theorem newHandle_LRel {h : Heap} {log : List Deletion} (l : LRel h log A) (kb : Bytes) (hash : UInt32)
    (v : Nat) (c : UInt64) (d : Nat) :
    LRel (newHandle h kb hash v c d).1 log { A with held := upd A.held h.fresh 1 } := by
  have hne : ∀ a ∈ A.all, a ≠ h.fresh := fun a ha e => by
    have := l.lt a ha
    exact absurd this (by rw [e]; exact Nat.lt_irrefl _)
  have hnm : h.fresh ∉ A.all := fun hh => hne _ hh rfl
  have hdead : ∀ a ∈ A.dead, a ≠ h.fresh := fun a ha e => by
    have := ((l.dead a).mp ha).1
    exact absurd this (by rw [e]; exact Nat.lt_irrefl _)
  have hin : ∀ a, a ∈ A.idle → a ∈ A.all := fun a ha => List.mem_append.mpr (Or.inl ha)
  have hbn : ∀ a, a ∈ A.busy → a ∈ A.all := fun a ha => List.mem_append.mpr (Or.inr ha)
  have hnode : ∀ (L : List Nat) (p : Ptr), isHead p → (∀ a ∈ L, a ∈ A.all) →
      ∀ x, x = p ∨ x ∈ L.map Ptr.node → x ≠ .node h.fresh := by
    intro L p hp hL x hx e
    subst e
    rcases hx with hx | hx
    · exact hp _ hx.symm
    · exact hnm (hL _ (mem_map_node.mp hx))
  have hlive : ∀ b, upd h.live h.fresh true b = true → b ≠ h.fresh → h.live b = true := by
    intro b hb hne
    rwa [upd_other _ _ hne] at hb
  refine ⟨?_, ?_, l.nodup, ?_, ?_, ?_, ?_, ?_, ?_, ?_, ?_, ?_, ?_, l.deadnd⟩
  · exact l.dl_lru.congr (fun x hx => upd_other _ _ (hnode _ _ isHead_lru hin x hx))
      (fun x hx => upd_other _ _ (hnode _ _ isHead_lru hin x hx))
  · exact l.dl_use.congr (fun x hx => upd_other _ _ (hnode _ _ isHead_inUse hbn x hx))
      (fun x hx => upd_other _ _ (hnode _ _ isHead_inUse hbn x hx))
  · intro a ha
    have := l.lt a ha
    exact Nat.lt_succ_of_lt this
  · intro a ha
    exact (upd_other _ _ (hne a (hin a ha))).trans (l.idle0 a ha)
  · intro a ha
    have : upd A.held h.fresh 1 a = A.held a := upd_other _ _ (hne a (hbn a ha))
    show 0 < upd A.held h.fresh 1 a
    rw [this]; exact l.busy0 a ha
  · intro a ha
    have ha' : h.fresh + 1 ≤ a := ha
    exact (upd_other _ _ (by omega)).trans (l.heldlt a (by omega))
  · intro a
    show upd h.live h.fresh true a = true ↔ a < h.fresh + 1 ∧ (0 < upd A.held h.fresh 1 a ∨ a ∈ A.all)
    by_cases e : a = h.fresh
    · subst e; simp [upd_same]
    · rw [upd_other _ _ e, upd_other _ _ e, l.live a]
      constructor
      · rintro ⟨h1, h2⟩; exact ⟨by omega, h2⟩
      · rintro ⟨h1, h2⟩; exact ⟨by omega, h2⟩
  · intro a ha
    show (upd h.refs h.fresh 1 a).toNat = upd A.held h.fresh 1 a + if a ∈ A.all then 1 else 0
    by_cases e : a = h.fresh
    · subst e; simp [upd_same, hnm]
    · rw [upd_other _ _ e, upd_other _ _ e]; exact l.refs a (hlive a ha e)
  · intro a ha
    show upd h.inCache h.fresh false a = decide (a ∈ A.all)
    by_cases e : a = h.fresh
    · subst e; simp [upd_same, hnm]
    · rw [upd_other _ _ e]; exact l.inC a (hlive a ha e)
  · intro a ha
    show upd h.next (.node h.fresh) none (.node a) ≠ _
    by_cases e : a = h.fresh
    · subst e; simp [upd_same]
    · rw [upd_other _ _ (fun e2 => e (Ptr.node.inj e2))]; exact l.nself a (hlive a ha e)
  · rw [l.log]
    refine List.map_congr_left (fun a ha => ?_)
    have := hdead a ha
    show _ = Deletion.mk a (upd h.deleter h.fresh d a) (upd h.key h.fresh kb a) (upd h.value h.fresh v a)
    rw [upd_other _ _ this, upd_other _ _ this, upd_other _ _ this]
    rfl
  · intro a
    show a ∈ A.dead ↔ a < h.fresh + 1 ∧ upd A.held h.fresh 1 a = 0 ∧ a ∉ A.all
    by_cases e : a = h.fresh
    · subst e
      rw [upd_same]
      constructor
      · intro hh; exact absurd rfl (hdead _ hh)
      · rintro ⟨_, h2, _⟩; omega
    · rw [upd_other _ _ e, l.dead a]
      constructor
      · rintro ⟨h1, h2⟩; exact ⟨by omega, h2⟩
      · rintro ⟨h1, h2⟩; exact ⟨by omega, h2⟩

/-- The abstract state after a new entry `a` with key `kb` has entered the cache. -/
def Abs.add (A : Abs) (key : Nat → Bytes) (kb : Bytes) (a : Nat) : Abs :=
  match A.find key kb with
  | none => { A with busy := A.busy ++ [a], held := upd A.held a 1 }
  | some o => ({ A with busy := A.busy ++ [a], held := upd A.held a 1 } : Abs).uncache o

theorem TabOK_newHandle {h : Heap} {t : HTable} {C : List (List Nat)} {E : List Nat}
    (ok : TabOK h t C E) (hE : ∀ a ∈ E, a < h.fresh) (kb : Bytes) (hash : UInt32)
    (v : Nat) (c : UInt64) (d : Nat) : TabOK (newHandle h kb hash v c d).1 t C E := by
  have hne : ∀ a ∈ E, a ≠ h.fresh := fun a ha e => by
    have := hE a ha
    exact absurd this (by rw [e]; exact Nat.lt_irrefl _)
  have hneC : ∀ a ∈ C.flatten, a ≠ h.fresh := fun a ha => hne a (ok.perm.mem_iff.mpr ha)
  refine ⟨ok.pow, ok.tlen, ok.chains.congr (fun x hx => upd_other _ _ (hneC x hx)), ?_, ok.perm, ok.nodup,
    ok.elems, ?_⟩
  · intro i L hi a ha
    have : a ≠ h.fresh := hneC a (List.mem_flatten.mpr ⟨L, List.mem_of_getElem? hi, ha⟩)
    show bucketOf (upd h.hash h.fresh hash a) t.length = i
    rw [upd_other _ _ this]
    exact ok.bucket i L hi a ha
  · intro a ha b hb
    show upd h.hash h.fresh hash a = upd h.hash h.fresh hash b →
      upd h.key h.fresh kb a = upd h.key h.fresh kb b → a = b
    rw [upd_other _ _ (hne a ha), upd_other _ _ (hne b hb), upd_other _ _ (hne a ha),
      upd_other _ _ (hne b hb)]
    exact ok.uniq a ha b hb

/-- `h'` is `h` plus the data of one new handle. -/
structure NewData (h h' : Heap) (kb : Bytes) (v : Nat) (c : UInt64) (d : Nat) : Prop where
  fresh : h'.fresh = h.fresh + 1
  charge : h'.charge = upd h.charge h.fresh c
  key : h'.key = upd h.key h.fresh kb
  value : h'.value = upd h.value h.fresh v
  deleter : h'.deleter = upd h.deleter h.fresh d

/-- What `Insert` has done when it comes to the table: the new handle is in the in-use list. -/
theorem insertLink_spec (r : Rel H s A) {kb : Bytes} {v : Nat} {c : UInt64} {d : Nat} {h1 : Heap}
    (hh1 : (newHandle s.heap kb (H kb) v c d).1 = h1) :
    ∃ C nx2 pv2, LRU_Append { h1 with
          refs := upd h1.refs s.heap.fresh (h1.refs s.heap.fresh + 1)
          inCache := upd h1.inCache s.heap.fresh true } .inUse (.node s.heap.fresh) = .ok { h1 with
          refs := upd h1.refs s.heap.fresh (h1.refs s.heap.fresh + 1)
          inCache := upd h1.inCache s.heap.fresh true
          next := nx2
          prev := pv2 } ∧
      LRel { h1 with
          refs := upd h1.refs s.heap.fresh (h1.refs s.heap.fresh + 1)
          inCache := upd h1.inCache s.heap.fresh true
          next := nx2
          prev := pv2 } s.log
        { A with busy := A.busy ++ [s.heap.fresh], held := upd A.held s.heap.fresh 1 } ∧
      TabOK h1 s.tab C A.all ∧ h1.live s.heap.fresh = true ∧
      nx2 (.node s.heap.fresh) ≠ some (.node s.heap.fresh) := by
  obtain ⟨C, hC⟩ := r.tab
  have hne : ∀ a ∈ A.all, a ≠ s.heap.fresh := fun a ha e => by
    have := r.l.lt a ha
    exact absurd this (by rw [e]; exact Nat.lt_irrefl _)
  have hnm : s.heap.fresh ∉ A.all := fun hh => hne _ hh rfl
  have l1 := newHandle_LRel r.l kb (H kb) v c d
  have t1 := TabOK_newHandle hC r.l.lt kb (H kb) v c d
  rw [hh1] at l1 t1
  have hfresh : h1.fresh = s.heap.fresh + 1 := by rw [← hh1]; rfl
  have hkey : h1.key = upd s.heap.key s.heap.fresh kb := by rw [← hh1]; rfl
  have hhash : h1.hash = upd s.heap.hash s.heap.fresh (H kb) := by rw [← hh1]; rfl
  have hcharge : h1.charge = upd s.heap.charge s.heap.fresh c := by rw [← hh1]; rfl
  have hvalue : h1.value = upd s.heap.value s.heap.fresh v := by rw [← hh1]; rfl
  have hdel : h1.deleter = upd s.heap.deleter s.heap.fresh d := by rw [← hh1]; rfl
  have hrefs1 : h1.refs s.heap.fresh = 1 := by rw [← hh1]; exact upd_same _ _ _
  have hlive1 : h1.live s.heap.fresh = true := by rw [← hh1]; exact upd_same _ _ _
  have hself1 : h1.next (.node s.heap.fresh) ≠ some (.node s.heap.fresh) := by
    rw [← hh1]; show upd _ _ _ _ ≠ _; rw [upd_same]; simp
  -- link into the in-use list
  obtain ⟨nx2, pv2, e2, d1, d2, s2⟩ := link_use
    (h := { h1 with refs := upd h1.refs s.heap.fresh (h1.refs s.heap.fresh + 1),
                    inCache := upd h1.inCache s.heap.fresh true }) (a := s.heap.fresh)
    l1.dl_lru l1.dl_use l1.nodup hnm (fun b hb => l1.live_all hb) hlive1
  have hmemA2 : ∀ b, b ∈ A.idle ++ (A.busy ++ [s.heap.fresh]) ↔ b ∈ A.all ∨ b = s.heap.fresh := by
    intro b; simp only [Abs.all, List.mem_append, List.mem_singleton]
    exact or_assoc.symm
  have l2 : LRel { h1 with
          refs := upd h1.refs s.heap.fresh (h1.refs s.heap.fresh + 1)
          inCache := upd h1.inCache s.heap.fresh true
          next := nx2
          prev := pv2 } s.log
      { A with busy := A.busy ++ [s.heap.fresh], held := upd A.held s.heap.fresh 1 } := by
    have hper : (A.idle ++ (A.busy ++ [s.heap.fresh])).Perm (s.heap.fresh :: A.all) := by
      rw [← List.append_assoc]
      exact List.perm_append_comm
    refine ⟨d1, d2, hper.nodup_iff.mpr (List.nodup_cons.mpr ⟨hnm, r.l.nodup⟩), ?_, l1.idle0, ?_,
      l1.heldlt, ?_, ?_, ?_, ?_, l1.log, ?_, l1.deadnd⟩
    · intro b hb
      show b < h1.fresh
      rw [hfresh]
      rcases (hmemA2 b).mp hb with hb | hb
      · have := r.l.lt b hb; omega
      · omega
    · intro b hb
      show 0 < upd A.held s.heap.fresh 1 b
      rcases List.mem_append.mp hb with hb | hb
      · exact l1.busy0 b hb
      · rw [List.mem_singleton] at hb; subst hb; rw [upd_same]; omega
    · intro b
      show h1.live b = true ↔ b < h1.fresh ∧ (0 < upd A.held s.heap.fresh 1 b ∨ b ∈ A.idle ++ (A.busy ++ [s.heap.fresh]))
      rw [hmemA2, l1.live b]
      show _ ∧ (0 < upd A.held s.heap.fresh 1 b ∨ b ∈ A.all) ↔ _
      by_cases e : b = s.heap.fresh
      · subst e; rw [upd_same]; simp
      · simp [e]
    · intro b hb
      show (upd h1.refs s.heap.fresh (h1.refs s.heap.fresh + 1) b).toNat = upd A.held s.heap.fresh 1 b +
        if b ∈ A.idle ++ (A.busy ++ [s.heap.fresh]) then 1 else 0
      simp only [hmemA2]
      by_cases e : b = s.heap.fresh
      · subst e
        rw [upd_same, upd_same, hrefs1]; simp
      · rw [upd_other _ _ e]
        have h5 : (h1.refs b).toNat = upd A.held s.heap.fresh 1 b + if b ∈ A.all then 1 else 0 := l1.refs b hb
        rw [h5]; simp [e]
    · intro b hb
      show upd h1.inCache s.heap.fresh true b = decide (b ∈ A.idle ++ (A.busy ++ [s.heap.fresh]))
      simp only [hmemA2]
      by_cases e : b = s.heap.fresh
      · subst e; rw [upd_same]; simp
      · rw [upd_other _ _ e]
        have h5 : h1.inCache b = decide (b ∈ A.all) := l1.inC b hb
        rw [h5]; simp [e]
    · intro b hb
      exact s2 b (fun _ => l1.nself b hb)
    · intro b
      show b ∈ A.dead ↔ b < h1.fresh ∧ upd A.held s.heap.fresh 1 b = 0 ∧ b ∉ A.idle ++ (A.busy ++ [s.heap.fresh])
      rw [hmemA2, l1.dead b]
      show _ ∧ upd A.held s.heap.fresh 1 b = 0 ∧ b ∉ A.all ↔ _
      by_cases e : b = s.heap.fresh
      · subst e; rw [upd_same]; simp
      · simp [e]
  have hself2 : nx2 (.node s.heap.fresh) ≠ some (.node s.heap.fresh) := s2 _ (fun _ => hself1)
  exact ⟨C, nx2, pv2, e2, l2, t1, hlive1, hself2⟩

theorem insertCached_spec (r : Rel H s A) (kb : Bytes) (v : Nat) (c : UInt64) (d : Nat)
    (hsize : A.all.length < 2 ^ 31) :
    ∃ s', insertCached { s with heap := (newHandle s.heap kb (H kb) v c d).1 } s.heap.fresh = .ok s' ∧
      Rel H s' (A.add s.heap.key kb s.heap.fresh) ∧ NewData s.heap s'.heap kb v c d ∧
      s'.capacity = s.capacity := by
  have hne : ∀ a ∈ A.all, a ≠ s.heap.fresh := fun a ha e => by
    have := r.l.lt a ha
    exact absurd this (by rw [e]; exact Nat.lt_irrefl _)
  have hnm : s.heap.fresh ∉ A.all := fun hh => hne _ hh rfl
  generalize hh1 : (newHandle s.heap kb (H kb) v c d).1 = h1
  obtain ⟨C, nx2, pv2, e2, l2, t1, hlive1, hself2⟩ := insertLink_spec r hh1
  have hfresh : h1.fresh = s.heap.fresh + 1 := by rw [← hh1]; rfl
  have hkey : h1.key = upd s.heap.key s.heap.fresh kb := by rw [← hh1]; rfl
  have hhash : h1.hash = upd s.heap.hash s.heap.fresh (H kb) := by rw [← hh1]; rfl
  have hcharge : h1.charge = upd s.heap.charge s.heap.fresh c := by rw [← hh1]; rfl
  have hvalue : h1.value = upd s.heap.value s.heap.fresh v := by rw [← hh1]; rfl
  have hdel : h1.deleter = upd s.heap.deleter s.heap.fresh d := by rw [← hh1]; rfl
  clear hh1
  have hmemA2 : ∀ b, b ∈ A.idle ++ (A.busy ++ [s.heap.fresh]) ↔ b ∈ A.all ∨ b = s.heap.fresh := by
    intro b; simp only [Abs.all, List.mem_append, List.mem_singleton]
    exact or_assoc.symm
  -- into the table
  obtain ⟨nh3, t3, C3, e3, hC3, _⟩ := tableInsert_spec
    (h := { h1 with refs := upd h1.refs s.heap.fresh (h1.refs s.heap.fresh + 1),
                    inCache := upd h1.inCache s.heap.fresh true, next := nx2, prev := pv2 })
    (t := s.tab) (E := A.all) (C := C) (a := s.heap.fresh) (t1.congr rfl rfl rfl)
    (fun a ha => by
      have := l2.nodes a ((hmemA2 a).mpr (Or.inl ha))
      exact this) hnm hlive1 hself2 (by show _ < h1.fresh; rw [hfresh]; omega) hsize
  have hk' : h1.key s.heap.fresh = kb := by rw [hkey]; exact upd_same _ _ _
  have hh' : h1.hash s.heap.fresh = H kb := by rw [hhash]; exact upd_same _ _ _
  have hlook : lookupIn { h1 with
          refs := upd h1.refs s.heap.fresh (h1.refs s.heap.fresh + 1)
          inCache := upd h1.inCache s.heap.fresh true
          next := nx2
          prev := pv2 } A.all kb (H kb) =
      A.find s.heap.key kb := by
    rw [← r.lookupIn]
    refine find?_congr' (fun a ha => ?_)
    show decide (h1.hash a = H kb ∧ h1.key a = kb) = decide _
    rw [hhash, hkey, upd_other _ _ (hne a ha), upd_other _ _ (hne a ha)]
  have hhash3 : ∀ a, a < h1.fresh → h1.hash a = H (h1.key a) := by
    intro a ha
    rw [hfresh] at ha
    rw [hhash, hkey]
    by_cases e : a = s.heap.fresh
    · subst e; rw [upd_same, upd_same]
    · rw [upd_other _ _ e, upd_other _ _ e]; exact r.hash a (by omega)
  have husage : s.usage + c = UInt64.ofNat (csum h1.charge (A.idle ++ (A.busy ++ [s.heap.fresh]))) := by
    have hper : (A.idle ++ (A.busy ++ [s.heap.fresh])).Perm (s.heap.fresh :: A.all) := by
      rw [← List.append_assoc]
      exact List.perm_append_comm
    rw [csum_perm hper, csum_cons, hcharge, upd_same,
      csum_congr (c := s.heap.charge) (L := A.all) (fun a ha => upd_other _ _ (hne a ha)),
      UInt64.ofNat_add, UInt64.ofNat_toNat, r.usage, UInt64.add_comm]
  dsimp only at e3 hC3
  rw [hk', hh', hlook] at e3 hC3
  have hch2 : h1.charge s.heap.fresh = c := by rw [hcharge]; exact upd_same _ _ _
  have hstart : ∀ (res : M (Shard × Bool)),
      FinishErase { s with
          heap := { h1 with
            refs := upd h1.refs s.heap.fresh (h1.refs s.heap.fresh + 1)
            inCache := upd h1.inCache s.heap.fresh true
            next := nx2
            prev := pv2
            nextHash := nh3 }
          usage := s.usage + c
          tab := t3 } (A.find s.heap.key kb) = res →
      insertCached { s with heap := h1 } s.heap.fresh = res.bind (fun q => .ok q.1) := by
    intro res hres
    unfold insertCached
    simp only [bind, Except.bind]
    rw [e2]
    simp only [hch2]
    rw [e3]
    simp only []
    rw [hres]
    cases res <;> rfl
  cases hf : A.find s.heap.key kb with
  | none =>
    rw [hf] at hC3 hstart
    refine ⟨_, hstart _ rfl, ⟨?_, ⟨C3, ?_⟩, ?_, ?_⟩, ⟨?_, ?_, ?_, ?_, ?_⟩, rfl⟩
    · simp only [Abs.add, hf]
      exact l2.nextHash nh3
    · simp only [Abs.add, hf]
      refine hC3.permE ?_
      show (A.idle ++ (A.busy ++ [s.heap.fresh])).Perm (s.heap.fresh :: A.all)
      rw [← List.append_assoc]
      exact List.perm_append_comm
    · simp only [Abs.add, hf]
      exact husage
    · exact hhash3
    · exact hfresh
    · exact hcharge
    · exact hkey
    · exact hvalue
    · exact hdel
  | some o =>
    rw [hf] at hC3 hstart
    have ho := (find_mem hf).1
    have hoF : o ≠ s.heap.fresh := hne o ho
    have ho2 : o ∈ A.idle ++ (A.busy ++ [s.heap.fresh]) := (hmemA2 o).mpr (Or.inl ho)
    have hper : (A.idle ++ (A.busy ++ [s.heap.fresh])).Perm (s.heap.fresh :: A.all) := by
      rw [← List.append_assoc]
      exact List.perm_append_comm
    have hper2 : ((A.idle ++ (A.busy ++ [s.heap.fresh])).erase o).Perm (s.heap.fresh :: A.all.erase o) := by
      have := hper.erase o
      rw [List.erase_cons_tail (by simpa using Ne.symm hoF)] at this
      exact this
    obtain ⟨s', e4, r4, fr4, hc4, _⟩ := FinishErase_spec (H := H) (a := o)
      (s := { s with
          heap := { h1 with
            refs := upd h1.refs s.heap.fresh (h1.refs s.heap.fresh + 1)
            inCache := upd h1.inCache s.heap.fresh true
            next := nx2
            prev := pv2
            nextHash := nh3 }
          usage := s.usage + c
          tab := t3 })
      (A := { A with busy := A.busy ++ [s.heap.fresh], held := upd A.held s.heap.fresh 1 })
      (l2.nextHash nh3) ho2 ⟨C3, hC3.permE hper2⟩ husage hhash3
    refine ⟨s', hstart _ e4, ?_, ⟨?_, ?_, ?_, ?_, ?_⟩, hc4⟩
    · simp only [Abs.add, hf]; exact r4
    · rw [fr4.fresh]; exact hfresh
    · rw [fr4.charge]; exact hcharge
    · rw [fr4.key]; exact hkey
    · rw [fr4.value]; exact hvalue
    · rw [fr4.deleter]; exact hdel

/-- Everything about `Insert` into a shard with capacity. -/
theorem Insert_spec (r : Rel H s A) {key : Slice} (hk : key.WF) (v : Nat) (c : UInt64) (d : Nat)
    (hcap : s.capacity > 0) (hsize : A.all.length < 2 ^ 31) :
    ∃ s' ev rest, Insert s key (H key.bytes) v c d = .ok (s', s.heap.fresh) ∧
      (A.add s.heap.key key.bytes s.heap.fresh).idle = ev ++ rest ∧
      Rel H s' { A.add s.heap.key key.bytes s.heap.fresh with
        idle := rest
        dead := (A.add s.heap.key key.bytes s.heap.fresh).dead ++ ev } ∧
      NewData s.heap s'.heap key.bytes v c d ∧ s'.capacity = s.capacity ∧
      (rest ≠ [] → ¬ s'.usage > s.capacity) ∧
      (∀ p x q, ev = p ++ x :: q → UInt64.ofNat (csum (upd s.heap.charge s.heap.fresh c)
        (x :: q ++ rest ++ (A.add s.heap.key key.bytes s.heap.fresh).busy)) > s.capacity) := by
  obtain ⟨s1, e1, r1, n1, hc1⟩ := insertCached_spec r key.bytes v c d hsize
  have hlen := idle_length r1
  obtain ⟨s', ev, rest, e2, hsp, r2, fr2, hc2, hstop, hover⟩ := evictLoop_spec _ s1.heap.fresh s1 _ rfl
    hlen r1
  rw [n1.charge] at hover
  refine ⟨s', ev, rest, ?_, hsp, r2, ⟨?_, ?_, ?_, ?_, ?_⟩, hc2.trans hc1, ?_, ?_⟩
  · have hts : key.toString = .ok key.bytes := by
      unfold Slice.toString
      exact if_pos hk
    unfold Insert
    rw [hts]
    simp only [bind, Except.bind]
    rw [if_pos hcap]
    simp only [newHandle] at e1 ⊢
    rw [e1]
    simp only []
    rw [e2]
    rfl
  · rw [fr2.fresh, n1.fresh]
  · rw [fr2.charge, n1.charge]
  · rw [fr2.key, n1.key]
  · rw [fr2.value, n1.value]
  · rw [fr2.deleter, n1.deleter]
  · intro h; rw [← hc1]; exact hstop h
  · intro p x q h; rw [← hc1]; exact hover p x q h

/-- `Insert` into a shard of capacity 0, which has no cached entries. -/
theorem Insert_zero (r : Rel H s A) {key : Slice} (hk : key.WF) (v : Nat) (c : UInt64) (d : Nat)
    (hcap : s.capacity = 0) (hall : A.all = []) :
    ∃ s', Insert s key (H key.bytes) v c d = .ok (s', s.heap.fresh) ∧
      Rel H s' { A with held := upd A.held s.heap.fresh 1 } ∧
      NewData s.heap s'.heap key.bytes v c d ∧ s'.capacity = s.capacity := by
  obtain ⟨C, hC⟩ := r.tab
  have l1 := newHandle_LRel r.l key.bytes (H key.bytes) v c d
  have t1 := TabOK_newHandle hC r.l.lt key.bytes (H key.bytes) v c d
  have husage : s.usage = 0 := by rw [r.usage, hall]; rfl
  refine ⟨{ s with heap := (newHandle s.heap key.bytes (H key.bytes) v c d).1 }, ?_,
    ⟨l1, ⟨C, t1⟩, ?_, ?_⟩, ⟨rfl, rfl, rfl, rfl, rfl⟩, rfl⟩
  · have hts : key.toString = .ok key.bytes := by
      unfold Slice.toString
      exact if_pos hk
    unfold Insert
    rw [hts]
    simp only [bind, Except.bind]
    rw [if_neg (by rw [hcap]; decide)]
    simp only [pure, Except.pure]
    rw [evictLoop.eq_def]
    simp only []
    rw [if_neg (fun h => absurd h.1 (by rw [hcap, husage]; decide))]
    rfl
  · show s.usage = UInt64.ofNat (csum _ A.all)
    rw [hall]; exact husage
  · intro a ha
    show upd s.heap.hash s.heap.fresh _ a = H (upd s.heap.key s.heap.fresh _ a)
    have ha' : a < s.heap.fresh + 1 := ha
    by_cases e : a = s.heap.fresh
    · subst e; rw [upd_same, upd_same]
    · rw [upd_other _ _ e, upd_other _ _ e]; exact r.hash a (by omega)

/-- A new shard. -/
theorem newShard_spec (cap : UInt64) :
    ∃ s, newShard cap = .ok s ∧ Rel H s ⟨[], [], fun _ => 0, []⟩ ∧ s.capacity = cap ∧
      s.heap.fresh = 0 := by
  obtain ⟨nh', t', C', e, hC, _⟩ := Resize_core (h := emptyHeap) (t := ⟨0, 0, []⟩) (C := [])
    (E := []) trivial (List.Perm.refl _) (by simp) rfl (by simp) (by simp) (by simp)
  refine ⟨⟨cap, 0, { emptyHeap with nextHash := nh' }, t', []⟩, ?_, ⟨?_, ⟨C', hC⟩, rfl, ?_⟩, rfl,
    rfl⟩
  · unfold newShard
    rw [e]
    rfl
  · refine ⟨⟨rfl, rfl, trivial⟩, ⟨rfl, rfl, trivial⟩, by simp [Abs.all], by simp [Abs.all], by simp,
      by simp, by simp, ?_, ?_, ?_, ?_, rfl, ?_, by simp⟩
    · intro a; simp [emptyHeap, Abs.all]
    · intro a ha; simp [emptyHeap] at ha
    · intro a ha; simp [emptyHeap] at ha
    · intro a ha; simp [emptyHeap] at ha
    · intro a; simp [emptyHeap]
  · intro a ha; exact absurd ha (Nat.not_lt_zero a)

end Cache
end Lsmdb
