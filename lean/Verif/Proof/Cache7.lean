import Verif.Proof.Cache6

/-! # The invariant of the sharded cache -/

namespace Lsmdb
namespace Cache
open Spec

theorem shardIndex_lt (x : UInt32) : shardIndex x < 16 := by
  unfold shardIndex
  rw [UInt32.toNat_shiftRight]
  have h1 : x.toNat < 2 ^ 32 := x.toNat_lt
  have h2 : (UInt32.toNat (32 - 4)) % 32 = 28 := rfl
  rw [h2, Nat.shiftRight_eq_div_pow]
  omega

structure GInv (H : Bytes → UInt32) (cap : UInt64) (c : Sharded) (tr : CTrace) : Prop where
  len : c.shards.length = 16
  sh : ∀ i, i < 16 → ∃ s A, c.shards[i]? = some s ∧ Rel H s A ∧ TRel H (perShard cap) i s A tr
  far : ∀ h : Handle, 16 ≤ h.shard → obtained tr h = 0 ∧ released tr h = 0 ∧ inserted tr h = none
  curkey : ∀ kb h, current tr kb = some h → ∃ info, inserted tr h = some info ∧ info.key = kb

variable {H : Bytes → UInt32} {cap : UInt64} {c : Sharded} {tr : CTrace}

theorem GInv.init (h : newSharded cap = .ok c) : GInv H cap c [] := by
  obtain ⟨s, e, r, hc, hfr⟩ := newShard_spec (H := H) (perShard cap)
  unfold newSharded at h
  rw [e] at h
  injection h with h
  subst h
  refine ⟨by simp [kNumShards], ?_, fun _ _ => ⟨rfl, rfl, rfl⟩, fun _ _ h => by cases h⟩
  intro i hi
  refine ⟨s, _, ?_, r, ?_⟩
  · show (List.replicate kNumShards s)[i]? = some s
    rw [List.getElem?_replicate]
    exact if_pos hi
  · refine ⟨hc, ?_, ?_, ?_, ?_, ?_, List.Pairwise.nil, fun _ => rfl⟩
    · intro a ha; omega
    · intro a _; rfl
    · intro a; rfl
    · intro a ha; cases ha
    · intro a ha; omega

theorem init_ok (cap : UInt64) : ∃ c, newSharded cap = .ok c := by
  obtain ⟨s, e, -⟩ := newShard_spec (H := fun _ => 0) (perShard cap)
  exact ⟨_, by unfold newSharded; rw [e]; rfl⟩

theorem GInv.local (g : GInv H cap c tr) {j : Nat} (hj : j < 16) {e : CEvent} {s' : Shard} {A' : Abs}
    (r' : Rel H s' A') (t' : TRel H (perShard cap) j s' A' (e :: tr))
    (hfor : ∀ i, i ≠ j → Foreign H i e)
    (hnew : ∀ k v ch d, e.op = .insert k v ch d → ∃ h, e.result = some h ∧ inserted tr h = none) :
    GInv H cap (setShard c j s') (e :: tr) := by
  refine ⟨by simp [setShard, g.len], ?_, ?_, ?_⟩
  · intro i hi
    by_cases eij : i = j
    · subst eij
      refine ⟨s', A', ?_, r', t'⟩
      simp [setShard, g.len, hi]
    · obtain ⟨s, A, hs, r, t⟩ := g.sh i hi
      refine ⟨s, A, ?_, r, t.foreign r.l.lt (hfor i eij)⟩
      simp only [setShard]
      rw [List.getElem?_set_ne (fun h => eij h.symm)]; exact hs
  · intro h hh
    obtain ⟨op, r⟩ := e
    obtain ⟨hr, ho⟩ := hfor h.shard (by omega)
    obtain ⟨g1, g2, g3⟩ := g.far h hh
    have hr' : r ≠ some h := fun e => hr h e rfl
    refine ⟨?_, ?_, ?_⟩
    · cases op <;> simp [obtained, g1, hr']
    · cases op <;> try exact g2
      rename_i h'
      have : h' ≠ h := fun e => ho (by rw [e])
      simp [released, g2, this]
    · cases op <;> try exact g3
      simp [inserted, hr', g3]
  · intro kb h hcur
    obtain ⟨op, r⟩ := e
    cases op with
    | insert k v ch d =>
      obtain ⟨h0, hr, hi⟩ := hnew k v ch d rfl
      have hr : r = some h0 := hr
      subst hr
      by_cases ek : k.bytes = kb
      · simp only [current, if_pos ek] at hcur
        injection hcur with hcur
        subst hcur
        exact ⟨⟨k.bytes, v, ch, d⟩, by simp [inserted], ek⟩
      · simp only [current, if_neg ek] at hcur
        obtain ⟨info, h1, h2⟩ := g.curkey kb h hcur
        refine ⟨info, ?_, h2⟩
        have : ¬ h0 = h := fun e => by rw [e, h1] at hi; cases hi
        simp [inserted, this, h1]
    | erase k =>
      by_cases ek : k.bytes = kb
      · simp [current, ek] at hcur
      · simp only [current, if_neg ek] at hcur
        exact g.curkey kb h hcur
    | lookup k => exact g.curkey kb h hcur
    | release h' => exact g.curkey kb h hcur
    | pruneShard i => exact g.curkey kb h hcur

theorem getShard_ok (g : GInv H cap c tr) {j : Nat} (hj : j < 16) :
    ∃ s A, getShard c j = .ok s ∧ c.shards[j]? = some s ∧ Rel H s A ∧ TRel H (perShard cap) j s A tr := by
  obtain ⟨s, A, hs, r, t⟩ := g.sh j hj
  refine ⟨s, A, ?_, hs, r, t⟩
  unfold getShard; rw [hs]

theorem TRel.outstanding_eq {i : Nat} {s : Shard} {A : Abs} (t : TRel H cap i s A tr) (a : Nat) :
    outstanding tr ⟨i, a⟩ = A.held a := by
  have := t.held a
  unfold outstanding; omega

theorem keys_nodup {s : Shard} {A : Abs} (r : Rel H s A) : (A.all.map s.heap.key).Nodup := by
  unfold List.Nodup
  rw [List.pairwise_map]
  exact List.Pairwise.imp_of_mem (fun ha hb hne e => hne (r.uniq ha hb e)) r.l.nodup

theorem size_bound {i : Nat} {s : Shard} {A : Abs} (r : Rel H s A) (t : TRel H cap i s A tr)
    (hb : ∀ ks : List Bytes, ks.Nodup → (∀ k ∈ ks, current tr k ≠ none) → ks.length < 2 ^ 31) :
    A.all.length < 2 ^ 31 := by
  have := hb (A.all.map s.heap.key) (keys_nodup r) (by
    intro k hk
    obtain ⟨a, ha, rfl⟩ := List.mem_map.mp hk
    rw [t.cur a ha]; exact fun h => by cases h)
  simpa using this

/-! ## What one call does -/

/-- `Lookup` on one shard, without a bound on the reference count: the result is determined by the
abstract state. -/
theorem Lookup_result {s : Shard} {A : Abs} (r : Rel H s A) {key : Slice} (hk : key.WF) :
    ∃ s', Lookup s key (H key.bytes) = .ok (s', A.find s.heap.key key.bytes) := by
  cases hf : A.find s.heap.key key.bytes with
  | none => exact ⟨s, Lookup_none r hk hf⟩
  | some a =>
    have ha := (find_mem hf).1
    by_cases hi : a ∈ A.idle
    · obtain ⟨s', e, -⟩ := Lookup_some r hk hf (by have := r.l.idle0 a hi; omega)
      exact ⟨s', e⟩
    · have hb : a ∈ A.busy := by
        rcases List.mem_append.mp ha with h | h
        · exact absurd h hi
        · exact h
      obtain ⟨C, hC⟩ := r.tab
      have hla := r.l.live_all ha
      have hrefs := r.l.refs a hla
      rw [if_pos ha] at hrefs
      have h0 := r.l.busy0 a hb
      have hone : s.heap.refs a ≠ 1 := fun e => by
        have := u32_eq_one.mp e
        omega
      refine ⟨{ s with heap := { s.heap with refs := upd s.heap.refs a (s.heap.refs a + 1) } }, ?_⟩
      unfold Lookup
      rw [tableLookup_spec hC r.l.nodes hk, r.lookupIn, hf]
      simp [bind, Except.bind, Ref, derefNode, hla, hone, pure, Except.pure]

section
variable {hf : Slice → M UInt32}

theorem Finds_iff (_g : GInv H cap c tr) (hH : ∀ k : Slice, k.WF → hf k = .ok (H k.bytes)) {k : Slice}
    (hk : k.WF) {s : Shard} {A : Abs} (hs : c.shards[shardIndex (H k.bytes)]? = some s) (r : Rel H s A)
    (x : Option Handle) :
    Finds hf c k x ↔ x = (A.find s.heap.key k.bytes).map (fun a => ⟨shardIndex (H k.bytes), a⟩) := by
  obtain ⟨s', e⟩ := Lookup_result r hk
  have : Sharded.Lookup hf c k = .ok (setShard c (shardIndex (H k.bytes)) s',
      (A.find s.heap.key k.bytes).map (fun a => ⟨shardIndex (H k.bytes), a⟩)) := by
    unfold Sharded.Lookup getShard
    rw [hH k hk]
    simp only [bind, Except.bind, hs, e]
    rfl
  unfold Finds
  rw [this]
  constructor
  · rintro ⟨c', h⟩
    injection h with h
    injection h with h1 h2
    exact h2.symm
  · rintro rfl; exact ⟨_, rfl⟩

theorem ofBytes_spec (b : Bytes) : (Slice.ofBytes b).WF ∧ (Slice.ofBytes b).bytes = b := by
  constructor
  · simp [Slice.ofBytes, Slice.WF]
  · simp [Slice.ofBytes, Slice.bytes]

theorem Cached_iff (g : GInv H cap c tr) (hH : ∀ k : Slice, k.WF → hf k = .ok (H k.bytes)) {i a : Nat}
    {s : Shard} {A : Abs} (hs : c.shards[i]? = some s) (r : Rel H s A)
    (t : TRel H (perShard cap) i s A tr) : Cached hf c ⟨i, a⟩ ↔ a ∈ A.all := by
  constructor
  · rintro ⟨k, c', hk, h⟩
    obtain ⟨s2, A2, hs2, r2, t2⟩ := g.sh _ (shardIndex_lt (H k.bytes))
    have := (Finds_iff g hH hk hs2 r2 (some ⟨i, a⟩)).mp ⟨c', h⟩
    cases hfd : A2.find s2.heap.key k.bytes with
    | none => rw [hfd] at this; cases this
    | some b =>
      rw [hfd] at this
      injection this with this
      injection this with h1 h2
      subst h2
      rw [← h1] at hs2
      rw [hs] at hs2
      injection hs2 with hs2
      subst hs2
      have h3 := find_mem hfd
      have h4 := r2.l.live a
      -- the two abstract states have the same cached entries
      have h5 := (r2.l.live_all h3.1)
      have h6 := r2.l.inC a h5
      have h7 := r.l.inC a h5
      rw [h6] at h7
      simpa [h3.1] using h7.symm
  · intro ha
    obtain ⟨hw, hb⟩ := ofBytes_spec (s.heap.key a)
    have hi := t.shard a (r.l.lt a ha)
    refine ⟨Slice.ofBytes (s.heap.key a), ?_⟩
    have := (Finds_iff (hf := hf) g hH hw (s := s) (A := A) (by rw [hb, hi]; exact hs) r (some ⟨i, a⟩)).mpr
      (by rw [hb, r.find_eq ha, hi]; rfl)
    obtain ⟨c', e⟩ := this
    exact ⟨c', hw, e⟩

/-- Cached handles are in one of the sixteen shards. -/
theorem Cached_shard (g : GInv H cap c tr) (hH : ∀ k : Slice, k.WF → hf k = .ok (H k.bytes)) {h : Handle}
    (hc : Cached hf c h) : h.shard < 16 := by
  obtain ⟨k, c', hk, e⟩ := hc
  obtain ⟨s2, A2, hs2, r2, t2⟩ := g.sh _ (shardIndex_lt (H k.bytes))
  have := (Finds_iff g hH hk hs2 r2 (some h)).mp ⟨c', e⟩
  cases hfd : A2.find s2.heap.key k.bytes with
  | none => rw [hfd] at this; cases this
  | some b =>
    rw [hfd] at this
    injection this with this
    rw [this]; exact shardIndex_lt _

/-- Everything about an `Insert`. -/
theorem step_insert (g : GInv H cap c tr) (hH : ∀ k : Slice, k.WF → hf k = .ok (H k.bytes)) {k : Slice}
    {v : Nat} {ch : UInt64} {d : Nat} (ha : Allowed tr (.insert k v ch d)) :
    ∃ s A s' A', c.shards[shardIndex (H k.bytes)]? = some s ∧ Rel H s A ∧
      TRel H (perShard cap) (shardIndex (H k.bytes)) s A tr ∧
      cstep hf c (.insert k v ch d) = .ok (setShard c (shardIndex (H k.bytes)) s',
        some ⟨shardIndex (H k.bytes), s.heap.fresh⟩) ∧
      Rel H s' A' ∧
      TRel H (perShard cap) (shardIndex (H k.bytes)) s' A'
        (⟨.insert k v ch d, some ⟨shardIndex (H k.bytes), s.heap.fresh⟩⟩ :: tr) ∧
      GInv H cap (setShard c (shardIndex (H k.bytes)) s')
        (⟨.insert k v ch d, some ⟨shardIndex (H k.bytes), s.heap.fresh⟩⟩ :: tr) ∧
      NewData s.heap s'.heap k.bytes v ch d ∧ s'.capacity = s.capacity ∧
      (s.capacity = 0 → A' = { A with held := upd A.held s.heap.fresh 1 }) ∧
      (s.capacity > 0 → ∃ ev rest,
        (A.add s.heap.key k.bytes s.heap.fresh).idle = ev ++ rest ∧
        A' = { A.add s.heap.key k.bytes s.heap.fresh with
          idle := rest
          dead := (A.add s.heap.key k.bytes s.heap.fresh).dead ++ ev } ∧
        (rest ≠ [] → ¬ s'.usage > s.capacity) ∧
        (∀ p x q, ev = p ++ x :: q → UInt64.ofNat (csum (upd s.heap.charge s.heap.fresh ch)
          (x :: q ++ rest ++ (A.add s.heap.key k.bytes s.heap.fresh).busy)) > s.capacity)) := by
  obtain ⟨hk, hsz⟩ := ha
  have hj := shardIndex_lt (H k.bytes)
  obtain ⟨s, A, hg, hs, r, t⟩ := getShard_ok g hj
  have hlen := size_bound r t hsz
  have hfor : ∀ i, i ≠ shardIndex (H k.bytes) →
      Foreign H i ⟨.insert k v ch d, some ⟨shardIndex (H k.bytes), s.heap.fresh⟩⟩ := by
    intro i hi
    refine ⟨?_, fun e => hi e.symm⟩
    intro h e
    injection e with e
    subst e
    exact fun e => hi e.symm
  have hnew : ∀ k' v' ch' d', (⟨.insert k v ch d, some ⟨shardIndex (H k.bytes), s.heap.fresh⟩⟩ : CEvent).op =
      .insert k' v' ch' d' →
      ∃ h, (⟨.insert k v ch d, some ⟨shardIndex (H k.bytes), s.heap.fresh⟩⟩ : CEvent).result = some h ∧
        inserted tr h = none := fun _ _ _ _ _ => ⟨_, rfl, t.noins _ (Nat.le_refl _)⟩
  have hstep : ∀ s' a, Insert s k (H k.bytes) v ch d = .ok (s', a) →
      cstep hf c (.insert k v ch d) = .ok (setShard c (shardIndex (H k.bytes)) s',
        some ⟨shardIndex (H k.bytes), a⟩) := by
    intro s' a e
    simp only [cstep, Sharded.Insert, hH k hk, bind, Except.bind, hg, e]
    rfl
  by_cases h0 : s.capacity = 0
  · have hall : A.all = [] := t.zero (by rw [← t.capEq, h0])
    obtain ⟨s', e, r', nd, hc'⟩ := Insert_zero r hk v ch d h0 hall
    have t' := t.insert_zero r h0 k v ch d nd hc' rfl
    refine ⟨s, A, s', _, hs, r, t, hstep _ _ e, r', t', g.local hj r' t' hfor hnew, nd, hc', fun _ => rfl, ?_⟩
    intro h; rw [h0] at h; exact absurd h (by decide)
  · have hpos : s.capacity > 0 := by
      rw [gt_iff_lt, UInt64.lt_iff_toNat_lt]
      have : s.capacity.toNat ≠ 0 := fun e => h0 (UInt64.toNat_inj.mp e)
      exact Nat.pos_of_ne_zero this
    obtain ⟨s', ev, rest, e, hsp, r', nd, hc', h1, h2⟩ := Insert_spec r hk v ch d hpos hlen
    have t' := t.insert r hpos k v ch d nd hc' rfl hsp
    exact ⟨s, A, s', _, hs, r, t, hstep _ _ e, r', t', g.local hj r' t' hfor hnew, nd, hc',
      fun h => absurd h h0, fun _ => ⟨ev, rest, hsp, rfl, h1, h2⟩⟩

theorem step_lookup (g : GInv H cap c tr) (hH : ∀ k : Slice, k.WF → hf k = .ok (H k.bytes)) {k : Slice}
    (ha : Allowed tr (.lookup k)) :
    ∃ s A s' A' x, c.shards[shardIndex (H k.bytes)]? = some s ∧ Rel H s A ∧
      TRel H (perShard cap) (shardIndex (H k.bytes)) s A tr ∧
      x = (A.find s.heap.key k.bytes).map (fun a => (⟨shardIndex (H k.bytes), a⟩ : Handle)) ∧
      cstep hf c (.lookup k) = .ok (setShard c (shardIndex (H k.bytes)) s', x) ∧
      Rel H s' A' ∧ A'.all.Perm A.all ∧ DFrame s.heap s'.heap ∧
      TRel H (perShard cap) (shardIndex (H k.bytes)) s' A' (⟨.lookup k, x⟩ :: tr) ∧
      GInv H cap (setShard c (shardIndex (H k.bytes)) s') (⟨.lookup k, x⟩ :: tr) := by
  obtain ⟨hk, hov⟩ := ha
  have hj := shardIndex_lt (H k.bytes)
  obtain ⟨s, A, hg, hs, r, t⟩ := getShard_ok g hj
  have hstep : ∀ s' a, Lookup s k (H k.bytes) = .ok (s', a) →
      cstep hf c (.lookup k) = .ok (setShard c (shardIndex (H k.bytes)) s',
        a.map (fun a => (⟨shardIndex (H k.bytes), a⟩ : Handle))) := by
    intro s' a e
    simp only [cstep, Sharded.Lookup, hH k hk, bind, Except.bind, hg, e]
    rfl
  have hfor : ∀ x : Option Nat, ∀ i, i ≠ shardIndex (H k.bytes) →
      Foreign H i ⟨.lookup k, x.map (fun a => (⟨shardIndex (H k.bytes), a⟩ : Handle))⟩ := by
    intro x i hi
    refine ⟨?_, trivial⟩
    intro h e
    cases x with
    | none => cases e
    | some a =>
      injection e with e
      subst e
      exact fun e => hi e.symm
  cases hfd : A.find s.heap.key k.bytes with
  | none =>
    have e := Lookup_none r hk hfd
    have t' := t.lookup_miss k
    exact ⟨s, A, s, A, none, hs, r, t, by rw [hfd]; rfl, hstep _ _ e, r, List.Perm.refl _, DFrame.refl _, t',
      g.local hj r t' (hfor none) (fun _ _ _ _ e => nomatch e)⟩
  | some a =>
    obtain ⟨s', e, r', fr, hc⟩ := Lookup_some r hk hfd (by
      have := hov ⟨shardIndex (H k.bytes), a⟩
      rw [t.outstanding_eq] at this
      exact this)
    have t' := t.lookup r.l fr hc (a := a) k
    exact ⟨s, A, s', _, _, hs, r, t, by rw [hfd], hstep _ _ e, r', A.ref_all_perm r.l.nodup, fr, t',
      g.local hj r' t' (hfor (some a)) (fun _ _ _ _ e => nomatch e)⟩

theorem step_release (g : GInv H cap c tr) {h : Handle} (ha : Allowed tr (.release h)) :
    ∃ s A s', c.shards[h.shard]? = some s ∧ Rel H s A ∧ TRel H (perShard cap) h.shard s A tr ∧
      cstep hf c (.release h) = .ok (setShard c h.shard s', none) ∧
      Rel H s' (A.release h.addr) ∧ DFrame s.heap s'.heap ∧
      TRel H (perShard cap) h.shard s' (A.release h.addr) (⟨.release h, none⟩ :: tr) ∧
      GInv H cap (setShard c h.shard s') (⟨.release h, none⟩ :: tr) := by
  have ha : released tr h < obtained tr h := ha
  have hj : h.shard < 16 := by
    rcases Nat.lt_or_ge h.shard 16 with h1 | h1
    · exact h1
    · have := (g.far h h1).1; omega
  obtain ⟨i, a⟩ := h
  obtain ⟨s, A, hg, hs, r, t⟩ := getShard_ok g hj
  have hj : i < 16 := hj
  have t : TRel H (perShard cap) i s A tr := t
  have hg : getShard c i = .ok s := hg
  have hheld : 0 < A.held a := by have := t.held a; omega
  have haf : a < s.heap.fresh := by
    rcases Nat.lt_or_ge a s.heap.fresh with h1 | h1
    · exact h1
    · have := r.l.heldlt a h1; omega
  have hlive : s.heap.live a = true := (r.l.live a).mpr ⟨haf, Or.inl hheld⟩
  have hsi : shardIndex (s.heap.hash a) = i := by rw [r.hash a haf]; exact t.shard a haf
  obtain ⟨s', e, r', fr, hc⟩ := Release_spec r hheld
  have t' := t.release r.l fr hc hheld
  refine ⟨s, A, s', hs, r, t, ?_, r', fr, t', g.local hj r' t' ?_ (fun _ _ _ _ e => nomatch e)⟩
  · simp only [cstep, Sharded.Release, bind, Except.bind, hg, derefNode, hlive, if_true, hsi, e]
    simp [pure, Except.pure]
  · intro i' hi
    exact ⟨fun h e => (nomatch e), fun e => hi e.symm⟩

theorem step_erase (g : GInv H cap c tr) (hH : ∀ k : Slice, k.WF → hf k = .ok (H k.bytes)) {k : Slice}
    (ha : Allowed tr (.erase k)) :
    ∃ s A s' A', c.shards[shardIndex (H k.bytes)]? = some s ∧ Rel H s A ∧
      TRel H (perShard cap) (shardIndex (H k.bytes)) s A tr ∧
      A' = (match A.find s.heap.key k.bytes with | none => A | some a => A.uncache a) ∧
      cstep hf c (.erase k) = .ok (setShard c (shardIndex (H k.bytes)) s', none) ∧
      Rel H s' A' ∧ DFrame s.heap s'.heap ∧
      TRel H (perShard cap) (shardIndex (H k.bytes)) s' A' (⟨.erase k, none⟩ :: tr) ∧
      GInv H cap (setShard c (shardIndex (H k.bytes)) s') (⟨.erase k, none⟩ :: tr) := by
  have hk : k.WF := ha
  have hj := shardIndex_lt (H k.bytes)
  obtain ⟨s, A, hg, hs, r, t⟩ := getShard_ok g hj
  obtain ⟨s', e, r', fr, hc⟩ := Erase_spec r hk
  have t' := t.erase r fr hc k
  refine ⟨s, A, s', _, hs, r, t, rfl, ?_, r', fr, t', g.local hj r' t' ?_ (fun _ _ _ _ e => nomatch e)⟩
  · simp only [cstep, Sharded.Erase, hH k hk, bind, Except.bind, hg, e]
    rfl
  · intro i' hi
    exact ⟨fun h e => (nomatch e), fun e => hi e.symm⟩

theorem step_prune (g : GInv H cap c tr) {j : Nat} (ha : Allowed tr (.pruneShard j)) :
    ∃ s A s', c.shards[j]? = some s ∧ Rel H s A ∧ TRel H (perShard cap) j s A tr ∧
      cstep hf c (.pruneShard j) = .ok (setShard c j s', none) ∧
      Rel H s' { A with idle := [], dead := A.dead ++ A.idle } ∧ DFrame s.heap s'.heap ∧
      TRel H (perShard cap) j s' { A with idle := [], dead := A.dead ++ A.idle }
        (⟨.pruneShard j, none⟩ :: tr) ∧
      GInv H cap (setShard c j s') (⟨.pruneShard j, none⟩ :: tr) := by
  have hj : j < 16 := ha
  obtain ⟨s, A, hg, hs, r, t⟩ := getShard_ok g hj
  obtain ⟨s', e, r', fr, hc⟩ := Prune_spec r
  have t' := t.prune fr hc j
  refine ⟨s, A, s', hs, r, t, ?_, r', fr, t', g.local hj r' t' ?_ (fun _ _ _ _ e => nomatch e)⟩
  · simp only [cstep, Sharded.PruneShard, bind, Except.bind, hg, e]
    rfl
  · intro i' hi
    exact ⟨fun h e => (nomatch e), trivial⟩

theorem step_ok (g : GInv H cap c tr) (hH : ∀ k : Slice, k.WF → hf k = .ok (H k.bytes)) {op : COp}
    (ha : Allowed tr op) : ∃ c' x, cstep hf c op = .ok (c', x) ∧ GInv H cap c' (⟨op, x⟩ :: tr) := by
  cases op with
  | insert k v ch d =>
    obtain ⟨s, A, s', A', _, _, _, e, _, _, g', _⟩ := step_insert g hH ha
    exact ⟨_, _, e, g'⟩
  | lookup k =>
    obtain ⟨s, A, s', A', x, _, _, _, _, e, _, _, _, _, g'⟩ := step_lookup g hH ha
    exact ⟨_, _, e, g'⟩
  | release h =>
    obtain ⟨s, A, s', _, _, _, e, _, _, _, g'⟩ := step_release (hf := hf) g ha
    exact ⟨_, _, e, g'⟩
  | erase k =>
    obtain ⟨s, A, s', A', _, _, _, _, e, _, _, _, g'⟩ := step_erase g hH ha
    exact ⟨_, _, e, g'⟩
  | pruneShard j =>
    obtain ⟨s, A, s', _, _, _, e, _, _, _, g'⟩ := step_prune (hf := hf) g ha
    exact ⟨_, _, e, g'⟩

theorem reach_inv (hH : ∀ k : Slice, k.WF → hf k = .ok (H k.bytes)) (hr : Reach hf cap c tr) :
    GInv H cap c tr := by
  induction hr with
  | init h => exact GInv.init h
  | step _ ha he ih =>
    obtain ⟨c', x, e, g⟩ := step_ok ih hH ha
    rw [he] at e
    injection e with e
    injection e with e1 e2
    subst e1; subst e2
    exact g

end
end Cache
end Lsmdb
