import Verif.Proof.Cache9

/-!
# C26–C37: the cache

The theorems hold for every hash function that is a function of the bytes (`HashFn`);
`HashSlice_HashFn` shows that the one in the program is.
-/

namespace Lsmdb
namespace Props
open Cache Spec

variable {hf : Slice → M UInt32} {capacity : UInt64} {c : Sharded} {tr : CTrace}

/-! ## C26 -/

/-- C26: a Lookup returns nothing or the handle of the most recent Insert of that key not followed by an
Erase of it; the entry was inserted under exactly these key bytes and its value is what was inserted. -/
theorem C26_lookup (hH : HashFn hf) (hr : Reach hf capacity c tr) {k : Slice}
    (ha : Allowed tr (.lookup k)) :
    ∃ c' r, cstep hf c (.lookup k) = .ok (c', r) ∧
      ∀ h, r = some h → current tr k.bytes = some h ∧
        ∃ info, inserted tr h = some info ∧ info.key = k.bytes ∧ Sharded.Value c' h = .ok info.value := by
  obtain ⟨H, hH⟩ := hH
  have g := reach_inv hH hr
  obtain ⟨s, A, s', A', x, hs, r, t, hx, e, r', hp, fr, t', g'⟩ := step_lookup g hH ha
  refine ⟨_, _, e, ?_⟩
  intro h hh
  rw [hh] at hx
  cases hfd : A.find s.heap.key k.bytes with
  | none => rw [hfd] at hx; cases hx
  | some a =>
    rw [hfd] at hx
    injection hx with hx
    subst hx
    obtain ⟨h1, h2⟩ := find_mem hfd
    have h3 := r.l.lt a h1
    refine ⟨by have := t.cur a h1; rw [h2] at this; exact this, _, t.ins a h3, h2, ?_⟩
    have hj := shardIndex_lt (H k.bytes)
    have hlive := r'.l.live_all (hp.mem_iff.mpr h1)
    simp only [Sharded.Value, getShard, setShard, bind, Except.bind]
    rw [List.getElem?_set_self (by rw [g.len]; exact hj)]
    simp [derefNode, hlive, pure, Except.pure, fr.value]

/-- C26: right after an Insert the key is found, unless the shard has capacity 0. -/
theorem C26_insert_found (hH : HashFn hf) (hr : Reach hf capacity c tr) {k : Slice} {v : Nat} {ch : UInt64}
    {d : Nat} (hcap : perShard capacity ≠ 0) (ha : Allowed tr (.insert k v ch d)) :
    ∃ c' h, cstep hf c (.insert k v ch d) = .ok (c', some h) ∧ inserted tr h = none ∧
      Finds hf c' k (some h) ∧ Sharded.Value c' h = .ok v := by
  obtain ⟨H, hH⟩ := hH
  have g := reach_inv hH hr
  obtain ⟨s, A, s', A', hs, r, t, e, r', t', g', nd, hc, -, h1⟩ := step_insert g hH ha
  have hj := shardIndex_lt (H k.bytes)
  refine ⟨_, _, e, t.noins _ (Nat.le_refl _), ?_⟩
  have hpos : s.capacity > 0 := by
    rw [gt_iff_lt, UInt64.lt_iff_toNat_lt]
    have : s.capacity.toNat ≠ 0 := fun e => hcap (by rw [← t.capEq]; exact UInt64.toNat_inj.mp e)
    exact Nat.pos_of_ne_zero this
  obtain ⟨ev, rest, hsp, hA', -, -⟩ := h1 hpos
  have hkey : s'.heap.key s.heap.fresh = k.bytes := by rw [nd.key, upd_same]
  have hheld : A'.held s.heap.fresh = 1 := by
    rw [hA']; show (A.add _ _ _).held _ = 1; rw [Abs.add_held, upd_same]
  have hmem : s.heap.fresh ∈ A'.all := by
    have : s.heap.fresh ∈ (A.add s.heap.key k.bytes s.heap.fresh).all := (Abs.add_mem r _ _).mpr (Or.inr rfl)
    rw [Abs.all, List.mem_append] at this
    rw [hA', Abs.all, List.mem_append]
    refine Or.inr ?_
    rcases this with h | h
    · exfalso
      have h2 := (Abs.add_idle_sublist A s.heap.key k.bytes s.heap.fresh).subset h
      have := r.l.lt _ (List.mem_append.mpr (Or.inl h2))
      omega
    · exact h
  have hs' : (setShard c (shardIndex (H k.bytes)) s').shards[shardIndex (H k.bytes)]? = some s' := by
    simp only [setShard]
    rw [List.getElem?_set_self (by rw [g.len]; exact hj)]
  refine ⟨?_, ?_⟩
  · refine (Finds_iff g' hH ha.1 hs' r' _).mpr ?_
    rw [← hkey, r'.find_eq hmem, hkey]; rfl
  · simp only [Sharded.Value, getShard, bind, Except.bind, hs']
    simp [derefNode, r'.l.live_all hmem, pure, Except.pure, nd.value, upd_same]

/-! ## C27 -/

/-- C27: while a client holds a reference, the handle gives the value that was inserted and the entry
has not been passed to a deleter — whatever else has happened. -/
theorem C27_held_handle (hH : HashFn hf) (hr : Reach hf capacity c tr) {h : Handle}
    (ho : 0 < outstanding tr h) :
    ∃ info, inserted tr h = some info ∧ Sharded.Value c h = .ok info.value ∧ deletions c.shards h = [] := by
  obtain ⟨H, hH⟩ := hH
  have g := reach_inv hH hr
  have hj : h.shard < 16 := by
    rcases Nat.lt_or_ge h.shard 16 with h1 | h1
    · exact h1
    · have := (g.far h h1).1
      unfold outstanding at ho; omega
  obtain ⟨i, a⟩ := h
  obtain ⟨s, A, hg, hs, r, t⟩ := getShard_ok g hj
  rw [t.outstanding_eq] at ho
  have haf : a < s.heap.fresh := by
    rcases Nat.lt_or_ge a s.heap.fresh with h1 | h1
    · exact h1
    · have := r.l.heldlt a h1; omega
  refine ⟨_, t.ins a haf, ?_, ?_⟩
  · have hl := (r.l.live a).mpr ⟨haf, Or.inl ho⟩
    simp only [Sharded.Value, bind, Except.bind, hg]
    simp [derefNode, hl, pure, Except.pure]
  · rw [deletions_eq hs r, if_neg]
    intro hd
    have := ((r.l.dead a).mp hd).2.1
    omega

/-! ## C28 -/

/-- C28: an entry is passed to a deleter at most once, and then to its own, with its own key and
value. -/
theorem C28_at_most_once (hH : HashFn hf) (hr : Reach hf capacity c tr) (h : Handle) :
    (deletions c.shards h).length ≤ 1 ∧
      ∀ x ∈ deletions c.shards h, ∃ info, inserted tr h = some info ∧
        x = ⟨h.addr, info.deleter, info.key, info.value⟩ := by
  obtain ⟨H, hH⟩ := hH
  have g := reach_inv hH hr
  obtain ⟨i, a⟩ := h
  rcases Nat.lt_or_ge i 16 with hj | hj
  · obtain ⟨s, A, hs, r, t⟩ := g.sh i hj
    rw [deletions_eq hs r]
    by_cases hd : a ∈ A.dead
    · rw [if_pos hd]
      refine ⟨Nat.le_refl _, ?_⟩
      intro x hx
      rw [List.mem_singleton] at hx
      exact ⟨_, t.ins a ((r.l.dead a).mp hd).1, hx⟩
    · rw [if_neg hd]
      exact ⟨Nat.zero_le _, fun x hx => nomatch hx⟩
  · have : deletions c.shards ⟨i, a⟩ = [] := by
      unfold deletions
      rw [List.getElem?_eq_none (by rw [g.len]; exact hj)]
    rw [this]
    exact ⟨Nat.zero_le _, fun x hx => nomatch hx⟩

/-- C28: the deleter has run exactly for the entries that no client references any more and that have
left the cache.  So no entry is leaked and none is deleted early. -/
theorem C28_exactly_when (hH : HashFn hf) (hr : Reach hf capacity c tr) (h : Handle) :
    (deletions c.shards h).length = 1 ↔
      inserted tr h ≠ none ∧ outstanding tr h = 0 ∧ ¬ Cached hf c h := by
  obtain ⟨H, hH⟩ := hH
  have g := reach_inv hH hr
  obtain ⟨i, a⟩ := h
  rcases Nat.lt_or_ge i 16 with hj | hj
  · obtain ⟨s, A, hs, r, t⟩ := g.sh i hj
    rw [deletions_eq hs r, t.outstanding_eq, Cached_iff g hH hs r t]
    have hins : inserted tr ⟨i, a⟩ ≠ none ↔ a < s.heap.fresh := by
      rcases Nat.lt_or_ge a s.heap.fresh with h1 | h1
      · rw [t.ins a h1]; simp [h1]
      · rw [t.noins a h1]; simp; omega
    rw [hins, ← r.l.dead a]
    by_cases hd : a ∈ A.dead <;> simp [hd]
  · have : deletions c.shards ⟨i, a⟩ = [] := by
      unfold deletions
      rw [List.getElem?_eq_none (by rw [g.len]; exact hj)]
    rw [this, (g.far _ hj).2.2]
    simp

/-- C28: destroying the cache when every handle has been released succeeds, and then every entry ever
inserted has been passed to its deleter exactly once. -/
theorem C28_destroy (hH : HashFn hf) (hr : Reach hf capacity c tr) (ho : ∀ h, outstanding tr h = 0) :
    ∃ shards', destroyShards c.shards = .ok shards' ∧
      ∀ h, deletions shards' h = match inserted tr h with
        | some info => [⟨h.addr, info.deleter, info.key, info.value⟩]
        | none => [] := by
  obtain ⟨H, hH⟩ := hH
  have g := reach_inv hH hr
  have hbusy : ∀ i s A, c.shards[i]? = some s → Rel H s A → TRel H (perShard capacity) i s A tr →
      A.busy = [] := by
    intro i s A hs r t
    rw [List.eq_nil_iff_forall_not_mem]
    intro a ha
    have h1 := r.l.busy0 a ha
    have h2 := ho ⟨i, a⟩
    rw [t.outstanding_eq] at h2
    omega
  have hlt : ∀ (i : Nat) (s : Shard), c.shards[i]? = some s → i < 16 := by
    intro i s hs
    rcases Nat.lt_or_ge i 16 with h | h
    · exact h
    · rw [List.getElem?_eq_none (by rw [g.len]; exact h)] at hs; cases hs
  obtain ⟨L', e, hlen, hL⟩ := destroyShards_spec (H := H) c.shards (by
    intro i s hs
    obtain ⟨s2, A, hs2, r, t⟩ := g.sh i (hlt i s hs)
    rw [hs] at hs2
    injection hs2 with hs2
    subst hs2
    exact ⟨A, r, hbusy i s A hs r t⟩)
  refine ⟨L', e, ?_⟩
  rintro ⟨i, a⟩
  rcases Nat.lt_or_ge i 16 with hj | hj
  · obtain ⟨s, A, hs, r, t⟩ := g.sh i hj
    have hb := hbusy i s A hs r t
    obtain ⟨s', hs', hlog⟩ := hL i s A hs r hb
    have hnd : (A.dead ++ A.idle).Nodup := by
      rw [List.nodup_append]
      refine ⟨r.l.deadnd, (List.nodup_append.mp r.l.nodup).1, ?_⟩
      intro x hx y hy e
      subst e
      exact ((r.l.dead x).mp hx).2.2 (List.mem_append.mpr (Or.inl hy))
    have hmem : a ∈ A.dead ++ A.idle ↔ a < s.heap.fresh := by
      rw [List.mem_append, r.l.dead]
      have hall : ∀ x, x ∈ A.all ↔ x ∈ A.idle := by intro x; simp [Abs.all, hb]
      have hh : A.held a = 0 := by have := ho ⟨i, a⟩; rw [t.outstanding_eq] at this; exact this
      rw [hall]
      constructor
      · rintro (h | h)
        · exact h.1
        · exact r.l.lt a ((hall a).mpr h)
      · intro h
        by_cases h2 : a ∈ A.idle
        · exact Or.inr h2
        · exact Or.inl ⟨h, hh, h2⟩
    have hgen : ∀ L : List Nat, L.Nodup → (L.map (deletion s.heap)).filter (fun d => d.addr == a) =
        if a ∈ L then [deletion s.heap a] else [] := by
      intro L hL
      induction L with
      | nil => rfl
      | cons b L ih =>
        rw [List.nodup_cons] at hL
        rw [List.map_cons, List.filter_cons, ih hL.2]
        by_cases e : b = a
        · subst e; simp [deletion, hL.1]
        · have e' : ¬ a = b := fun h => e h.symm
          simp [deletion, e, e']
    unfold deletions
    simp only [hs']
    rw [hlog, hgen _ hnd]
    rcases Nat.lt_or_ge a s.heap.fresh with h1 | h1
    · rw [if_pos (hmem.mpr h1), t.ins a h1]; rfl
    · rw [if_neg (fun h => by have := hmem.mp h; omega), t.noins a h1]
  · rw [(g.far _ hj).2.2]
    unfold deletions
    rw [List.getElem?_eq_none (by rw [hlen, g.len]; exact hj)]

/-! ## C29 -/

/-- C29: TotalCharge is the sum (in `size_t` arithmetic) of the charges of exactly the entries that a
Lookup could return now, each counted once. -/
theorem C29_total_charge (hH : HashFn hf) (hr : Reach hf capacity c tr) :
    ∃ n, ChargeSum tr (Cached hf c) n ∧ Sharded.TotalCharge c = UInt64.ofNat n := by
  obtain ⟨H, hH⟩ := hH
  have g := reach_inv hH hr
  -- the shards from `i` on
  have key : ∀ (L : List Shard) (i : Nat), c.shards.drop i = L → i + L.length = 16 →
      ∃ n, ChargeSum tr (fun h => Cached hf c h ∧ i ≤ h.shard) n ∧
        L.foldr (fun s x => Cache.TotalCharge s + x) 0 = UInt64.ofNat n := by
    intro L
    induction L with
    | nil =>
      intro i _ hi
      refine ⟨0, ⟨[], by simp, ?_, rfl⟩, rfl⟩
      intro h
      constructor
      · intro hh; cases hh
      · rintro ⟨h1, h2⟩
        have := Cached_shard g hH h1
        simp at hi; omega
    | cons s0 L ih =>
      intro i hd hi
      simp only [List.length_cons] at hi
      have hs0 : c.shards[i]? = some s0 := by
        have := List.head?_drop (l := c.shards) (i := i)
        rw [hd] at this; exact this.symm
      have hd' : c.shards.drop (i + 1) = L := by
        rw [← List.drop_drop, hd]; rfl
      obtain ⟨n, ⟨Lh, hn1, hn2, hn3⟩, hsum⟩ := ih (i + 1) hd' (by omega)
      obtain ⟨s, A, hs, r, t⟩ := g.sh i (by omega)
      rw [hs0] at hs
      injection hs with hs
      subst hs
      refine ⟨csum s0.heap.charge A.all + n, ⟨A.all.map (fun a => (⟨i, a⟩ : Handle)) ++ Lh, ?_, ?_, ?_⟩, ?_⟩
      · rw [List.nodup_append]
        refine ⟨handles_nodup i r.l.nodup, hn1, ?_⟩
        intro x hx y hy e
        subst e
        have h1 := (mem_handles.mp hx).1
        have h2 := ((hn2 x).mp hy).2
        omega
      · intro h
        rw [List.mem_append, mem_handles, hn2]
        have hci : h.shard = i → (Cached hf c h ↔ h.addr ∈ A.all) := by
          intro e
          have := Cached_iff (a := h.addr) g hH hs0 r t
          rw [← this, ← e]
        constructor
        · rintro (⟨h1, h2⟩ | ⟨h1, h2⟩)
          · exact ⟨(hci h1).mpr h2, by omega⟩
          · exact ⟨h1, by omega⟩
        · rintro ⟨h1, h2⟩
          by_cases e : h.shard = i
          · exact Or.inl ⟨e, (hci e).mp h1⟩
          · exact Or.inr ⟨h1, by omega⟩
      · rw [List.map_append, List.sum_append, hn3, shard_sum r t A.all (fun a ha => ha)]
      · rw [List.foldr_cons, hsum, Cache.TotalCharge, r.usage, UInt64.ofNat_add]
  obtain ⟨n, ⟨L, h1, h2, h3⟩, hsum⟩ := key c.shards 0 (by simp) (by rw [g.len])
  refine ⟨n, ⟨L, h1, ?_, h3⟩, ?_⟩
  · intro h; rw [h2]; simp
  · unfold Sharded.TotalCharge
    rw [foldl_total, hsum, UInt64.zero_add]

/-- C29: right after an Insert, the shard that took the entry has at most its capacity of charges, unless
every entry in it is referenced by a client.  (`n` is the sum of the charges in that shard; it is assumed
to be a `size_t`.) -/
theorem C29_after_insert (hH : HashFn hf) (hr : Reach hf capacity c tr) {k : Slice} {v : Nat}
    {ch : UInt64} {d : Nat} (ha : Allowed tr (.insert k v ch d)) :
    ∃ c' h n, cstep hf c (.insert k v ch d) = .ok (c', some h) ∧
      ChargeSum (⟨.insert k v ch d, some h⟩ :: tr) (fun x => Cached hf c' x ∧ x.shard = h.shard) n ∧
      (n < 2 ^ 64 → n ≤ (perShard capacity).toNat ∨
        ∀ x, Cached hf c' x → x.shard = h.shard → 0 < outstanding (⟨.insert k v ch d, some h⟩ :: tr) x) := by
  obtain ⟨H, hH⟩ := hH
  have g := reach_inv hH hr
  obtain ⟨s, A, s', A', hs, r, t, e, r', t', g', nd, hc, h0, h1⟩ := step_insert g hH ha
  have hj := shardIndex_lt (H k.bytes)
  have hs' : (setShard c (shardIndex (H k.bytes)) s').shards[shardIndex (H k.bytes)]? = some s' := by
    simp only [setShard]
    rw [List.getElem?_set_self (by rw [g.len]; exact hj)]
  have hci : ∀ x : Handle, x.shard = shardIndex (H k.bytes) →
      (Cached hf (setShard c (shardIndex (H k.bytes)) s') x ↔ x.addr ∈ A'.all) := by
    intro x ex
    have := Cached_iff (a := x.addr) g' hH hs' r' t'
    rw [← this, ← ex]
  refine ⟨_, _, csum s'.heap.charge A'.all, e, ⟨_, handles_nodup (shardIndex (H k.bytes)) r'.l.nodup, ?_,
    shard_sum r' t' A'.all (fun a ha => ha)⟩, ?_⟩
  · intro x
    rw [mem_handles]
    constructor
    · rintro ⟨h1, h2⟩; exact ⟨(hci x h1).mpr h2, h1⟩
    · rintro ⟨h1, h2⟩; exact ⟨h2, (hci x h2).mp h1⟩
  · intro hlt
    by_cases hidle : A'.idle = []
    · right
      intro x hx hsx
      have hm := (hci x hsx).mp hx
      rw [Abs.all, hidle, List.nil_append] at hm
      have := r'.l.busy0 _ hm
      have h2 := t'.outstanding_eq x.addr
      obtain ⟨xi, xa⟩ := x
      have hsx : xi = _ := hsx
      subst hsx
      rw [h2]; exact this
    · left
      by_cases hz : s.capacity = 0
      · have hall : A.all = [] := t.zero (by rw [← t.capEq, hz])
        have hA' := h0 hz
        have : A'.idle = A.idle := by rw [hA']
        rw [this] at hidle
        simp only [Abs.all, List.append_eq_nil_iff] at hall
        exact absurd hall.1 hidle
      · have hpos : s.capacity > 0 := by
          rw [gt_iff_lt, UInt64.lt_iff_toNat_lt]
          have : s.capacity.toNat ≠ 0 := fun e => hz (UInt64.toNat_inj.mp e)
          exact Nat.pos_of_ne_zero this
        obtain ⟨ev, rest, hsp, hA', hstop, -⟩ := h1 hpos
        have hrest : rest ≠ [] := by
          intro er
          apply hidle
          rw [hA']; exact er
        have h3 := hstop hrest
        rw [r'.usage, gt_iff_lt, UInt64.lt_iff_toNat_lt, UInt64.toNat_ofNat', Nat.mod_eq_of_lt hlt] at h3
        rw [← t.capEq]
        omega

/-- C29: no call other than Insert brings an entry into the cache, so only Insert can increase the total
charge. -/
theorem C29_only_insert_grows (hH : HashFn hf) (hr : Reach hf capacity c tr) {op : COp}
    (hop : ∀ k v ch d, op ≠ .insert k v ch d) (ha : Allowed tr op) {c' : Sharded} {x : Option Handle}
    (e : cstep hf c op = .ok (c', x)) {h : Handle} (hc : Cached hf c' h) : Cached hf c h := by
  obtain ⟨H, hH⟩ := hH
  have g := reach_inv hH hr
  have main : ∀ {j : Nat} {s s' : Shard} {A A' : Abs} {tr' : CTrace}, j < 16 → c.shards[j]? = some s → Rel H s A →
      TRel H (perShard capacity) j s A tr → Rel H s' A' → TRel H (perShard capacity) j s' A' tr' →
      GInv H capacity (setShard c j s') tr' → (∀ a ∈ A'.all, a ∈ A.all) → c' = setShard c j s' →
      Cached hf c h := by
    intro j s s' A A' tr' hj hs r t r' t' g' hsub ec
    subst ec
    by_cases hji : h.shard = j
    · rw [cached_at g hH hs r t hji]
      exact hsub _ ((cached_own g hj g' hH r' t' hji).mp hc)
    · exact (cached_other g g' hH hji).mp hc
  cases op with
  | insert k v ch d => exact absurd rfl (hop k v ch d)
  | lookup k =>
    obtain ⟨s, A, s', A', x, hs, r, t, hx, e', r', hp, fr, t', g'⟩ := step_lookup g hH ha
    rw [e] at e'
    injection e' with e'
    injection e' with e1 e2
    exact main (shardIndex_lt _) hs r t r' t' g' (fun a h => hp.mem_iff.mp h) e1
  | release h' =>
    obtain ⟨s, A, s', hs, r, t, e', r', fr, t', g'⟩ := step_release (hf := hf) g ha
    rw [e] at e'
    injection e' with e'
    injection e' with e1 e2
    have hj : h'.shard < 16 := by
      rcases Nat.lt_or_ge h'.shard 16 with h1 | h1
      · exact h1
      · rw [List.getElem?_eq_none (by rw [g.len]; exact h1)] at hs; cases hs
    exact main hj hs r t r' t' g' (fun a h => A.release_all_perm.mem_iff.mp h) e1
  | erase k =>
    obtain ⟨s, A, s', A', hs, r, t, hA', e', r', fr, t', g'⟩ := step_erase g hH ha
    rw [e] at e'
    injection e' with e'
    injection e' with e1 e2
    refine main (shardIndex_lt _) hs r t r' t' g' (fun a h => ?_) e1
    rw [hA'] at h
    cases hfd : A.find s.heap.key k.bytes with
    | none => rw [hfd] at h; exact h
    | some b =>
      rw [hfd] at h
      simp only [] at h
      rw [A.uncache_all b r.l.nodup] at h
      exact List.mem_of_mem_erase h
  | pruneShard j =>
    obtain ⟨s, A, s', hs, r, t, e', r', fr, t', g'⟩ := step_prune (hf := hf) g ha
    rw [e] at e'
    injection e' with e'
    injection e' with e1 e2
    exact main ha hs r t r' t' g' (fun a h => List.mem_append.mpr (Or.inr (by simpa [Abs.all] using h))) e1

/-! ## C30 -/


/-- C30: what Insert evicts.  (1) Only entries of the shard of the inserted key that no client
references.  (2) An evicted entry has been idle for longer than every idle entry that stays.  (3) When an
entry is evicted, the entries that stay together with the evicted entries idle for no longer than it do
not fit into the shard's capacity (so no eviction happens that is not needed at that point; sums are
assumed to be below 2^64). -/
theorem C30_lru (hH : HashFn hf) (hr : Reach hf capacity c tr) {k : Slice} {v : Nat}
    {ch : UInt64} {d : Nat} (ha : Allowed tr (.insert k v ch d)) :
    ∃ c' new, cstep hf c (.insert k v ch d) = .ok (c', some new) ∧
      ∀ h, Evicted hf c c' tr k h →
        h.shard = new.shard ∧ outstanding tr h = 0 ∧
        (∀ x, Cached hf c' x → x.shard = new.shard → x ≠ new → outstanding tr x = 0 →
          idleSince tr h < idleSince tr x) ∧
        ∃ n, ChargeSum (⟨.insert k v ch d, some new⟩ :: tr) (fun x => x.shard = new.shard ∧
              (Cached hf c' x ∨ (Evicted hf c c' tr k x ∧ idleSince tr h ≤ idleSince tr x))) n ∧
          (n < 2 ^ 64 → (perShard capacity).toNat < n) := by
  obtain ⟨H, hH⟩ := hH
  have g := reach_inv hH hr
  obtain ⟨s, A, s', A', hs, r, t, e, r', t', g', nd, hc, h0, h1⟩ := step_insert g hH ha
  have hj := shardIndex_lt (H k.bytes)
  refine ⟨_, _, e, ?_⟩
  intro h hev
  obtain ⟨hev1, hev2, hev3⟩ := hev
  have hsh : h.shard = shardIndex (H k.bytes) := by
    rcases Decidable.em (h.shard = shardIndex (H k.bytes)) with hh | hh
    · exact hh
    · exact absurd ((cached_other g g' hH hh).mpr hev1) hev2
  have hci : ∀ x : Handle, x.shard = shardIndex (H k.bytes) →
      (Cached hf (setShard c (shardIndex (H k.bytes)) s') x ↔ x.addr ∈ A'.all) :=
    fun x ex => cached_own g hj g' hH r' t' ex
  have hcb : ∀ x : Handle, x.shard = shardIndex (H k.bytes) → (Cached hf c x ↔ x.addr ∈ A.all) :=
    fun x ex => cached_at g hH hs r t ex
  by_cases hz : s.capacity = 0
  · exfalso
    have hall : A.all = [] := t.zero (by rw [← t.capEq, hz])
    have := (hcb h hsh).mp hev1
    rw [hall] at this; cases this
  have hpos : s.capacity > 0 := by
    rw [gt_iff_lt, UInt64.lt_iff_toNat_lt]
    have : s.capacity.toNat ≠ 0 := fun e => hz (UInt64.toNat_inj.mp e)
    exact Nat.pos_of_ne_zero this
  obtain ⟨ev, rest, hsp, hA', hstop, hover⟩ := h1 hpos
  have hbusy' : A'.busy = (A.add s.heap.key k.bytes s.heap.fresh).busy := by rw [hA']
  have hidle' : A'.idle = rest := by rw [hA']
  have hsub := Abs.add_idle_sublist A s.heap.key k.bytes s.heap.fresh
  -- which handles are evicted
  have hevm : ∀ x : Handle, Evicted hf c (setShard c (shardIndex (H k.bytes)) s') tr k x ↔
      x.shard = shardIndex (H k.bytes) ∧ x.addr ∈ ev := by
    intro x
    constructor
    · rintro ⟨x1, x2, x3⟩
      have hx : x.shard = shardIndex (H k.bytes) := by
        rcases Decidable.em (x.shard = shardIndex (H k.bytes)) with hh | hh
        · exact hh
        · exact absurd ((cached_other g g' hH hh).mpr x1) x2
      refine ⟨hx, ?_⟩
      rw [hcb x hx] at x1
      rw [hci x hx] at x2
      have hkey : s.heap.key x.addr ≠ k.bytes := by
        intro ek
        apply x3
        rw [← ek, t.cur _ x1, ← hx]
      have hm := (Abs.add_mem r k.bytes x.addr).mpr (Or.inl ⟨x1, hkey⟩)
      rw [Abs.all, hsp] at hm
      rw [Abs.all, hbusy', hidle'] at x2
      simp only [List.mem_append, not_or] at hm x2
      rcases hm with (hm | hm) | hm
      · exact hm
      · exact absurd hm x2.1
      · exact absurd hm x2.2
    · rintro ⟨hx, hm⟩
      have hm2 : x.addr ∈ (A.add s.heap.key k.bytes s.heap.fresh).idle := by
        rw [hsp]; exact List.mem_append.mpr (Or.inl hm)
      have hm3 := (Abs.add_mem r k.bytes x.addr).mp (List.mem_append.mpr (Or.inl hm2))
      have hmA : x.addr ∈ A.all := List.mem_append.mpr (Or.inl (hsub.subset hm2))
      have hlt := r.l.lt _ hmA
      have hkey : s.heap.key x.addr ≠ k.bytes := by
        rcases hm3 with h | h
        · exact h.2
        · omega
      refine ⟨(hcb x hx).mpr hmA, ?_, ?_⟩
      · rw [hci x hx]
        intro hin
        have hd : x.addr ∈ A'.dead := by rw [hA']; exact List.mem_append.mpr (Or.inr hm)
        exact ((r'.l.dead _).mp hd).2.2 hin
      · intro hcur
        obtain ⟨info, h2, h3⟩ := g.curkey _ _ hcur
        have hx' : x = ⟨shardIndex (H k.bytes), x.addr⟩ := by rw [← hx]
        rw [hx', t.ins _ hlt] at h2
        injection h2 with h2
        apply hkey
        rw [← h3, ← h2]
  have hsorted := t.sorted.sublist hsub
  rw [hsp] at hsorted
  obtain ⟨hsev, hsrest, hcross⟩ := List.pairwise_append.mp hsorted
  have hmev := ((hevm h).mp ⟨hev1, hev2, hev3⟩).2
  have hidleA : ∀ a, a ∈ ev ++ rest → a ∈ A.idle := fun a ha => hsub.subset (by rw [hsp]; exact ha)
  have hheq : h = ⟨shardIndex (H k.bytes), h.addr⟩ := by rw [← hsh]
  refine ⟨hsh, ?_, ?_, ?_⟩
  · rw [hheq, t.outstanding_eq]
    exact r.l.idle0 _ (hidleA _ (List.mem_append.mpr (Or.inl hmev)))
  · intro x hx hxs hxn hxo
    have hxs : x.shard = shardIndex (H k.bytes) := hxs
    have hxeq : x = ⟨shardIndex (H k.bytes), x.addr⟩ := by rw [← hxs]
    rw [hxeq, t.outstanding_eq] at hxo
    have hm := (hci x hxs).mp hx
    have hxr : x.addr ∈ rest := by
      rw [Abs.all, hidle', List.mem_append] at hm
      rcases hm with hm | hm
      · exact hm
      · exfalso
        have h2 := r'.l.busy0 _ hm
        have h3 : A'.held x.addr = A.held x.addr := by
          rw [hA']
          show (A.add _ _ _).held _ = _
          rw [Abs.add_held, upd_other]
          intro e
          apply hxn
          rw [hxeq, e]
        omega
    rw [hheq, hxeq]
    exact hcross _ hmev _ hxr
  · obtain ⟨p, q, hpq⟩ := List.append_of_mem hmev
    have hov := hover p h.addr q hpq
    have hb : (A.add s.heap.key k.bytes s.heap.fresh).busy = A'.busy := hbusy'.symm
    -- later evictions are the ones not older
    have hlater : ∀ y, y ∈ ev → (y ∈ h.addr :: q ↔
        idleSince tr h ≤ idleSince tr ⟨shardIndex (H k.bytes), y⟩) := by
      intro y hy
      rw [hpq] at hsev hy
      have hs1 := List.pairwise_append.mp hsev
      constructor
      · intro hyq
        rcases List.mem_cons.mp hyq with rfl | hyq
        · rw [← hheq]; exact Nat.le_refl _
        · have := (List.pairwise_cons.mp hs1.2.1).1 y hyq
          rw [← hheq] at this; omega
      · intro hle
        rcases List.mem_append.mp hy with hyp | hyq
        · have := hs1.2.2 y hyp h.addr (by simp)
          rw [← hheq] at this; omega
        · exact hyq
    have hlt' : ∀ a ∈ h.addr :: q ++ rest ++ A'.busy, a < s'.heap.fresh := by
      intro a ha
      rw [nd.fresh]
      simp only [List.mem_append] at ha
      rcases ha with (ha | ha) | ha
      · have : a ∈ ev := by rw [hpq]; exact List.mem_append.mpr (Or.inr ha)
        have := r.l.lt a (List.mem_append.mpr (Or.inl (hidleA a (List.mem_append.mpr (Or.inl this)))))
        omega
      · have := r.l.lt a (List.mem_append.mpr (Or.inl (hidleA a (List.mem_append.mpr (Or.inr ha)))))
        omega
      · have := r'.l.lt a (List.mem_append.mpr (Or.inr ha))
        rw [nd.fresh] at this; exact this
    have hndup : (h.addr :: q ++ rest ++ A'.busy).Nodup := by
      have hn1 : (ev ++ rest ++ A'.busy).Nodup := by
        rw [← hsp, hb.symm]
        have hn := (List.nodup_append.mp r.l.nodup)
        have hne : ∀ a ∈ A.all, a ≠ s.heap.fresh := fun a ha e => by
          have := r.l.lt a ha
          omega
        unfold Abs.add
        have hbase : (A.idle ++ (A.busy ++ [s.heap.fresh])).Nodup := by
          have hper : (A.idle ++ (A.busy ++ [s.heap.fresh])).Perm (s.heap.fresh :: A.all) := by
            rw [← List.append_assoc]
            exact List.perm_append_comm
          exact hper.nodup_iff.mpr (List.nodup_cons.mpr ⟨fun h => hne _ h rfl, r.l.nodup⟩)
        cases A.find s.heap.key k.bytes with
        | none => exact hbase
        | some o =>
          have := hbase.erase o
          have h5 := Abs.all_erase ⟨A.idle, A.busy ++ [s.heap.fresh], A.held, A.dead⟩ o hbase
          rw [Abs.all] at h5
          rw [h5] at this
          exact this
      refine hn1.sublist ?_
      rw [hpq]
      exact List.Sublist.append_right (List.Sublist.append_right (List.sublist_append_right p _) _) _
    refine ⟨csum s'.heap.charge (h.addr :: q ++ rest ++ A'.busy),
      ⟨(h.addr :: q ++ rest ++ A'.busy).map (fun a => (⟨shardIndex (H k.bytes), a⟩ : Handle)),
        handles_nodup _ hndup, ?_, ?_⟩, ?_⟩
    · intro x
      rw [mem_handles]
      constructor
      · rintro ⟨hx, hm⟩
        refine ⟨hx, ?_⟩
        have hxeq : x = ⟨shardIndex (H k.bytes), x.addr⟩ := by rw [← hx]
        rw [List.mem_append, List.mem_append] at hm
        rcases hm with (hm | hm) | hm
        · have hmev : x.addr ∈ ev := by rw [hpq]; exact List.mem_append.mpr (Or.inr hm)
          refine Or.inr ⟨(hevm x).mpr ⟨hx, hmev⟩, ?_⟩
          rw [hxeq]; exact (hlater _ hmev).mp hm
        · exact Or.inl ((hci x hx).mpr (List.mem_append.mpr (Or.inl (by rw [hidle']; exact hm))))
        · exact Or.inl ((hci x hx).mpr (List.mem_append.mpr (Or.inr hm)))
      · rintro ⟨hx, hm⟩
        have hx : x.shard = shardIndex (H k.bytes) := hx
        have hxeq : x = ⟨shardIndex (H k.bytes), x.addr⟩ := by rw [← hx]
        refine ⟨hx, ?_⟩
        rw [List.mem_append, List.mem_append]
        rcases hm with hm | ⟨hm, hle⟩
        · have := (hci x hx).mp hm
          rw [Abs.all, hidle', List.mem_append] at this
          rcases this with h | h
          · exact Or.inl (Or.inr h)
          · exact Or.inr h
        · have hm := ((hevm x).mp hm).2
          rw [hxeq] at hle
          exact Or.inl (Or.inl ((hlater _ hm).mpr hle))
    · unfold csum
      rw [List.map_map]
      congr 1
      apply List.map_congr_left
      intro a ha
      exact chargeOf_eq t' (hlt' a ha)
    · intro hlt
      rw [hb, ← nd.charge, gt_iff_lt, UInt64.lt_iff_toNat_lt, UInt64.toNat_ofNat', Nat.mod_eq_of_lt hlt,
        t.capEq] at hov
      exact hov

/-! ## C31 -/

/-- C31: after Erase of a key a Lookup of it finds nothing, and what a Lookup of any other key finds has
not changed. -/
theorem C31_erase (hH : HashFn hf) (hr : Reach hf capacity c tr) {k : Slice} (ha : Allowed tr (.erase k)) :
    ∃ c', cstep hf c (.erase k) = .ok (c', none) ∧ Finds hf c' k none ∧
      ∀ k' : Slice, k'.WF → k'.bytes ≠ k.bytes → ∀ x, (Finds hf c' k' x ↔ Finds hf c k' x) := by
  obtain ⟨H, hH⟩ := hH
  have g := reach_inv hH hr
  obtain ⟨s, A, s', A', hs, r, t, hA', e, r', fr, t', g'⟩ := step_erase g hH ha
  have hj := shardIndex_lt (H k.bytes)
  have hmem : ∀ a, a ∈ A'.all ↔ a ∈ A.all ∧ s.heap.key a ≠ k.bytes := by
    intro a
    rw [hA']
    cases hfd : A.find s.heap.key k.bytes with
    | none =>
      constructor
      · intro h; exact ⟨h, find_none hfd a h⟩
      · exact fun h => h.1
    | some b =>
      simp only []
      rw [A.uncache_all b r.l.nodup, r.l.nodup.mem_erase_iff]
      obtain ⟨hb1, hb2⟩ := find_mem hfd
      constructor
      · rintro ⟨h1, h2⟩
        exact ⟨h2, fun e => h1 (r.uniq h2 hb1 (by rw [e, hb2]))⟩
      · rintro ⟨h1, h2⟩
        exact ⟨fun e => h2 (by rw [e]; exact hb2), h1⟩
  refine ⟨_, e, ?_, ?_⟩
  · refine (Finds_iff g' hH ha (get_set g hj s') r' none).mpr ?_
    have : A'.find s'.heap.key k.bytes = none := by
      cases hfd : A'.find s'.heap.key k.bytes with
      | none => rfl
      | some a =>
        obtain ⟨h1, h2⟩ := find_mem hfd
        rw [fr.key] at h2
        exact absurd h2 ((hmem a).mp h1).2
    rw [this]; rfl
  · intro k' hk' hne x
    refine finds_step g hj hs r g' hH r' hk' (fun _ => find_congr r r' ?_) x
    intro a
    rw [hmem, fr.key]
    constructor
    · rintro ⟨⟨h1, _⟩, h3⟩; exact ⟨h1, h3⟩
    · rintro ⟨h1, h3⟩; exact ⟨⟨h1, by rw [h3]; exact hne⟩, h3⟩

/-- C31: Lookup and Release never change what a Lookup finds, for any key. -/
theorem C31_lookup_release (hH : HashFn hf) (hr : Reach hf capacity c tr) {op : COp}
    (hop : (∃ k, op = .lookup k) ∨ ∃ h, op = .release h) (ha : Allowed tr op) :
    ∃ c' x, cstep hf c op = .ok (c', x) ∧
      ∀ k' : Slice, k'.WF → ∀ y, (Finds hf c' k' y ↔ Finds hf c k' y) := by
  obtain ⟨H, hH⟩ := hH
  have g := reach_inv hH hr
  rcases hop with ⟨k, rfl⟩ | ⟨h, rfl⟩
  · obtain ⟨s, A, s', A', x, hs, r, t, hx, e, r', hp, fr, t', g'⟩ := step_lookup g hH ha
    refine ⟨_, _, e, ?_⟩
    intro k' hk' y
    refine finds_step g (shardIndex_lt _) hs r g' hH r' hk' (fun _ => find_congr r r' ?_) y
    intro a
    rw [hp.mem_iff, fr.key]
  · obtain ⟨s, A, s', hs, r, t, e, r', fr, t', g'⟩ := step_release (hf := hf) g ha
    have hj : h.shard < 16 := by
      rcases Nat.lt_or_ge h.shard 16 with h1 | h1
      · exact h1
      · rw [List.getElem?_eq_none (by rw [g.len]; exact h1)] at hs; cases hs
    refine ⟨_, _, e, ?_⟩
    intro k' hk' y
    refine finds_step g hj hs r g' hH r' hk' (fun _ => find_congr r r' ?_) y
    intro a
    rw [A.release_all_perm.mem_iff, fr.key]

/-- C31: a key that was never inserted, or was erased and not inserted since, is not found — however
many other calls came in between. -/
theorem C31_not_found (hH : HashFn hf) (hr : Reach hf capacity c tr) {k : Slice} (hk : k.WF)
    (hcur : current tr k.bytes = none) : Finds hf c k none := by
  obtain ⟨H, hH⟩ := hH
  have g := reach_inv hH hr
  obtain ⟨s, A, hs, r, t⟩ := g.sh _ (shardIndex_lt (H k.bytes))
  refine (Finds_iff g hH hk hs r none).mpr ?_
  cases hfd : A.find s.heap.key k.bytes with
  | none => rfl
  | some a =>
    obtain ⟨h1, h2⟩ := find_mem hfd
    have := t.cur a h1
    rw [h2, hcur] at this
    cases this

/-! ## C32 -/

/-- C32: pruning one shard. -/
theorem C32_prune_shard (hH : HashFn hf) (hr : Reach hf capacity c tr) {i : Nat}
    (ha : Allowed tr (.pruneShard i)) :
    ∃ c', cstep hf c (.pruneShard i) = .ok (c', none) ∧
      ∀ h, Cached hf c' h ↔ Cached hf c h ∧ (h.shard = i → 0 < outstanding tr h) := by
  obtain ⟨H, hH⟩ := hH
  have g := reach_inv hH hr
  obtain ⟨s, A, s', hs, r, t, e, r', fr, t', g'⟩ := step_prune (hf := hf) g ha
  refine ⟨_, e, ?_⟩
  intro h
  by_cases hi : h.shard = i
  · rw [cached_own g ha g' hH r' t' hi, cached_at g hH hs r t hi]
    have hh : outstanding tr h = A.held h.addr := by
      rw [← t.outstanding_eq, ← hi]
    rw [hh]
    simp only [Abs.all, List.nil_append, List.mem_append, hi, forall_const]
    constructor
    · intro h1; exact ⟨Or.inr h1, r.l.busy0 _ h1⟩
    · rintro ⟨h1 | h1, h2⟩
      · have := r.l.idle0 _ h1; omega
      · exact h1
  · rw [cached_other g g' hH hi]
    simp [hi]

theorem prune_from (hH : HashFn hf) : ∀ (n i : Nat) {c : Sharded} {tr : CTrace}, i + n = 16 →
    Reach hf capacity c tr →
    ∃ c', pruneFrom c i n = .ok c' ∧ Reach hf capacity c' (pruneEvents i n ++ tr) ∧
      (∀ h, outstanding (pruneEvents i n ++ tr) h = outstanding tr h) ∧
      ∀ h, Cached hf c' h ↔ Cached hf c h ∧ (i ≤ h.shard → 0 < outstanding tr h)
  | 0, i, c, tr, hi, hr => by
    refine ⟨c, rfl, hr, fun _ => rfl, ?_⟩
    intro h
    constructor
    · intro hc
      obtain ⟨H, hH⟩ := hH
      have := Cached_shard (reach_inv hH hr) hH hc
      exact ⟨hc, fun h => by omega⟩
    · exact fun h => h.1
  | n + 1, i, c, tr, hi, hr => by
    have hlt : i < 16 := by omega
    obtain ⟨c1, e1, h1⟩ := C32_prune_shard hH hr (i := i) hlt
    have hr1 : Reach hf capacity c1 (⟨.pruneShard i, none⟩ :: tr) := Reach.step hr hlt e1
    obtain ⟨c', e', hr', ho', h'⟩ := prune_from hH n (i + 1) (by omega) hr1
    refine ⟨c', ?_, ?_, ?_, ?_⟩
    · simp only [cstep, bind, Except.bind] at e1
      rw [pruneFrom]
      cases hp : Sharded.PruneShard c i with
      | error f => rw [hp] at e1; cases e1
      | ok c2 =>
        rw [hp] at e1
        injection e1 with e1
        injection e1 with e1
        subst e1
        simp only [bind, Except.bind]
        exact e'
    · rw [pruneEvents, List.append_assoc]; exact hr'
    · intro h
      rw [pruneEvents, List.append_assoc]
      exact ho' h
    · intro h
      rw [h', h1]
      show (Cached hf c h ∧ (h.shard = i → 0 < outstanding tr h)) ∧ (i + 1 ≤ h.shard → 0 < outstanding tr h) ↔ _
      constructor
      · rintro ⟨⟨h1, h2⟩, h3⟩
        refine ⟨h1, fun h4 => ?_⟩
        rcases Nat.lt_or_ge i h.shard with h5 | h5
        · exact h3 h5
        · exact h2 (by omega)
      · rintro ⟨h1, h2⟩
        exact ⟨⟨h1, fun h3 => h2 (by omega)⟩, fun h3 => h2 (by omega)⟩

/-- C32: after Prune (run without other calls in between) an entry is in the cache exactly if it was there
before and a client references it.  The result is a state reached by the sixteen shard prunes. -/
theorem C32_prune (hH : HashFn hf) (hr : Reach hf capacity c tr) :
    ∃ c', Sharded.Prune c = .ok c' ∧ Reach hf capacity c' (pruneEvents 0 16 ++ tr) ∧
      ∀ h, Cached hf c' h ↔ Cached hf c h ∧ 0 < outstanding tr h := by
  obtain ⟨c', e, hr', -, h⟩ := prune_from hH 16 0 rfl hr
  refine ⟨c', e, hr', ?_⟩
  intro x
  rw [h]
  simp

/-! ## C33 -/

/-- C33: with capacity 0 no Lookup ever finds anything, TotalCharge is 0, a handle returned by Insert is
usable until it is released, and then its entry has been passed to the deleter. -/
theorem C33_capacity_zero (hH : HashFn hf) (hr : Reach hf 0 c tr) :
    (∀ k : Slice, k.WF → Finds hf c k none) ∧ Sharded.TotalCharge c = 0 ∧
    (∀ k v ch d, Allowed tr (.insert k v ch d) → ∃ c' h, cstep hf c (.insert k v ch d) = .ok (c', some h) ∧
      Sharded.Value c' h = .ok v) ∧
    ∀ h info, inserted tr h = some info →
      (0 < outstanding tr h → Sharded.Value c h = .ok info.value) ∧
      (outstanding tr h = 0 → deletions c.shards h = [⟨h.addr, info.deleter, info.key, info.value⟩]) := by
  have hH0 := hH
  obtain ⟨H, hH⟩ := hH
  have g := reach_inv hH hr
  have hp : perShard 0 = 0 := by decide
  have hnone : ∀ h, ¬ Cached hf c h := by
    intro h hc
    obtain ⟨s, A, hs, r, t⟩ := g.sh _ (Cached_shard g hH hc)
    have := (cached_at g hH hs r t rfl).mp hc
    rw [t.zero hp] at this
    cases this
  refine ⟨?_, ?_, ?_, ?_⟩
  · intro k hk
    obtain ⟨s, A, hs, r, t⟩ := g.sh _ (shardIndex_lt (H k.bytes))
    refine (Finds_iff g hH hk hs r none).mpr ?_
    rw [Abs.find, t.zero hp]; rfl
  · obtain ⟨n, ⟨L, h1, h2, h3⟩, h4⟩ := C29_total_charge hH0 hr
    have : L = [] := by
      rw [List.eq_nil_iff_forall_not_mem]
      exact fun h hm => hnone h ((h2 h).mp hm)
    rw [this] at h3
    rw [h4, ← h3]; rfl
  · intro k v ch d ha
    obtain ⟨s, A, s', A', hs, r, t, e, r', t', g', nd, hc, h0, h1⟩ := step_insert g hH ha
    refine ⟨_, _, e, ?_⟩
    have hr2 := Reach.step hr ha e
    obtain ⟨info, hi, hv, -⟩ := C27_held_handle (h := ⟨shardIndex (H k.bytes), s.heap.fresh⟩) hH0 hr2 (by
      rw [t'.outstanding_eq]
      have hz : s.capacity = 0 := by rw [t.capEq, hp]
      rw [h0 hz]
      show 0 < upd A.held s.heap.fresh 1 s.heap.fresh
      rw [upd_same]; decide)
    simp only [inserted, if_true] at hi
    injection hi with hi
    rw [hv, ← hi]
  · intro h info hi
    constructor
    · intro ho
      obtain ⟨info', h1, h2, -⟩ := C27_held_handle hH0 hr ho
      rw [hi] at h1
      injection h1 with h1
      rw [h2, h1]
    · intro ho
      have h1 := (C28_exactly_when hH0 hr h).mpr ⟨by rw [hi]; exact fun h => (nomatch h), ho, hnone h⟩
      obtain ⟨-, h2⟩ := C28_at_most_once hH0 hr h
      match hd : deletions c.shards h, h1 with
      | [x], _ =>
        obtain ⟨info', h3, h4⟩ := h2 x (by rw [hd]; simp)
        rw [hi] at h3
        injection h3 with h3
        rw [h4, h3]

/-! ## C34 -/

/-- C34: all ids handed out in a run (by any threads: each call is atomic, the run is their
interleaving, other calls may come in between) are distinct, up to 2^64 of them. -/
theorem C34_ids_distinct {ops : List (Option COp)} {c' : Sharded} {ids : List UInt64}
    (h : runIds hf c ops = .ok (c', ids)) (hlen : ids.length ≤ 2 ^ 64) : ids.Nodup := by
  rw [runIds_eq ops h]
  unfold List.Nodup
  rw [List.pairwise_map]
  refine List.Pairwise.imp_of_mem ?_ (List.nodup_range (n := ids.length))
  intro i j hi hj hne e
  rw [List.mem_range] at hi hj
  have h1 : UInt64.ofNat (i + 1) = UInt64.ofNat (j + 1) := by
    have := congrArg (fun x => x - c.lastId) e
    simpa [UInt64.add_comm, UInt64.add_sub_cancel] using this
  have h2 := congrArg UInt64.toNat h1
  rw [UInt64.toNat_ofNat', UInt64.toNat_ofNat'] at h2
  omega

/-! ## C35 -/

/-- C35: in every reachable table, Lookup of any (hash, key) — whatever the hash values — is exactly what
the history of insertions and removals says. -/
theorem C35_lookup_exact {h : Heap} {t : HTable} {m : TMap} (r : TReach h t m) {k : Slice} (hk : k.WF)
    (hash : UInt32) : tableLookup h t k hash = .ok (m (hash, k.bytes)) := by
  obtain ⟨C, E, ok, hn, hl, hm⟩ := TReach_inv r
  rw [tableLookup_spec ok hn hk, hm]

/-- C35: Insert succeeds (through any number of resizes) and returns the entry it replaces, if any. -/
theorem C35_insert {h : Heap} {t : HTable} {m : TMap} (r : TReach h t m) {a : Nat} (hl : h.live a = true)
    (hn : h.next (.node a) ≠ some (.node a)) (hf : a < h.fresh) (hnew : ∀ k, m k ≠ some a)
    (hsz : ∃ n, KeyCount m n ∧ n < 2 ^ 31) :
    ∃ h' t', tableInsert h t a = .ok (h', t', m (h.hash a, h.key a)) := by
  obtain ⟨h', t', e, -⟩ := (TReach_inv r).insert hl hn hf hnew hsz
  exact ⟨h', t', e⟩

/-- C35: Remove succeeds and returns the entry it removes, if any. -/
theorem C35_remove {h : Heap} {t : HTable} {m : TMap} (r : TReach h t m) {k : Slice} (hk : k.WF)
    (hash : UInt32) : ∃ h' t', tableRemove h t k hash = .ok (h', t', m (hash, k.bytes)) := by
  obtain ⟨h', t', e, -⟩ := (TReach_inv r).remove hk hash
  exact ⟨h', t', e⟩

/-- C35: the entry count is exact and never exceeds the number of buckets. -/
theorem C35_load {h : Heap} {t : HTable} {m : TMap} (r : TReach h t m) :
    KeyCount m t.elems.toNat ∧ t.elems.toNat ≤ t.length.toNat ∧ t.table.length = t.length.toNat := by
  have i := TReach_inv r
  refine ⟨i.count, ?_⟩
  obtain ⟨C, E, ok, hn, hl, hm⟩ := i
  exact ⟨by rw [ok.elems]; exact hl, ok.tlen⟩

/-- C35, the limit of the claim: growing a table to more than 2^31 entries never ends, however many
iterations of the growth loop are allowed. -/
theorem C35_resize_diverges (elems : UInt32) (he : 2 ^ 31 < elems.toNat) (fuel : Nat) :
    growLoop elems fuel 4 = .error .diverges :=
  growLoop_diverges elems he fuel 4 (Or.inr ⟨2, by decide, rfl⟩)

/-! ## C36 -/

/-- C36 for capacities up to 2^64 - 16: the shards together have at least the requested capacity and less
than 16 more.  Missing: the last fifteen values of the type, for which the claim is false
(`C36_capacity_lost`). -/
theorem C36_capacity_partial (hH : HashFn hf) (hr : Reach hf capacity c tr)
    (hcap : capacity.toNat ≤ 2 ^ 64 - 16) :
    capacity.toNat ≤ totalCapacity c ∧ totalCapacity c < capacity.toNat + 16 := by
  rw [total_capacity_eq hH hr, perShard_toNat, Nat.mod_eq_of_lt (by omega)]
  omega

/-- C36 is false for larger capacities: the cache then has capacity 0 and stores nothing. -/
theorem C36_capacity_lost (hH : HashFn hf) (hcap : 2 ^ 64 - 16 < capacity.toNat)
    (hr : Reach hf capacity c tr) : totalCapacity c = 0 := by
  have h1 : capacity.toNat < 2 ^ 64 := capacity.toNat_lt
  rw [total_capacity_eq hH hr, perShard_toNat]
  omega

/-! ## C37 -/

/-- C37: creating a cache and every allowed call on it complete without any fault: no null or dangling
pointer is dereferenced, no loop fails to end, no assertion fails. -/
theorem C37_no_fault (hH : HashFn hf) :
    (∃ c, newSharded capacity = .ok c) ∧
    ∀ c tr, Reach hf capacity c tr → ∀ op, Allowed tr op → ∃ c' x, cstep hf c op = .ok (c', x) := by
  refine ⟨init_ok capacity, ?_⟩
  intro c tr hr op ha
  obtain ⟨H, hH⟩ := hH
  obtain ⟨c', x, e, -⟩ := step_ok (reach_inv hH hr) hH ha
  exact ⟨c', x, e⟩

/-! ## The hypotheses are met -/

/-- In histories of fewer than 2^31 calls the size conditions in `Allowed` hold by themselves: what
remains is that Slices point at readable memory. -/
theorem allowed_short {tr : CTrace} (hlen : tr.length < 2 ^ 31) {k : Slice} (hk : k.WF) :
    (∀ v ch d, Allowed tr (.insert k v ch d)) ∧ Allowed tr (.lookup k) ∧ Allowed tr (.erase k) := by
  refine ⟨fun v ch d => ⟨hk, ?_⟩, ⟨hk, ?_⟩, hk⟩
  · intro ks hnd hks
    have h1 := nodup_length_le ks (insertKeys tr) hnd (fun k hk => current_insertKeys tr k (hks k hk))
    have h2 := insertKeys_length tr
    omega
  · intro h
    have := obtained_le tr h
    unfold outstanding; omega

/-- The conditions of `Allowed` that do not hold by themselves in short histories. -/
def okOp (tr : CTrace) : COp → Bool
  | .insert k _ _ _ => decide k.WF
  | .lookup k => decide k.WF
  | .release h => decide (released tr h < obtained tr h)
  | .erase k => decide k.WF
  | .pruneShard i => decide (i < 16)

/-- Run a list of calls if they are allowed (used in examples). -/
def crun (hf : Slice → M UInt32) : Sharded → CTrace → List COp → M (Sharded × CTrace)
  | c, tr, [] => .ok (c, tr)
  | c, tr, op :: ops => do
    cassert (okOp tr op)
    let (c, r) ← cstep hf c op
    crun hf c (⟨op, r⟩ :: tr) ops

/-- What `crun` computes is reachable: so the concrete histories below meet the hypotheses of the theorems
above. -/
theorem crun_reach : ∀ (ops : List COp) {c c' : Sharded} {tr tr' : CTrace},
    tr.length + ops.length < 2 ^ 31 → Reach hf capacity c tr → crun hf c tr ops = .ok (c', tr') →
    Reach hf capacity c' tr'
  | [], c, c', tr, tr', _, hr, e => by
    injection e with e
    injection e with e1 e2
    subst e1; subst e2; exact hr
  | op :: ops, c, c', tr, tr', hlen, hr, e => by
    simp only [List.length_cons] at hlen
    rw [crun] at e
    cases ho : okOp tr op with
    | false => rw [ho] at e; cases e
    | true =>
      rw [ho] at e
      simp only [cassert, if_true, bind, Except.bind] at e
      cases h1 : cstep hf c op with
      | error f => rw [h1] at e; cases e
      | ok p =>
        rw [h1] at e
        refine crun_reach ops (by simp only [List.length_cons]; omega) (Reach.step hr ?_ h1) e
        have hl : tr.length < 2 ^ 31 := by omega
        cases op with
        | insert k v ch d => exact (allowed_short hl (by simpa [okOp] using ho)).1 v ch d
        | lookup k => exact (allowed_short hl (by simpa [okOp] using ho)).2.1
        | release h => simpa [okOp, Allowed] using ho
        | erase k => exact (allowed_short hl (by simpa [okOp] using ho)).2.2
        | pruneShard i => simpa [okOp, Allowed] using ho

def keyA : Slice := Slice.ofBytes [97]
def keyB : Slice := Slice.ofBytes [98]
def keyC : Slice := Slice.ofBytes [99]

set_option maxRecDepth 10000 in
/-- C29: an entry larger than the capacity stays after its release: the cache is over its capacity although
no client holds a reference.  (Only the next Insert into that shard evicts it.) -/
theorem C29_over_capacity_without_references :
    ∃ c tr, Reach HashSlice 16 c tr ∧ (∀ h, outstanding tr h = 0) ∧
      totalCapacity c = 16 ∧ Sharded.TotalCharge c = 100 := by
  obtain ⟨c0, e0⟩ := init_ok 16
  have hr0 : Reach HashSlice 16 c0 [] := Reach.init e0
  have hcap : perShard 16 ≠ 0 := by decide
  have ha := (allowed_short (tr := []) (by decide) (k := keyA) (by decide)).1 7 100 9
  obtain ⟨c1, h1, e1, -, hf1, -⟩ := C26_insert_found HashSlice_HashFn hr0 hcap ha
  have hr1 := Reach.step hr0 ha e1
  have ha2 : Allowed (⟨.insert keyA 7 100 9, some h1⟩ :: []) (.release h1) := by
    simp [Allowed, released, obtained]
  obtain ⟨c2, x, e2, hsame⟩ := C31_lookup_release HashSlice_HashFn hr1 (Or.inr ⟨h1, rfl⟩) ha2
  have hr2 := Reach.step hr1 ha2 e2
  have hx : x = none := by
    obtain ⟨H, hH⟩ := HashSlice_HashFn
    obtain ⟨s, A, s', -, -, -, e', -⟩ := step_release (hf := HashSlice) (reach_inv hH hr1) ha2
    rw [e2] at e'
    injection e' with e'
    injection e'
  refine ⟨c2, _, hr2, ?_, ?_, ?_⟩
  · intro h
    simp only [outstanding, obtained, released, Option.some.injEq]
    split <;> simp
  · rw [total_capacity_eq HashSlice_HashFn hr2]; decide
  · obtain ⟨n, ⟨L, hL1, hL2, hL3⟩, htot⟩ := C29_total_charge HashSlice_HashFn hr2
    have hc : Cached HashSlice c2 h1 := by
      obtain ⟨c3, e3⟩ := (hsame keyA (by decide) _).mpr hf1
      exact ⟨keyA, c3, by decide, e3⟩
    have honly : ∀ h, Cached HashSlice c2 h → h = h1 := by
      rintro h ⟨k, c3, hk, e3⟩
      have ha3 := (allowed_short (tr := [⟨.release h1, x⟩, ⟨.insert keyA 7 100 9, some h1⟩]) (by simp) hk).2.1
      obtain ⟨c4, r, e4, hh⟩ := C26_lookup HashSlice_HashFn hr2 ha3
      have e3' : cstep HashSlice c2 (.lookup k) = .ok (c3, some h) := e3
      rw [e3'] at e4
      injection e4 with e4
      injection e4 with e4 e5
      have := (hh h e5.symm).1
      simp only [current] at this
      split at this
      · injection this with this; exact this.symm
      · cases this
    have hL : L = [h1] := by
      have hm := (hL2 h1).mpr hc
      match L, hL1, hm with
      | [y], _, hm => rw [List.mem_singleton] at hm; rw [hm]
      | y :: z :: L, hn, _ =>
        exfalso
        have h3 := honly y ((hL2 y).mp (by simp))
        have h4 := honly z ((hL2 z).mp (by simp))
        subst h3; subst h4
        simp at hn
    rw [hL] at hL3
    rw [htot, ← hL3]
    simp [chargeOf, inserted]

set_option maxRecDepth 100000 in
/-- A concrete history: three keys whose hashes all fall into the same shard (hash 0) with capacity 2 each,
one eviction, one erase; what the model computes. -/
example : ((do
    let c ← newSharded 32
    let (c, tr) ← crun (fun _ => .ok 0) c [] [.insert keyA 1 1 11, .release ⟨0, 0⟩, .insert keyB 2 1 12,
      .release ⟨0, 1⟩, .lookup keyA, .release ⟨0, 0⟩, .insert keyC 3 1 13, .lookup keyB, .lookup keyA,
      .erase keyC, .lookup keyC]
    return (tr.map (·.result), Sharded.TotalCharge c, deletions c.shards ⟨0, 1⟩)) :
      M (List (Option Handle) × UInt64 × List Deletion)) =
    .ok ([none, none, some ⟨0, 0⟩, none, some ⟨0, 2⟩, none, some ⟨0, 0⟩, none, some ⟨0, 1⟩, none,
      some ⟨0, 0⟩], 1, [⟨1, 12, [98], 2⟩]) := by
  decide +kernel

/-- C35: two handles with the same hash value in one table; both are found. -/
example : ∃ h t m, TReach h t m ∧ m (5, [97]) = some 0 ∧ m (5, [98]) = some 1 ∧
    tableLookup h t keyA 5 = .ok (some 0) ∧ tableLookup h t keyB 5 = .ok (some 1) ∧
    tableLookup h t keyB 4 = .ok none := by
  let h0 := (newHandle (newHandle emptyHeap [97] 5 1 1 1).1 [98] 5 2 2 2).1
  have h00 : ∃ h1 t1, Resize h0 ⟨0, 0, []⟩ = .ok (h1, t1) ∧ h1.live 0 = true ∧ h1.live 1 = true ∧
      h1.next (.node 0) = none ∧ h1.next (.node 1) = none ∧ h1.fresh = 2 ∧ h1.hash = h0.hash ∧
      h1.key = h0.key := ⟨_, _, rfl, rfl, rfl, rfl, rfl, rfl, rfl, rfl⟩
  obtain ⟨h1, t1, e1, l0, l1, n0, n1, f, hh, hk⟩ := h00
  have r1 := TReach.init e1
  have k0 : KeyCount (fun _ => none) 0 := ⟨[], by simp, by simp, rfl⟩
  have e2 := tableInsert_spec_example h1 t1 r1 l0 (by rw [n0]; simp) (by omega) (by simp) ⟨0, k0, by decide⟩
  obtain ⟨h2, t2, e2, g1, g2, g3, g4, g5⟩ := e2
  have r2 := TReach.insert r1 l0 (by rw [n0]; simp) (by omega) (by simp) ⟨0, k0, by decide⟩ e2
  have i2 := TReach_inv r2
  have hne : ∀ k, (upd (fun _ => none) (h1.hash 0, h1.key 0) (some 0) : TMap) k ≠ some 1 := by
    intro k; rw [upd_apply]; split <;> simp
  have hc : KeyCount (upd (fun _ => none) (h1.hash 0, h1.key 0) (some 0) : TMap) 1 :=
    ⟨[(h1.hash 0, h1.key 0)], by simp, by intro k; rw [upd_apply]; split <;> simp_all, rfl⟩
  have l1' : h2.live 1 = true := by rw [g1]; exact l1
  have n1' : h2.next (.node 1) ≠ some (.node 1) := by rw [g2, n1]; simp
  obtain ⟨h3, t3, e3⟩ := C35_insert r2 l1' n1' (by rw [g3, f]; decide) hne ⟨1, hc, by decide⟩
  have r3 := TReach.insert r2 l1' n1' (by rw [g3, f]; decide) hne ⟨1, hc, by decide⟩ e3
  have ka : (h1.hash 0, h1.key 0) = (5, [97]) := by rw [hh, hk]; rfl
  have kb : (h2.hash 1, h2.key 1) = (5, [98]) := by rw [g4, g5, hh, hk]; rfl
  rw [ka, kb] at r3
  refine ⟨h3, t3, _, r3, rfl, rfl, ?_, ?_, ?_⟩
  · exact C35_lookup_exact r3 (by decide) 5
  · exact C35_lookup_exact r3 (by decide) 5
  · exact C35_lookup_exact r3 (by decide) 4

end Props
end Lsmdb
