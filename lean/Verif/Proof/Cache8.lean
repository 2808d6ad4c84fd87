import Verif.Proof.Cache7

/-! # Destruction of the cache, and the hash table on its own -/

namespace Lsmdb
namespace Cache
open Spec

/-! ## Destructor -/

theorem destroyLoop_spec : ∀ (L : List Nat) (fuel : Nat) (s : Shard) (e : Option Ptr) (pv : Ptr → Option Ptr) (q : Ptr),
    Seg s.heap.next pv (q :: L.map Ptr.node ++ [.lru]) → e = s.heap.next q → L.length ≤ fuel → L.Nodup →
    (∀ a ∈ L, s.heap.live a = true ∧ s.heap.inCache a = true ∧ s.heap.refs a = 1 ∧
      s.heap.next (.node a) ≠ some (.node a)) →
    ∃ s', destroyLoop fuel s e = .ok s' ∧ s'.log = s.log ++ L.map (deletion s.heap) ∧
      (∀ a, s'.heap.live a = true ↔ s.heap.live a = true ∧ a ∉ L)
  | [], fuel, s, e, pv, q, hseg, he, _, _, _ => by
    have : s.heap.next q = some .lru := hseg.1
    rw [this] at he
    subst he
    refine ⟨s, ?_, by simp, by simp⟩
    rw [destroyLoop.eq_def]; simp
  | a :: L, 0, s, e, pv, q, _, _, hf, _, _ => by simp at hf
  | a :: L, fuel + 1, s, e, pv, q, hseg, he, hf, hnd, hL => by
    have hq : s.heap.next q = some (.node a) := hseg.1
    rw [hq] at he
    subst he
    obtain ⟨hl, hc, hr, hs⟩ := hL a (by simp)
    rw [List.nodup_cons] at hnd
    let h1 : Heap := { s.heap with inCache := upd s.heap.inCache a false }
    have hu := unref_delete (h := h1) (log := s.log) (a := a) hl
      (by show (s.heap.refs a).toNat = 1; rw [hr]; rfl) (by show upd _ _ _ _ = _; rw [upd_same]) hs
    obtain ⟨s', e', hlog, hlive⟩ := destroyLoop_spec L fuel
      { s with heap := { h1 with refs := upd h1.refs a (h1.refs a - 1), live := upd h1.live a false },
               log := s.log ++ [deletion h1 a] } (s.heap.next (.node a)) pv (.node a) hseg.2.2 rfl
      (by simp at hf; omega) hnd.2 (by
        intro b hb
        have hne : b ≠ a := fun e => hnd.1 (e ▸ hb)
        obtain ⟨g1, g2, g3, g4⟩ := hL b (by simp [hb])
        refine ⟨?_, ?_, ?_, g4⟩
        · show upd s.heap.live a false b = true
          rw [upd_other _ _ hne]; exact g1
        · show upd s.heap.inCache a false b = true
          rw [upd_other _ _ hne]; exact g2
        · show upd s.heap.refs a _ b = 1
          rw [upd_other _ _ hne]; exact g3)
    refine ⟨s', ?_, ?_, ?_⟩
    · rw [destroyLoop.eq_def]
      simp only [ne_eq, Option.some.injEq, reduceCtorEq, not_false_eq_true, if_true, bind, Except.bind,
        deref, hl]
      rw [hc]
      simp only [cassert, if_true, hr, decide_true]
      simp only [h1] at hu e'
      rw [hu]
      exact e'
    · rw [hlog]
      show (s.log ++ [deletion s.heap a]) ++ L.map (deletion s.heap) = _
      rw [List.append_assoc]; rfl
    · intro b
      rw [hlive]
      show upd s.heap.live a false b = true ∧ b ∉ L ↔ _
      by_cases hb : b = a
      · subst hb; rw [upd_same]; simp
      · rw [upd_other _ _ hb]; simp [hb]

theorem destroyShard_spec {H : Bytes → UInt32} {s : Shard} {A : Abs} (r : Rel H s A) (hb : A.busy = []) :
    ∃ s', destroyShard s = .ok s' ∧ s'.log = (A.dead ++ A.idle).map (deletion s.heap) := by
  have h1 := r.l.dl_use.next_head
  rw [hb] at h1
  have hmem : ∀ a ∈ A.idle, a ∈ A.all := fun a ha => List.mem_append.mpr (Or.inl ha)
  obtain ⟨s', e, hlog, -⟩ := destroyLoop_spec A.idle s.heap.fresh s (s.heap.next .lru) s.heap.prev .lru
    r.l.dl_lru rfl (idle_length r) (List.nodup_append.mp r.l.nodup).1 (by
      intro a ha
      have hl := r.l.live_all (hmem a ha)
      refine ⟨hl, ?_, ?_, r.l.nself a hl⟩
      · rw [r.l.inC a hl]; simp [hmem a ha]
      · have := r.l.refs a hl
        rw [if_pos (hmem a ha), r.l.idle0 a ha] at this
        exact u32_eq_one.mpr this)
  refine ⟨s', ?_, ?_⟩
  · unfold destroyShard
    rw [h1]
    simp only [List.map_nil, List.headD_nil, decide_true, cassert, if_true, bind, Except.bind]
    exact e
  · rw [hlog, r.l.log, List.map_append]

/-- After destroying all shards with no references outstanding, the log of shard `i` lists every handle
ever allocated in it exactly once. -/
theorem destroyShards_spec {H : Bytes → UInt32} : ∀ (L : List Shard),
    (∀ (i : Nat) (s : Shard), L[i]? = some s → ∃ A, Rel H s A ∧ A.busy = []) →
    ∃ L', destroyShards L = .ok L' ∧ L'.length = L.length ∧
      ∀ (i : Nat) (s : Shard) (A : Abs), L[i]? = some s → Rel H s A → A.busy = [] →
        ∃ s' : Shard, L'[i]? = some s' ∧ s'.log = (A.dead ++ A.idle).map (deletion s.heap)
  | [], _ => ⟨[], rfl, rfl, fun i s A h => by simp at h⟩
  | s :: L, h => by
    obtain ⟨A, r, hb⟩ := h 0 s rfl
    obtain ⟨s', e, hlog⟩ := destroyShard_spec r hb
    obtain ⟨L', e', hlen, hL⟩ := destroyShards_spec L (fun i s hi => h (i + 1) s hi)
    refine ⟨s' :: L', ?_, by simp [hlen], ?_⟩
    · simp only [destroyShards, bind, Except.bind, e, e']
      rfl
    · intro i t B hi rB hB
      cases i with
      | zero =>
        injection hi with hi
        subst hi
        refine ⟨s', rfl, ?_⟩
        obtain ⟨s'', e'', hlog''⟩ := destroyShard_spec rB hB
        rw [e] at e''
        injection e'' with e''
        subst e''
        exact hlog''
      | succ i => exact hL i t B hi rB hB

/-! ## Hash table -/

/-- The map stored in a table with the entries `E`. -/
def TInv (h : Heap) (t : HTable) (m : TMap) : Prop :=
  ∃ C E, TabOK h t C E ∧ Nodes h E ∧ E.length ≤ t.length.toNat ∧
    ∀ k : UInt32 × Bytes, m k = lookupIn h E k.2 k.1

theorem lookupIn_iff {h : Heap} {t : HTable} {C : List (List Nat)} {E : List Nat} (ok : TabOK h t C E)
    (kb : Bytes) (hash : UInt32) (a : Nat) :
    lookupIn h E kb hash = some a ↔ a ∈ E ∧ h.hash a = hash ∧ h.key a = kb := by
  constructor
  · intro hh
    have h1 := List.mem_of_find?_eq_some hh
    have h2 := List.find?_some hh
    simp only [matches_, decide_eq_true_eq] at h2
    exact ⟨h1, h2⟩
  · rintro ⟨h1, h2⟩
    exact lookupIn_some ok h1 (by simp [matches_, h2])

theorem option_ext' {α : Type} {x y : Option α} (h : ∀ a, x = some a ↔ y = some a) : x = y := by
  cases x with
  | none =>
    cases y with
    | none => rfl
    | some b => exact absurd ((h b).mpr rfl) (by simp)
  | some a => exact ((h a).mp rfl).symm

theorem TInv.count {h : Heap} {t : HTable} {m : TMap} (i : TInv h t m) : KeyCount m t.elems.toNat := by
  obtain ⟨C, E, ok, hn, hload, hm⟩ := i
  refine ⟨E.map (fun a => (h.hash a, h.key a)), ?_, ?_, by simp [ok.elems]⟩
  · unfold List.Nodup
    rw [List.pairwise_map]
    refine List.Pairwise.imp_of_mem ?_ ok.nodup
    intro a b ha hb hne e
    injection e with e1 e2
    exact hne (ok.uniq a ha b hb e1 e2)
  · rintro ⟨hash, kb⟩
    rw [hm, List.mem_map]
    constructor
    · rintro ⟨a, ha, e⟩
      injection e with e1 e2
      rw [(lookupIn_iff ok kb hash a).mpr ⟨ha, e1, e2⟩]
      exact fun h => nomatch h
    · intro hne
      cases hl : lookupIn h E kb hash with
      | none => exact absurd hl hne
      | some a =>
        obtain ⟨h1, h2, h3⟩ := (lookupIn_iff ok kb hash a).mp hl
        exact ⟨a, h1, by rw [h2, h3]⟩

theorem nodup_length_le {α : Type} [BEq α] [LawfulBEq α] : ∀ (L L' : List α), L.Nodup → (∀ x ∈ L, x ∈ L') → L.length ≤ L'.length
  | [], _, _, _ => Nat.zero_le _
  | a :: L, L', hn, hs => by
    rw [List.nodup_cons] at hn
    have ha := hs a (by simp)
    have := nodup_length_le L (L'.erase a) hn.2 (by
      intro x hx
      have hne : x ≠ a := fun e => hn.1 (e ▸ hx)
      exact (List.mem_erase_of_ne hne).mpr (hs x (by simp [hx])))
    have hp := (List.perm_cons_erase ha).length_eq
    simp only [List.length_cons] at hp ⊢
    omega

theorem KeyCount_unique {m : TMap} {n n' : Nat} (h : KeyCount m n) (h' : KeyCount m n') : n = n' := by
  obtain ⟨ks, nd, hk, rfl⟩ := h
  obtain ⟨ks', nd', hk', rfl⟩ := h'
  exact Nat.le_antisymm (nodup_length_le _ _ nd (fun x hx => (hk' x).mpr ((hk x).mp hx)))
    (nodup_length_le _ _ nd' (fun x hx => (hk x).mpr ((hk' x).mp hx)))

theorem upd_apply {α β : Type} [DecidableEq α] (f : α → β) (a : α) (b : β) (x : α) :
    upd f a b x = if x = a then b else f x := by
  by_cases h : x = a
  · subst h; rw [upd_same, if_pos rfl]
  · rw [upd_other _ _ h, if_neg h]

theorem TInv.insert {h : Heap} {t : HTable} {m : TMap} (i : TInv h t m) {a : Nat} (hla : h.live a = true)
    (hna : h.next (.node a) ≠ some (.node a)) (hfa : a < h.fresh) (hnew : ∀ k, m k ≠ some a)
    (hsz : ∃ n, KeyCount m n ∧ n < 2 ^ 31) :
    ∃ h' t', tableInsert h t a = .ok (h', t', m (h.hash a, h.key a)) ∧
      TInv h' t' (upd m (h.hash a, h.key a) (some a)) := by
  have hc := i.count
  obtain ⟨C, E, ok, hn, hload, hm⟩ := i
  obtain ⟨n, hn1, hn2⟩ := hsz
  have := KeyCount_unique hc hn1
  rw [ok.elems] at this
  have haE : a ∉ E := by
    intro ha
    refine hnew (h.hash a, h.key a) ?_
    rw [hm]
    exact (lookupIn_iff ok _ _ _).mpr ⟨ha, rfl, rfl⟩
  obtain ⟨nh', t', C', e, ok', hl'⟩ := tableInsert_spec ok hn haE hla hna hfa (by omega)
  refine ⟨_, t', ?_, C', _, ok', ?_, hl' hload, ?_⟩
  · rw [hm]; exact e
  · intro b hb
    rcases List.mem_cons.mp hb with rfl | hb
    · exact ⟨hla, hna, hfa⟩
    · refine hn b ?_
      cases ho : lookupIn h E (h.key a) (h.hash a) with
      | none => rw [ho] at hb; exact hb
      | some o => rw [ho] at hb; exact List.mem_of_mem_erase hb
  · rintro ⟨hash, kb⟩
    rw [upd_apply]
    apply option_ext'
    intro b
    rw [lookupIn_iff ok' kb hash b]
    simp only []
    have hmem : b ∈ without E (lookupIn h E (h.key a) (h.hash a)) ↔
        b ∈ E ∧ ¬ (h.hash b = h.hash a ∧ h.key b = h.key a) := by
      cases ho : lookupIn h E (h.key a) (h.hash a) with
      | none =>
        show b ∈ E ↔ _
        constructor
        · intro hb
          refine ⟨hb, fun hh => ?_⟩
          have := (lookupIn_iff ok (h.key a) (h.hash a) b).mpr ⟨hb, hh⟩
          rw [ho] at this; cases this
        · exact fun hh => hh.1
      | some o =>
        show b ∈ E.erase o ↔ _
        rw [ok.nodup.mem_erase_iff]
        have ho' := (lookupIn_iff ok _ _ _).mp ho
        constructor
        · rintro ⟨h1, h2⟩
          refine ⟨h2, fun hh => h1 ?_⟩
          exact ok.uniq b h2 o ho'.1 (by rw [hh.1, ho'.2.1]) (by rw [hh.2, ho'.2.2])
        · rintro ⟨h1, h2⟩
          refine ⟨fun e => h2 ?_, h1⟩
          rw [e]; exact ho'.2
    rw [List.mem_cons, hmem]
    by_cases hk : (hash, kb) = (h.hash a, h.key a)
    · rw [if_pos hk]
      injection hk with h1 h2
      subst h1; subst h2
      constructor
      · intro hh
        injection hh with hh
        subst hh
        exact ⟨Or.inl rfl, rfl, rfl⟩
      · rintro ⟨rfl | hb, h1, h2⟩
        · rfl
        · exact absurd ⟨h1, h2⟩ hb.2
    · rw [if_neg hk, hm, lookupIn_iff ok]
      constructor
      · rintro ⟨h1, h2, h3⟩
        refine ⟨Or.inr ⟨h1, fun hh => hk ?_⟩, h2, h3⟩
        exact Prod.ext (h2.symm.trans hh.1) (h3.symm.trans hh.2)
      · rintro ⟨rfl | hb, h1, h2⟩
        · exact absurd (Prod.ext h1.symm h2.symm) hk
        · exact ⟨hb.1, h1, h2⟩

theorem TInv.remove {h : Heap} {t : HTable} {m : TMap} (i : TInv h t m) {k : Slice} (hk : k.WF)
    (hash : UInt32) :
    ∃ h' t', tableRemove h t k hash = .ok (h', t', m (hash, k.bytes)) ∧
      TInv h' t' (upd m (hash, k.bytes) none) := by
  obtain ⟨C, E, ok, hn, hload, hm⟩ := i
  cases ho : lookupIn h E k.bytes hash with
  | none =>
    refine ⟨h, t, ?_, C, E, ok, hn, hload, ?_⟩
    · rw [hm]; simp only []; rw [ho]; exact tableRemove_none ok hn hk hash ho
    · intro k'
      rw [upd_apply]
      split
      · rename_i e; subst e; exact ho.symm
      · exact hm k'
  | some o =>
    obtain ⟨nh', t', C', e, ok', hl⟩ := tableRemove_some ok hn hk hash ho
    refine ⟨_, t', ?_, C', _, ok', ?_, ?_, ?_⟩
    · rw [hm]; simp only []; rw [ho]; exact e
    · intro b hb; exact hn b (List.mem_of_mem_erase hb)
    · rw [hl]
      have := List.length_erase_le (a := o) (l := E)
      omega
    · rintro ⟨hash', kb⟩
      rw [upd_apply]
      have ho' := (lookupIn_iff ok _ _ _).mp ho
      apply option_ext'
      intro b
      rw [lookupIn_iff ok' kb hash' b, ok.nodup.mem_erase_iff]
      by_cases hk : (hash', kb) = (hash, k.bytes)
      · rw [if_pos hk]
        injection hk with h1 h2
        subst h1; subst h2
        constructor
        · intro hh; cases hh
        · rintro ⟨⟨h1, h2⟩, h3, h4⟩
          exact absurd (ok.uniq b h2 o ho'.1 (by rw [ho'.2.1]; exact h3) (by rw [ho'.2.2]; exact h4)) h1
      · rw [if_neg hk, hm, lookupIn_iff ok]
        constructor
        · rintro ⟨h1, h2, h3⟩
          refine ⟨⟨fun e => hk ?_, h1⟩, h2, h3⟩
          subst e
          exact Prod.ext (h2.symm.trans ho'.2.1) (h3.symm.trans ho'.2.2)
        · rintro ⟨⟨h1, h2⟩, h3, h4⟩
          exact ⟨h2, h3, h4⟩

theorem TInv.init {h h' : Heap} {t : HTable} (e : Resize h ⟨0, 0, []⟩ = .ok (h', t)) :
    TInv h' t (fun _ => none) := by
  obtain ⟨nh', t', C', e', hC, hload⟩ := Resize_core (h := h) (t := ⟨0, 0, []⟩) (C := [])
    (E := []) trivial (List.Perm.refl _) (by simp) rfl (by simp) (by simp) (by simp)
  rw [e] at e'
  injection e' with e'
  injection e' with e1 e2
  subst e1; subst e2
  exact ⟨C', [], hC, (fun a ha => absurd ha (by simp)), hload, fun _ => rfl⟩

theorem TReach_inv {h : Heap} {t : HTable} {m : TMap} (r : TReach h t m) : TInv h t m := by
  induction r with
  | init e => exact TInv.init e
  | insert _ h1 h2 h3 h4 h5 e ih =>
    obtain ⟨h', t', e', i'⟩ := ih.insert h1 h2 h3 h4 h5
    rw [e] at e'
    injection e' with e'
    injection e' with e1 e2
    injection e2 with e2 e3
    subst e1; subst e2
    exact i'
  | remove _ hk e ih =>
    rename_i hash _ _ _ _
    obtain ⟨h', t', e', i'⟩ := ih.remove hk hash
    rw [e] at e'
    injection e' with e'
    injection e' with e1 e2
    injection e2 with e2 e3
    subst e1; subst e2
    exact i'

/-- The growth loop never ends when more than 2^31 entries are wanted. -/
theorem growLoop_diverges (elems : UInt32) (he : 2 ^ 31 < elems.toNat) : ∀ (fuel : Nat) (n : UInt32),
    (n = 0 ∨ ∃ k, k < 32 ∧ n.toNat = 2 ^ k) → growLoop elems fuel n = .error .diverges
  | 0, _, _ => rfl
  | fuel + 1, n, hn => by
    rw [growLoop]
    have hlt : n < elems := by
      rw [UInt32.lt_iff_toNat_lt]
      rcases hn with rfl | ⟨k, hk, hn⟩
      · show 0 < _; omega
      · rw [hn]
        exact Nat.lt_of_le_of_lt (Nat.pow_le_pow_right (by omega) (by omega)) he
    rw [if_pos hlt]
    refine growLoop_diverges elems he fuel (n * 2) ?_
    rcases hn with rfl | ⟨k, hk, hn⟩
    · exact Or.inl rfl
    · rcases Nat.lt_or_ge k 31 with h | h
      · right
        refine ⟨k + 1, by omega, ?_⟩
        rw [UInt32.toNat_mul, hn]
        show 2 ^ k * 2 % 2 ^ 32 = _
        rw [← Nat.pow_succ]
        exact Nat.mod_eq_of_lt (Nat.pow_lt_pow_right (by omega) (by omega))
      · left
        have hk31 : k = 31 := by omega
        subst hk31
        apply UInt32.toNat_inj.mp
        rw [UInt32.toNat_mul, hn]
        rfl

end Cache
end Lsmdb
