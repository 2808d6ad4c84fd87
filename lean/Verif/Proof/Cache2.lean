import Verif.Proof.Cache1

/-! # The hash table: `Resize`, `Insert`, `Remove` -/

namespace Lsmdb
namespace Cache

theorem growLoop_spec (elems : UInt32) (he : elems.toNat ≤ 2 ^ 31) :
    ∀ (fuel k : Nat) (n : UInt32), 2 ≤ k → k ≤ 31 → n.toNat = 2 ^ k → 32 ≤ fuel + k →
      ∃ n' k', growLoop elems fuel n = .ok n' ∧ 2 ≤ k' ∧ k' < 32 ∧ n'.toNat = 2 ^ k' ∧
        elems.toNat ≤ n'.toNat
  | 0, k, n, _, _, _, _ => by omega
  | fuel + 1, k, n, hk, hk2, hn, hf => by
    rw [growLoop]
    by_cases hlt : n < elems
    · rw [if_pos hlt]
      rw [UInt32.lt_iff_toNat_lt] at hlt
      have hk31 : k < 31 := by
        rcases Nat.lt_or_ge k 31 with h | h
        · exact h
        · have : k = 31 := by omega
          subst this; omega
      have hn2 : (n * 2).toNat = 2 ^ (k + 1) := by
        rw [UInt32.toNat_mul, hn, Nat.pow_succ]
        apply Nat.mod_eq_of_lt
        have : 2 ^ k * 2 = 2 ^ (k + 1) := (Nat.pow_succ _ _).symm
        have h3 : (2 : UInt32).toNat = 2 := rfl
        rw [h3, this]
        exact Nat.pow_lt_pow_right (a := 2) (m := k + 1) (n := 32) (by decide) (by omega)
      exact growLoop_spec elems he fuel (k + 1) (n * 2) (by omega) (by omega) hn2 (by omega)
    · rw [if_neg hlt]
      rw [UInt32.lt_iff_toNat_lt] at hlt
      exact ⟨n, k, rfl, hk, by omega, hn, by omega⟩

/-- The new table under construction: chains `N`. -/
structure NewOK (nh : Nat → Option Nat) (hash : Nat → UInt32) (len : UInt32) (nt : List (Option Nat))
    (N : List (List Nat)) : Prop where
  tlen : nt.length = len.toNat
  chains : Chains nh nt N
  bucket : ∀ i L, N[i]? = some L → ∀ a ∈ L, bucketOf (hash a) len = i

theorem moveChain_spec (len : UInt32) (hpos : 0 < len.toNat) :
    ∀ (L : List Nat) (fuel : Nat) (h : Heap) (nt : List (Option Nat)) (p : Option Nat)
      (count : UInt32) (N : List (List Nat)),
      NewOK h.nextHash h.hash len nt N → HChain h.nextHash p L → L.Nodup →
      (∀ a ∈ L, h.live a = true) → (∀ a ∈ L, a ∉ N.flatten) → L.length ≤ fuel →
      ∃ nh' nt' N', moveChain len fuel h nt p count =
          .ok ({ h with nextHash := nh' }, nt', count + UInt32.ofNat L.length) ∧
        NewOK nh' h.hash len nt' N' ∧ N'.flatten.Perm (L ++ N.flatten) ∧
        (∀ x, x ∉ L → nh' x = h.nextHash x)
  | [], fuel, h, nt, p, count, N, hN, hc, _, _, _, _ => by
    have hp : p = none := hc
    subst hp
    refine ⟨h.nextHash, nt, N, ?_, hN, by simp, fun _ _ => rfl⟩
    rw [moveChain]
    simp
  | a :: L, 0, _, _, _, _, _, _, _, _, _, _, hf => by simp at hf
  | a :: L, fuel + 1, h, nt, p, count, N, hN, hc, hnd, hl, hdis, hf => by
    obtain ⟨hp, hc'⟩ := hc
    subst hp
    have hla := hl a (by simp)
    have hlt := bucketOf_lt (hash := h.hash a) hpos
    obtain ⟨tp, q, tq, cp, M, cq, h1, h2, h3, h4, h5, h6, h7⟩ :=
      hN.chains.split (bucketOf (h.hash a) len) (by rw [hN.tlen]; exact hlt)
    have hrd : nt[bucketOf (h.hash a) len]? = some q := by rw [h1, ← h3]; simp
    have haN : a ∉ N.flatten := hdis a (by simp)
    have hnd' := List.nodup_cons.mp hnd
    -- the state after moving `a`
    have hN' : NewOK (upd h.nextHash a q) h.hash len (tp ++ some a :: tq) (cp ++ (a :: M) :: cq) := by
      have fr : ∀ x ∈ N.flatten, upd h.nextHash a q x = h.nextHash x :=
        fun x hx => upd_other _ _ (fun e => haN (e ▸ hx))
      rw [h2] at fr
      simp only [List.flatten_append, List.flatten_cons, List.mem_append] at fr
      refine ⟨?_, ?_, ?_⟩
      · rw [← hN.tlen, h1]; simp
      · refine Chains.append (h5.congr (fun x hx => fr x (Or.inl hx))) ⟨⟨rfl, ?_⟩, ?_⟩
        · rw [upd_same]
          exact h6.congr (fun x hx => fr x (Or.inr (Or.inl hx)))
        · exact h7.congr (fun x hx => fr x (Or.inr (Or.inr hx)))
      · intro i L' hi b hb
        by_cases e : i = cp.length
        · subst e
          simp at hi
          subst hi
          rcases List.mem_cons.mp hb with rfl | hb
          · exact h4.symm
          · exact hN.bucket cp.length M (by rw [h2]; simp) b hb
        · refine hN.bucket i L' ?_ b hb
          rw [h2]
          rw [← hi]
          by_cases hlt' : i < cp.length
          · rw [List.getElem?_append_left hlt', List.getElem?_append_left hlt']
          · rw [List.getElem?_append_right (by omega), List.getElem?_append_right (by omega)]
            obtain ⟨j, hj⟩ : ∃ j, i - cp.length = j + 1 := ⟨i - cp.length - 1, by omega⟩
            rw [hj]; simp
    obtain ⟨nh', nt', N', hm, hok, hperm, hfr⟩ := moveChain_spec len hpos L fuel
      { h with nextHash := upd h.nextHash a q } (tp ++ some a :: tq) (h.nextHash a) (count + 1)
      (cp ++ (a :: M) :: cq) hN'
      (hc'.congr (fun x hx => upd_other _ _ (fun e => hnd'.1 (e ▸ hx)))) hnd'.2
      (fun b hb => hl b (by simp [hb]))
      (by
        intro b hb hh
        have h8 := hdis b (by simp [hb])
        rw [h2] at h8
        simp only [List.flatten_append, List.flatten_cons, List.mem_append, List.mem_cons,
          not_or] at h8 hh
        rcases hh with hh | (rfl | hh) | hh
        · exact h8.1 hh
        · exact hnd'.1 hb
        · exact h8.2.1 hh
        · exact h8.2.2 hh) (by simpa using hf)
    refine ⟨nh', nt', N', ?_, hok, ?_, ?_⟩
    · rw [moveChain]
      simp only [derefNode, hla, if_true, bind, Except.bind, hrd]
      have hset : nt.set (bucketOf (h.hash a) len) (some a) = tp ++ some a :: tq := by
        rw [h1, ← h3]; simp
      rw [hset, hm]
      congr 3
      rw [List.length_cons, UInt32.ofNat_add, UInt32.add_assoc]
      congr 1
      exact UInt32.add_comm _ _
    · refine hperm.trans ?_
      rw [h2]
      simp only [List.flatten_append, List.flatten_cons, List.cons_append]
      rw [← List.append_assoc]
      refine List.perm_middle.trans ?_
      rw [List.append_assoc]
    · intro x hx
      have hx' : x ≠ a ∧ x ∉ L := by simpa using hx
      rw [hfr x hx'.2]
      exact upd_other _ _ hx'.1

theorem moveAll_spec (len : UInt32) (hpos : 0 < len.toNat) :
    ∀ (ps : List (Option Nat)) (Ls : List (List Nat)) (h : Heap) (nt : List (Option Nat))
      (count : UInt32) (N : List (List Nat)),
      NewOK h.nextHash h.hash len nt N → Chains h.nextHash ps Ls → Ls.flatten.Nodup →
      (∀ a ∈ Ls.flatten, h.live a = true ∧ a < h.fresh) → (∀ a ∈ Ls.flatten, a ∉ N.flatten) →
      ∃ nh' nt' N', moveAll len ps h nt count =
          .ok ({ h with nextHash := nh' }, nt', count + UInt32.ofNat Ls.flatten.length) ∧
        NewOK nh' h.hash len nt' N' ∧ N'.flatten.Perm (Ls.flatten ++ N.flatten)
  | [], Ls, h, nt, count, N, hN, hc, _, _, _ => by
    cases Ls with
    | cons => exact hc.elim
    | nil => exact ⟨h.nextHash, nt, N, by simp [moveAll], hN, by simp⟩
  | p :: ps, Ls, h, nt, count, N, hN, hc, hnd, hl, hdis => by
    cases Ls with
    | nil => exact hc.elim
    | cons L Ls =>
      obtain ⟨hc1, hc2⟩ := hc
      rw [List.flatten_cons] at hnd hl hdis
      have hnd' := List.nodup_append.mp hnd
      have hlen := nodup_bounded_length h.fresh L hnd'.1 (fun a ha => (hl a (by simp [ha])).2)
      obtain ⟨nh1, nt1, N1, hm, hok, hperm, hfr⟩ := moveChain_spec len hpos L (h.fresh + 1) h nt p count
        N hN hc1 hnd'.1 (fun a ha => (hl a (by simp [ha])).1) (fun a ha => hdis a (by simp [ha]))
        (by omega)
      obtain ⟨nh2, nt2, N2, hm2, hok2, hperm2⟩ := moveAll_spec len hpos ps Ls
        { h with nextHash := nh1 } nt1 (count + UInt32.ofNat L.length) N1 hok
        (hc2.congr (fun x hx => hfr x (fun hh => hnd'.2.2 x hh x hx rfl))) hnd'.2.1
        (fun a ha => hl a (List.mem_append.mpr (Or.inr ha)))
        (by
          intro a ha hh
          rw [hperm.mem_iff, List.mem_append] at hh
          rcases hh with hh | hh
          · exact hnd'.2.2 a hh a ha rfl
          · exact hdis a (List.mem_append.mpr (Or.inr ha)) hh)
      refine ⟨nh2, nt2, N2, ?_, hok2, ?_⟩
      · rw [moveAll, hm]
        simp only [bind, Except.bind]
        rw [hm2]
        simp only [List.flatten_cons, List.length_append, UInt32.ofNat_add, UInt32.add_assoc]
      · refine hperm2.trans ?_
        refine (List.Perm.append_left _ hperm).trans ?_
        rw [List.flatten_cons, ← List.append_assoc]
        exact List.Perm.append_right _ (List.perm_append_comm)

theorem chains_replicate (nh : Nat → Option Nat) (n : Nat) :
    Chains nh (List.replicate n none) (List.replicate n []) := by
  induction n with
  | zero => trivial
  | succ n ih => exact ⟨rfl, ih⟩

theorem Resize_core {h : Heap} {t : HTable} {C : List (List Nat)} {E : List Nat}
    (hc : Chains h.nextHash t.table C) (hperm : E.Perm C.flatten) (hnd : E.Nodup)
    (helems : t.elems.toNat = E.length)
    (huniq : ∀ a ∈ E, ∀ b ∈ E, h.hash a = h.hash b → h.key a = h.key b → a = b)
    (hl : ∀ a ∈ E, h.live a = true ∧ a < h.fresh) (hsize : E.length ≤ 2 ^ 31) :
    ∃ nh' t' C', Resize h t = .ok ({ h with nextHash := nh' }, t') ∧
      TabOK { h with nextHash := nh' } t' C' E ∧ E.length ≤ t'.length.toNat := by
  obtain ⟨n, k, hg, hk1, hk2, hn, hle⟩ := growLoop_spec t.elems (by omega) 32 2 4 (by omega) (by omega)
    rfl (by omega)
  have hpos : 0 < n.toNat := by rw [hn]; exact Nat.two_pow_pos k
  obtain ⟨nh', nt', N', hm, hok, hp⟩ := moveAll_spec n hpos t.table C h
    (List.replicate n.toNat none) 0 (List.replicate n.toNat [])
    ⟨by simp, chains_replicate _ _, by
      intro i L hi a ha
      have := List.mem_of_getElem? hi
      rw [List.mem_replicate] at this
      rw [this.2] at ha; cases ha⟩ hc (hperm.nodup_iff.mp hnd)
    (fun a ha => hl a (hperm.mem_iff.mpr ha)) (by simp)
  have hlen : C.flatten.length = E.length := hperm.length_eq.symm
  have hcount : t.elems = 0 + UInt32.ofNat C.flatten.length := by
    rw [UInt32.zero_add]
    apply UInt32.toNat_inj.mp
    rw [UInt32.toNat_ofNat', hlen, helems, Nat.mod_eq_of_lt (by omega)]
  refine ⟨nh', ⟨n, t.elems, nt'⟩, N', ?_, ?_, by rw [← helems]; exact hle⟩
  · rw [Resize, hg]
    simp only [bind, Except.bind]
    rw [hm]
    simp only [cassert, hcount, decide_true, if_true, pure, Except.pure]
  · refine ⟨⟨k, hk1, hk2, hn⟩, hok.tlen, hok.chains, hok.bucket, ?_, hnd, helems, huniq⟩
    refine hperm.trans (List.Perm.symm ?_)
    simpa using hp

theorem TabOK.permE {h : Heap} {t : HTable} {C : List (List Nat)} {E E' : List Nat}
    (ok : TabOK h t C E) (hp : E'.Perm E) : TabOK h t C E' where
  pow := ok.pow
  tlen := ok.tlen
  chains := ok.chains
  bucket := ok.bucket
  perm := hp.trans ok.perm
  nodup := hp.nodup_iff.mpr ok.nodup
  elems := by rw [ok.elems, hp.length_eq]
  uniq := fun a ha b hb => ok.uniq a (hp.mem_iff.mp ha) b (hp.mem_iff.mp hb)

theorem TabOK.congr {h h' : Heap} {t : HTable} {C : List (List Nat)} {E : List Nat}
    (ok : TabOK h t C E) (h1 : h'.nextHash = h.nextHash) (h2 : h'.hash = h.hash)
    (h3 : h'.key = h.key) : TabOK h' t C E where
  pow := ok.pow
  tlen := ok.tlen
  chains := by rw [h1]; exact ok.chains
  bucket := by rw [h2]; exact ok.bucket
  perm := ok.perm
  nodup := ok.nodup
  elems := ok.elems
  uniq := by rw [h2, h3]; exact ok.uniq

/-- Splitting a chain list at a position and replacing the middle keeps the bucket property. -/
theorem bucket_replace {hash : Nat → UInt32} {len : UInt32} {cp cq : List (List Nat)} {L L' : List Nat}
    (hb : ∀ i M, (cp ++ L :: cq)[i]? = some M → ∀ a ∈ M, bucketOf (hash a) len = i)
    (h' : ∀ a ∈ L', bucketOf (hash a) len = cp.length) :
    ∀ i M, (cp ++ L' :: cq)[i]? = some M → ∀ a ∈ M, bucketOf (hash a) len = i := by
  intro i M hi a ha
  by_cases e : i = cp.length
  · subst e
    simp at hi
    subst hi
    exact h' a ha
  · refine hb i M ?_ a ha
    rw [← hi]
    by_cases hlt' : i < cp.length
    · rw [List.getElem?_append_left hlt', List.getElem?_append_left hlt']
    · rw [List.getElem?_append_right (by omega), List.getElem?_append_right (by omega)]
      obtain ⟨j, hj⟩ : ∃ j, i - cp.length = j + 1 := ⟨i - cp.length - 1, by omega⟩
      rw [hj]; simp

theorem perm_erase_of_split {E X Y : List Nat} {r : Nat} (h : E.Perm (X ++ r :: Y)) :
    (E.erase r).Perm (X ++ Y) := by
  have h1 : E.Perm (r :: (X ++ Y)) := h.trans List.perm_middle
  have := h1.erase r
  simpa using this

theorem tableRemove_none {h : Heap} {t : HTable} {C : List (List Nat)} {E : List Nat}
    (ok : TabOK h t C E) (hn : Nodes h E) {key : Slice} (hk : key.WF) (hash : UInt32)
    (hr : lookupIn h E key.bytes hash = none) :
    tableRemove h t key hash = .ok (h, t, none) := by
  obtain ⟨tp, p, tq, cp, P, S, cq, h1, h2, h3, h4, h5, h6, h7, hf, hP, hS, hrd, _⟩ :=
    FindPointer_spec ok hn hk hash
  have hh := head?_eq_lookupIn ok h2 h4 hP hS
  rw [tableRemove, hf]
  simp only [bind, Except.bind]
  rw [hrd, hh, hr]
  rfl

theorem tableRemove_some {h : Heap} {t : HTable} {C : List (List Nat)} {E : List Nat}
    (ok : TabOK h t C E) (hn : Nodes h E) {key : Slice} (hk : key.WF) (hash : UInt32) {r : Nat}
    (hr : lookupIn h E key.bytes hash = some r) :
    ∃ nh' t' C', tableRemove h t key hash = .ok ({ h with nextHash := nh' }, t', some r) ∧
      TabOK { h with nextHash := nh' } t' C' (E.erase r) ∧ t'.length = t.length := by
  obtain ⟨tp, p, tq, cp, P, S, cq, h1, h2, h3, h4, h5, h6, h7, hf, hP, hS, hrd, hcS⟩ :=
    FindPointer_spec ok hn hk hash
  have hh := head?_eq_lookupIn ok h2 h4 hP hS
  have hrE : r ∈ E := List.mem_of_find?_eq_some hr
  rw [hr] at hh
  cases S with
  | nil => cases hh
  | cons r' S =>
    cases hh
    have hperm := ok.perm
    rw [h2] at hperm
    simp only [List.flatten_append, List.flatten_cons] at hperm
    have hndall := hperm.nodup_iff.mp ok.nodup
    have hnd1 := (List.nodup_append.mp hndall).2.1
    have hnd2 := (List.nodup_append.mp hnd1).1
    have hndP := (List.nodup_append.mp hnd2).1
    have hlive : ∀ a ∈ P, h.live a = true := fun a ha => (hn a (by
      rw [hperm.mem_iff]; simp [ha])).1
    obtain ⟨nh', p', hw, hfr, hT⟩ := writeLoc_spec h1 h6 hlive hndP (h.nextHash r)
    refine ⟨nh', ⟨t.length, t.elems - 1, tp ++ p' :: tq⟩, cp ++ (P ++ S) :: cq, ?_, ?_, rfl⟩
    · rw [tableRemove, hf]
      simp only [bind, Except.bind]
      rw [hrd]
      simp only [List.head?_cons, derefNode, (hn r hrE).1, if_true]
      rw [hw]
      rfl
    · have disjP : ∀ x ∈ cp.flatten ++ (r :: S) ++ cq.flatten, x ∉ P := by
        intro x hx hxP
        have e : (cp.flatten ++ (P ++ r :: S ++ cq.flatten)).Perm
            (P ++ (cp.flatten ++ (r :: S) ++ cq.flatten)) := by
          simp only [List.append_assoc]
          rw [← List.append_assoc, ← List.append_assoc (as := P)]
          exact List.Perm.append_right _ List.perm_append_comm
        exact (List.nodup_append.mp (e.nodup_iff.mp hndall)).2.2 x hxP x hx rfl
      have hCS : HChain nh' (h.nextHash r) S := hcS.2.congr (fun x hx => hfr x (disjP x (by simp [hx])))
      refine ⟨ok.pow, ?_, ?_, ?_, ?_, ok.nodup.erase r, ?_, ?_⟩
      · rw [← ok.tlen, h1]; simp
      · refine Chains.append (h5.congr (fun x hx => hfr x (disjP x (by
          simp only [List.mem_append]; exact Or.inl (Or.inl hx))))) ⟨hT S hCS, ?_⟩
        exact h7.congr (fun x hx => hfr x (disjP x (by
          simp only [List.mem_append]; exact Or.inr hx)))
      · have hb := ok.bucket
        rw [h2] at hb
        refine bucket_replace hb ?_
        intro a ha
        refine hb cp.length (P ++ r :: S) (by simp) a ?_
        simp only [List.mem_append, List.mem_cons] at ha ⊢
        rcases ha with ha | ha
        · exact Or.inl ha
        · exact Or.inr (Or.inr ha)
      · have : E.Perm (cp.flatten ++ P ++ r :: (S ++ cq.flatten)) := by
          refine hperm.trans ?_
          simp
        have := perm_erase_of_split this
        refine this.trans ?_
        simp
      · have h9 := List.length_erase_of_mem hrE
        have h10 := List.length_pos_of_mem hrE
        have h11 := ok.elems
        have : (1 : UInt32) ≤ t.elems := by
          rw [UInt32.le_iff_toNat_le, h11]; exact h10
        show (t.elems - 1).toNat = _
        rw [UInt32.toNat_sub_of_le _ _ this, h11, h9]
        rfl
      · intro a ha b hb
        exact ok.uniq a (List.mem_of_mem_erase ha) b (List.mem_of_mem_erase hb)

/-- `E` without the handle that is replaced. -/
def without (E : List Nat) : Option Nat → List Nat
  | none => E
  | some o => E.erase o

/-- What `HandleTable::Insert` has done when it comes to growing the table. -/
theorem tableLink_spec {h : Heap} {t : HTable} {C : List (List Nat)} {E : List Nat}
    (ok : TabOK h t C E) (hn : Nodes h E) {a : Nat} (haE : a ∉ E)
    (hla : h.live a = true) (hfa : a < h.fresh) :
    ∃ ptr nx nh' tb C1, FindPointer h t (Slice.ofBytes (h.key a)) (h.hash a) = .ok ptr ∧
      readLoc h t ptr = .ok (lookupIn h E (h.key a) (h.hash a)) ∧
      oldNext h (lookupIn h E (h.key a) (h.hash a)) = .ok nx ∧
      writeLoc { h with nextHash := upd h.nextHash a nx } t (some a) ptr =
        .ok ({ h with nextHash := nh' }, ⟨t.length, t.elems, tb⟩) ∧
      tb.length = t.table.length ∧ Chains nh' tb C1 ∧
      (∀ i M, C1[i]? = some M → ∀ b ∈ M, bucketOf (h.hash b) t.length = i) ∧
      (a :: without E (lookupIn h E (h.key a) (h.hash a))).Perm C1.flatten ∧
      (a :: without E (lookupIn h E (h.key a) (h.hash a))).Nodup ∧
      (∀ b ∈ a :: without E (lookupIn h E (h.key a) (h.hash a)), ∀ c ∈ a :: without E (lookupIn h E (h.key a) (h.hash a)),
        h.hash b = h.hash c → h.key b = h.key c → b = c) ∧
      (∀ b ∈ a :: without E (lookupIn h E (h.key a) (h.hash a)), h.live b = true ∧ b < h.fresh) ∧
      (∀ o, lookupIn h E (h.key a) (h.hash a) = some o → o ∈ E) := by
  have hk := ofBytes_WF (h.key a)
  obtain ⟨tp, p, tq, cp, P, S, cq, h1, h2, h3, h4, h5, h6, h7, hf, hP, hS, hrd, hcS⟩ :=
    FindPointer_spec ok hn hk (h.hash a)
  rw [ofBytes_bytes] at hP hS
  have hh := head?_eq_lookupIn ok h2 h4 hP hS
  have hperm := ok.perm
  rw [h2] at hperm
  simp only [List.flatten_append, List.flatten_cons] at hperm
  have hndall := hperm.nodup_iff.mp ok.nodup
  have hnd1 := (List.nodup_append.mp hndall).2.1
  have hnd2 := (List.nodup_append.mp hnd1).1
  have hndP := (List.nodup_append.mp hnd2).1
  have hlive : ∀ a ∈ P, h.live a = true := fun a ha => (hn a (by
    rw [hperm.mem_iff]; simp [ha])).1
  have disjP : ∀ x ∈ cp.flatten ++ S ++ cq.flatten, x ∉ P := by
    intro x hx hxP
    have e : (cp.flatten ++ (P ++ S ++ cq.flatten)).Perm
        (P ++ (cp.flatten ++ S ++ cq.flatten)) := by
      simp only [List.append_assoc]
      rw [← List.append_assoc, ← List.append_assoc (as := P)]
      exact List.Perm.append_right _ List.perm_append_comm
    exact (List.nodup_append.mp (e.nodup_iff.mp hndall)).2.2 x hxP x hx rfl
  have haP : a ∉ P := fun hh => haE (by rw [hperm.mem_iff]; simp [hh])
  have haR : ∀ x ∈ cp.flatten ++ S ++ cq.flatten, x ≠ a := by
    intro x hx e
    apply haE
    rw [hperm.mem_iff, ← e]
    simp only [List.mem_append] at hx ⊢
    rcases hx with (hx | hx) | hx
    · exact Or.inl hx
    · exact Or.inr (Or.inl (Or.inr hx))
    · exact Or.inr (Or.inr hx)
  -- value written to `a->next_hash`, and what remains of the bucket
  obtain ⟨nx, S1, hnx, hS1, hsub⟩ : ∃ nx S1, oldNext h S.head? = .ok nx ∧
      HChain h.nextHash nx S1 ∧ (S = [] ∧ S1 = [] ∨ ∃ o, S = o :: S1) := by
    cases S with
    | nil => exact ⟨none, [], rfl, rfl, Or.inl ⟨rfl, rfl⟩⟩
    | cons o S =>
      have ho : o ∈ E := by rw [hperm.mem_iff]; simp
      refine ⟨h.nextHash o, S, ?_, hcS.2, Or.inr ⟨o, rfl⟩⟩
      simp [oldNext, derefNode, (hn o ho).1, bind, Except.bind, pure, Except.pure]
  have hsubS : ∀ x ∈ S1, x ∈ S := by
    rcases hsub with ⟨_, rfl⟩ | ⟨o, rfl⟩
    · simp
    · intro x hx; simp [hx]
  have h6' : HChain (upd h.nextHash a nx) p (P ++ S) := h6.congr (fun x hx => by
    refine upd_other _ _ (fun e => ?_)
    rcases List.mem_append.mp hx with hx | hx
    · exact haP (e ▸ hx)
    · exact haR x (by simp [hx]) e)
  obtain ⟨nh', p', hw, hfr, hT⟩ := writeLoc_spec (h := { h with nextHash := upd h.nextHash a nx }) h1 h6'
    hlive hndP (some a)
  have hfr2 : ∀ x ∈ cp.flatten ++ S ++ cq.flatten, nh' x = h.nextHash x := by
    intro x hx
    rw [hfr x (disjP x hx)]
    exact upd_other _ _ (haR x hx)
  have hchain : HChain nh' (some a) (a :: S1) := by
    refine ⟨rfl, ?_⟩
    have e : nh' a = nx := by rw [hfr a haP]; exact upd_same _ _ _
    rw [e]
    exact hS1.congr (fun x hx => hfr2 x (by simp [hsubS x hx]))
  have hchains : Chains nh' (tp ++ p' :: tq) (cp ++ (P ++ a :: S1) :: cq) := by
    refine Chains.append (h5.congr (fun x hx => hfr2 x (by
      simp only [List.mem_append]; exact Or.inl (Or.inl hx)))) ⟨hT _ hchain, ?_⟩
    exact h7.congr (fun x hx => hfr2 x (by simp only [List.mem_append]; exact Or.inr hx))
  have hbucket : ∀ i M, (cp ++ (P ++ a :: S1) :: cq)[i]? = some M → ∀ b ∈ M,
      bucketOf (h.hash b) t.length = i := by
    have hb := ok.bucket
    rw [h2] at hb
    refine bucket_replace hb ?_
    intro b hb'
    simp only [List.mem_append, List.mem_cons] at hb'
    rcases hb' with hb' | rfl | hb'
    · exact hb cp.length (P ++ S) (by simp) b (by simp [hb'])
    · exact h4.symm
    · exact hb cp.length (P ++ S) (by simp) b (by simp [hsubS b hb'])
  have hpermE : (a :: without E S.head?).Perm (cp ++ (P ++ a :: S1) :: cq).flatten := by
    simp only [List.flatten_append, List.flatten_cons]
    have e1 : (without E S.head?).Perm (cp.flatten ++ P ++ (S1 ++ cq.flatten)) := by
      rcases hsub with ⟨rfl, rfl⟩ | ⟨o, rfl⟩
      · refine hperm.trans ?_
        simp
      · exact perm_erase_of_split (hperm.trans (by simp))
    refine (List.Perm.cons a e1).trans ?_
    refine List.perm_middle.symm.trans ?_
    simp
  have hnodupE : (a :: without E S.head?).Nodup := by
    rw [List.nodup_cons]
    cases S with
    | nil => exact ⟨haE, ok.nodup⟩
    | cons o S => exact ⟨fun hh => haE (List.mem_of_mem_erase hh), ok.nodup.erase o⟩
  have huniq : ∀ b ∈ a :: without E S.head?, ∀ c ∈ a :: without E S.head?,
      h.hash b = h.hash c → h.key b = h.key c → b = c := by
    have hsubE : ∀ x ∈ without E S.head?, x ∈ E := by
      cases S with
      | nil => exact fun x hx => hx
      | cons o S => exact fun x hx => List.mem_of_mem_erase hx
    have hnm : ∀ x ∈ without E S.head?, ¬ (h.hash x = h.hash a ∧ h.key x = h.key a) := by
      intro x hx hm
      have h12 := lookupIn_some ok (hsubE x hx) (kb := h.key a) (hash := h.hash a) (by
        simp [matches_, hm])
      rw [← hh] at h12
      cases S with
      | nil => cases h12
      | cons o S =>
        cases h12
        simp only [List.head?_cons, without] at hx
        exact ((List.Nodup.mem_erase_iff ok.nodup).mp hx).1 rfl
    intro b hb c hc e1 e2
    rcases List.mem_cons.mp hb with hb1 | hb1 <;> rcases List.mem_cons.mp hc with hc1 | hc1
    · rw [hb1, hc1]
    · subst hb1; exact absurd ⟨e1.symm, e2.symm⟩ (hnm c hc1)
    · subst hc1; exact absurd ⟨e1, e2⟩ (hnm b hb1)
    · exact ok.uniq b (hsubE b hb1) c (hsubE c hc1) e1 e2
  have hliveE : ∀ b ∈ a :: without E S.head?, h.live b = true ∧ b < h.fresh := by
    intro b hb
    rcases List.mem_cons.mp hb with rfl | hb
    · exact ⟨hla, hfa⟩
    · have : b ∈ E := by
        cases S with
        | nil => exact hb
        | cons o S => exact List.mem_of_mem_erase hb
      exact ⟨(hn b this).1, (hn b this).2.2⟩
  rw [← hh]
  refine ⟨_, nx, nh', tp ++ p' :: tq, cp ++ (P ++ a :: S1) :: cq, hf, hrd, hnx, hw, by rw [h1]; simp, hchains, hbucket, hpermE,
    hnodupE, huniq, hliveE, ?_⟩
  intro o ho
  cases S with
  | nil => cases ho
  | cons o' S =>
    cases ho
    rw [hperm.mem_iff]; simp

theorem tableInsert_spec {h : Heap} {t : HTable} {C : List (List Nat)} {E : List Nat}
    (ok : TabOK h t C E) (hn : Nodes h E) {a : Nat} (haE : a ∉ E)
    (hla : h.live a = true) (hna : h.next (.node a) ≠ some (.node a)) (hfa : a < h.fresh)
    (hsize : E.length < 2 ^ 31) :
    ∃ nh' t' C', tableInsert h t a =
        .ok ({ h with nextHash := nh' }, t', lookupIn h E (h.key a) (h.hash a)) ∧
      TabOK { h with nextHash := nh' } t' C' (a :: without E (lookupIn h E (h.key a) (h.hash a))) ∧
      (E.length ≤ t.length.toNat →
        (a :: without E (lookupIn h E (h.key a) (h.hash a))).length ≤ t'.length.toNat) := by
  obtain ⟨ptr, nx, nh', tb, C1, hf, hrd, hnx, hw, htb, hchains, hbucket, hpermE, hnodupE, huniq, hliveE, hmem⟩ :=
    tableLink_spec ok hn haE hla hfa
  generalize lookupIn h E (h.key a) (h.hash a) = old at *
  have hstart : ∀ (r : M (Heap × HTable)),
      grow { h with nextHash := nh' } ⟨t.length, t.elems, tb⟩ old = r →
      tableInsert h t a = r.bind (fun q => .ok (q.1, q.2, old)) := by
    intro r hr
    rw [tableInsert, keyOf_ok hla hna]
    simp only [bind, Except.bind]
    rw [hf]
    simp only []
    rw [hrd]
    simp only []
    rw [hnx]
    simp only []
    rw [hw]
    simp only []
    rw [hr]
    cases r <;> rfl
  cases old with
  | some o =>
    have ho : o ∈ E := hmem o rfl
    have hl9 := List.length_erase_of_mem ho
    have hl10 := List.length_pos_of_mem ho
    refine ⟨nh', ⟨t.length, t.elems, tb⟩, C1, ?_, ?_, ?_⟩
    · rw [hstart (.ok ({ h with nextHash := nh' }, ⟨t.length, t.elems, tb⟩)) (by
        simp [grow, pure, Except.pure])]
      rfl
    · refine ⟨ok.pow, htb.trans ok.tlen, hchains, hbucket, hpermE, hnodupE, ?_, huniq⟩
      show t.elems.toNat = _
      rw [ok.elems]
      simp only [without, List.length_cons]
      omega
    · intro hload
      simp only [without, List.length_cons]
      show _ ≤ t.length.toNat
      omega
  | none =>
    have helems : (t.elems + 1).toNat = E.length + 1 := by
      rw [UInt32.toNat_add, ok.elems]
      exact Nat.mod_eq_of_lt (by have : (1 : UInt32).toNat = 1 := rfl
                                 omega)
    by_cases hgt : t.elems + 1 > t.length
    · obtain ⟨nh2, t2, C2, hres, hok2, hload2⟩ := Resize_core
        (h := { h with nextHash := nh' }) (t := ⟨t.length, t.elems + 1, tb⟩)
        (E := a :: without E none)
        hchains hpermE hnodupE (by simpa [without] using helems) huniq hliveE
        (by simp [without]; omega)
      refine ⟨nh2, t2, C2, ?_, hok2, fun _ => hload2⟩
      rw [hstart (.ok ({ h with nextHash := nh2 }, t2)) (by
        simp only [grow, if_true, hgt]
        rw [hres])]
      rfl
    · refine ⟨nh', ⟨t.length, t.elems + 1, tb⟩, C1, ?_, ?_, ?_⟩
      · rw [hstart (.ok ({ h with nextHash := nh' }, ⟨t.length, t.elems + 1, tb⟩)) (by
          simp [grow, hgt, pure, Except.pure])]
        rfl
      · exact ⟨ok.pow, htb.trans ok.tlen, hchains, hbucket, hpermE, hnodupE, (by simpa [without] using helems), huniq⟩
      · intro _
        rw [gt_iff_lt, UInt32.lt_iff_toNat_lt, helems] at hgt
        simp only [without, List.length_cons]
        show _ ≤ t.length.toNat
        omega

end Cache
end Lsmdb
