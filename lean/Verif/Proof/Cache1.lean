import Verif.Model.Cache
import Verif.Proof.Slice

/-! # The hash table: chains and `FindPointer` -/

namespace Lsmdb
namespace Cache

theorem nodup_bounded_length : ∀ (n : Nat) (L : List Nat), L.Nodup → (∀ a ∈ L, a < n) → L.length ≤ n
  | 0, L, _, hb => by
    cases L with
    | nil => simp
    | cons a L => exact absurd (hb a (by simp)) (by omega)
  | n + 1, L, hn, hb => by
    by_cases hm : n ∈ L
    · have h1 := nodup_bounded_length n (L.erase n) (hn.erase n) (by
        intro a ha
        have h := (List.Nodup.mem_erase_iff hn).mp ha
        have := hb a h.2
        omega)
      have := List.length_erase_of_mem hm
      omega
    · have h1 := nodup_bounded_length n L hn (by
        intro a ha
        have := hb a ha
        have : a ≠ n := fun e => hm (e ▸ ha)
        omega)
      omega

/-- The chain starting at pointer `p` through `nh` is the list `L`. -/
def HChain (nh : Nat → Option Nat) : Option Nat → List Nat → Prop
  | p, [] => p = none
  | p, a :: L => p = some a ∧ HChain nh (nh a) L

/-- Buckets and their chains. -/
def Chains (nh : Nat → Option Nat) : List (Option Nat) → List (List Nat) → Prop
  | [], [] => True
  | p :: ps, L :: Ls => HChain nh p L ∧ Chains nh ps Ls
  | _, _ => False

theorem HChain.congr {nh nh' : Nat → Option Nat} {p : Option Nat} {L : List Nat}
    (h : HChain nh p L) (hc : ∀ x ∈ L, nh' x = nh x) : HChain nh' p L := by
  induction L generalizing p with
  | nil => exact h
  | cons a L ih =>
    refine ⟨h.1, ?_⟩
    rw [hc a (by simp)]
    exact ih h.2 (fun x hx => hc x (by simp [hx]))

theorem Chains.congr {nh nh' : Nat → Option Nat} {ps : List (Option Nat)} {Ls : List (List Nat)}
    (h : Chains nh ps Ls) (hc : ∀ x ∈ Ls.flatten, nh' x = nh x) : Chains nh' ps Ls := by
  induction ps generalizing Ls with
  | nil => cases Ls with
    | nil => trivial
    | cons => exact h.elim
  | cons p ps ih => cases Ls with
    | nil => exact h.elim
    | cons L Ls =>
      exact ⟨h.1.congr (fun x hx => hc x (by simp [hx])), ih h.2 (fun x hx => hc x (by
        rw [List.flatten_cons, List.mem_append]; exact Or.inr hx))⟩

theorem Chains.length {nh : Nat → Option Nat} {ps : List (Option Nat)} {Ls : List (List Nat)}
    (h : Chains nh ps Ls) : Ls.length = ps.length := by
  induction ps generalizing Ls with
  | nil => cases Ls with
    | nil => rfl
    | cons => exact h.elim
  | cons p ps ih => cases Ls with
    | nil => exact h.elim
    | cons L Ls => simp [ih h.2]

theorem Chains.append {nh : Nat → Option Nat} {ps qs : List (Option Nat)} {Ls Ms : List (List Nat)}
    (h : Chains nh ps Ls) (h' : Chains nh qs Ms) : Chains nh (ps ++ qs) (Ls ++ Ms) := by
  induction ps generalizing Ls with
  | nil => cases Ls with
    | nil => exact h'
    | cons => exact h.elim
  | cons p ps ih => cases Ls with
    | nil => exact h.elim
    | cons L Ls => exact ⟨h.1, ih h.2⟩

theorem Chains.split {nh : Nat → Option Nat} {ps : List (Option Nat)} {Ls : List (List Nat)}
    (h : Chains nh ps Ls) (i : Nat) (hi : i < ps.length) :
    ∃ tp p tq cp L cq, ps = tp ++ p :: tq ∧ Ls = cp ++ L :: cq ∧ tp.length = i ∧ cp.length = i ∧
      Chains nh tp cp ∧ HChain nh p L ∧ Chains nh tq cq := by
  induction ps generalizing Ls i with
  | nil => simp at hi
  | cons p ps ih => cases Ls with
    | nil => exact h.elim
    | cons L Ls =>
      cases i with
      | zero => exact ⟨[], p, ps, [], L, Ls, rfl, rfl, rfl, rfl, trivial, h.1, h.2⟩
      | succ i =>
        obtain ⟨tp, q, tq, cp, L', cq, h1, h2, h3, h4, h5, h6, h7⟩ :=
          ih h.2 i (by simpa using hi)
        exact ⟨p :: tp, q, tq, L :: cp, L', cq, by rw [h1]; rfl, by rw [h2]; rfl, by simp [h3],
          by simp [h4], ⟨h.1, h5⟩, h6, h7⟩

/-- The invariant of the table: `E` are the handles in it. -/
structure TabOK (h : Heap) (t : HTable) (C : List (List Nat)) (E : List Nat) : Prop where
  pow : ∃ k, 2 ≤ k ∧ k < 32 ∧ t.length.toNat = 2 ^ k
  tlen : t.table.length = t.length.toNat
  chains : Chains h.nextHash t.table C
  bucket : ∀ i L, C[i]? = some L → ∀ a ∈ L, bucketOf (h.hash a) t.length = i
  perm : E.Perm C.flatten
  nodup : E.Nodup
  elems : t.elems.toNat = E.length
  uniq : ∀ a ∈ E, ∀ b ∈ E, h.hash a = h.hash b → h.key a = h.key b → a = b

/-- The handles of `E` can be dereferenced and asked for their key. -/
def Nodes (h : Heap) (E : List Nat) : Prop :=
  ∀ a ∈ E, h.live a = true ∧ h.next (.node a) ≠ some (.node a) ∧ a < h.fresh

/-- The handle has the given hash and key. -/
def matches_ (h : Heap) (kb : Bytes) (hash : UInt32) (a : Nat) : Bool :=
  decide (h.hash a = hash ∧ h.key a = kb)

theorem ofBytes_WF (b : Bytes) : (Slice.ofBytes b).WF := by simp [Slice.WF, Slice.ofBytes]
theorem ofBytes_bytes (b : Bytes) : (Slice.ofBytes b).bytes = b := by simp [Slice.bytes, Slice.ofBytes]

theorem keyOf_ok {h : Heap} {a : Nat} (hl : h.live a = true)
    (hn : h.next (.node a) ≠ some (.node a)) : keyOf h a = .ok (Slice.ofBytes (h.key a)) := by
  simp [keyOf, derefNode, hl, hn, cassert, bind, Except.bind, pure, Except.pure]

theorem mismatch_ok {h : Heap} {key : Slice} (hk : key.WF) {hash : UInt32} {a : Nat}
    (hl : h.live a = true) (hn : h.next (.node a) ≠ some (.node a)) :
    mismatch h key hash a = .ok (!matches_ h key.bytes hash a) := by
  unfold mismatch
  simp only [derefNode, hl, if_true, bind, Except.bind]
  by_cases e : h.hash a = hash
  · simp only [e, ne_eq, not_true, if_false, keyOf_ok hl hn, Slice.ne,
      Slice.eq_eq _ _ hk (ofBytes_WF _), bind, Except.bind, pure, Except.pure, ofBytes_bytes]
    simp [matches_, e, eq_comm]
  · simp [e, matches_, pure, Except.pure]

/-- The location reached after walking over `P`, starting at `loc`. -/
def locFrom (loc : Loc) (P : List Nat) : Loc :=
  match P.getLast? with
  | none => loc
  | some a => .nextHash a

theorem locFrom_cons (loc : Loc) (a : Nat) (P : List Nat) :
    locFrom loc (a :: P) = locFrom (.nextHash a) P := by
  cases P with
  | nil => rfl
  | cons b P =>
    rw [locFrom, locFrom, List.getLast?_cons_cons, List.getLast?_cons]

theorem findLoop_spec (h : Heap) (t : HTable) (key : Slice) (hash : UInt32) (hk : key.WF) :
    ∀ (L : List Nat) (fuel : Nat) (loc : Loc) (p : Option Nat), readLoc h t loc = .ok p →
      HChain h.nextHash p L → Nodes h L → L.length < fuel →
      ∃ P S, L = P ++ S ∧ findLoop h t key hash fuel loc = .ok (locFrom loc P) ∧
        (∀ a ∈ P, matches_ h key.bytes hash a = false) ∧
        (∀ a S', S = a :: S' → matches_ h key.bytes hash a = true) ∧
        readLoc h t (locFrom loc P) = .ok S.head? ∧ HChain h.nextHash S.head? S
  | [], fuel + 1, loc, p, hr, hc, _, _ => by
    have hp : p = none := hc
    subst hp
    refine ⟨[], [], rfl, ?_, by simp, by simp, hr, rfl⟩
    simp [findLoop, hr, locFrom, bind, Except.bind, pure, Except.pure]
  | a :: L, fuel + 1, loc, p, hr, hc, hn, hf => by
    obtain ⟨hp, hc'⟩ := hc
    subst hp
    obtain ⟨h1, h2, _⟩ := hn a (by simp)
    have hm := mismatch_ok (hash := hash) hk h1 h2
    cases hmm : matches_ h key.bytes hash a with
    | true =>
      refine ⟨[], a :: L, rfl, ?_, by simp, ?_, hr, rfl, hc'⟩
      · simp [findLoop, hr, hm, hmm, locFrom, bind, Except.bind, pure, Except.pure]
      · intro b S' e; cases e; exact hmm
    | false =>
      have hr' : readLoc h t (.nextHash a) = .ok (h.nextHash a) := by
        simp [readLoc, derefNode, h1, bind, Except.bind, pure, Except.pure]
      obtain ⟨P, S, e, hl, hP, hS, hrd, hcs⟩ := findLoop_spec h t key hash hk L fuel (.nextHash a) _ hr'
        hc' (fun b hb => hn b (by simp [hb])) (by simpa using hf)
      refine ⟨a :: P, S, by rw [e]; rfl, ?_, ?_, hS, ?_, hcs⟩
      · rw [locFrom_cons, ← hl]
        simp [findLoop, hr, hm, hmm, bind, Except.bind]
      · intro b hb
        rcases List.mem_cons.mp hb with rfl | hb
        · exact hmm
        · exact hP b hb
      · rw [locFrom_cons]; exact hrd

theorem bucketOf_lt {hash len : UInt32} (hp : 0 < len.toNat) : bucketOf hash len < len.toNat := by
  unfold bucketOf
  have h1 : (hash &&& (len - 1)).toNat ≤ (len - 1).toNat := by
    rw [UInt32.toNat_and]; exact Nat.and_le_right
  have h2 : (len - 1).toNat = len.toNat - 1 := by
    have : (1 : UInt32) ≤ len := by rw [UInt32.le_iff_toNat_le]; exact hp
    rw [UInt32.toNat_sub_of_le _ _ this]; rfl
  omega

/-- Everything `FindPointer` establishes. -/
theorem FindPointer_spec {h : Heap} {t : HTable} {C : List (List Nat)} {E : List Nat}
    (ok : TabOK h t C E) (hn : Nodes h E) {key : Slice} (hk : key.WF) (hash : UInt32) :
    ∃ tp p tq cp P S cq, t.table = tp ++ p :: tq ∧ C = cp ++ (P ++ S) :: cq ∧
      tp.length = bucketOf hash t.length ∧ cp.length = bucketOf hash t.length ∧
      Chains h.nextHash tp cp ∧ HChain h.nextHash p (P ++ S) ∧ Chains h.nextHash tq cq ∧
      FindPointer h t key hash = .ok (locFrom (.bucket tp.length) P) ∧
      (∀ a ∈ P, matches_ h key.bytes hash a = false) ∧
      (∀ a S', S = a :: S' → matches_ h key.bytes hash a = true) ∧
      readLoc h t (locFrom (.bucket tp.length) P) = .ok S.head? ∧ HChain h.nextHash S.head? S := by
  obtain ⟨k, _, _, hk2⟩ := ok.pow
  have hpos : 0 < t.length.toNat := by rw [hk2]; exact Nat.two_pow_pos k
  have hlt := bucketOf_lt (hash := hash) hpos
  obtain ⟨tp, p, tq, cp, L, cq, h1, h2, h3, h4, h5, h6, h7⟩ :=
    ok.chains.split (bucketOf hash t.length) (by rw [ok.tlen]; exact hlt)
  have hsub : ∀ a ∈ L, a ∈ E := by
    intro a ha; rw [ok.perm.mem_iff, h2]; simp [ha]
  have hnd : L.Nodup := by
    have := ok.perm.nodup_iff.mp ok.nodup
    rw [h2, List.flatten_append, List.flatten_cons] at this
    exact (List.nodup_append.mp (List.nodup_append.mp this).2.1).1
  have hnL : Nodes h L := fun a ha => hn a (hsub a ha)
  have hlen := nodup_bounded_length h.fresh L hnd (fun a ha => (hnL a ha).2.2)
  have hrd : readLoc h t (.bucket tp.length) = .ok p := by
    simp [readLoc, h1]
  obtain ⟨P, S, e, hf, hP, hS, hr, hc⟩ := findLoop_spec h t key hash hk L (h.fresh + 1)
    (.bucket tp.length) p hrd h6 hnL (by omega)
  subst e
  refine ⟨tp, p, tq, cp, P, S, cq, h1, h2, h3, h4, h5, h6, h7, ?_, hP, hS, hr, hc⟩
  rw [FindPointer, ← h3, hf]

/-- Membership in the table by bucket. -/
theorem TabOK.mem_bucket {h : Heap} {t : HTable} {C : List (List Nat)} {E : List Nat}
    (ok : TabOK h t C E) {cp cq : List (List Nat)} {L : List Nat} (hC : C = cp ++ L :: cq) {a : Nat}
    (ha : a ∈ E) (hb : bucketOf (h.hash a) t.length = cp.length) : a ∈ L := by
  rw [ok.perm.mem_iff] at ha
  obtain ⟨L', hL', ha'⟩ := List.mem_flatten.mp ha
  obtain ⟨i, hi⟩ := List.mem_iff_getElem?.mp hL'
  have := ok.bucket i L' hi a ha'
  rw [hb] at this
  subst this
  rw [hC] at hi
  simp at hi
  exact hi ▸ ha'

/-- The handle in `E` with the given hash and key. -/
def lookupIn (h : Heap) (E : List Nat) (kb : Bytes) (hash : UInt32) : Option Nat :=
  E.find? (matches_ h kb hash)

theorem lookupIn_some {h : Heap} {t : HTable} {C : List (List Nat)} {E : List Nat}
    (ok : TabOK h t C E) {kb : Bytes} {hash : UInt32} {a : Nat} (ha : a ∈ E)
    (hm : matches_ h kb hash a = true) : lookupIn h E kb hash = some a := by
  have : ∃ b, lookupIn h E kb hash = some b := by
    rw [← Option.isSome_iff_exists, lookupIn, List.find?_isSome]; exact ⟨a, ha, hm⟩
  obtain ⟨b, hb⟩ := this
  have hb1 := List.find?_some hb
  have hb2 := List.mem_of_find?_eq_some hb
  simp only [matches_, decide_eq_true_eq] at hm hb1
  rw [hb, ok.uniq b hb2 a ha (by rw [hm.1, hb1.1]) (by rw [hm.2, hb1.2])]

theorem head?_eq_lookupIn {h : Heap} {t : HTable} {C : List (List Nat)} {E : List Nat}
    (ok : TabOK h t C E) {kb : Bytes} {hash : UInt32} {cp cq : List (List Nat)} {P S : List Nat}
    (hC : C = cp ++ (P ++ S) :: cq) (hcp : cp.length = bucketOf hash t.length)
    (hP : ∀ a ∈ P, matches_ h kb hash a = false)
    (hS : ∀ a S', S = a :: S' → matches_ h kb hash a = true) :
    S.head? = lookupIn h E kb hash := by
  cases S with
  | cons a S' =>
    have ha : a ∈ E := by rw [ok.perm.mem_iff, hC]; simp
    exact (lookupIn_some ok ha (hS a S' rfl)).symm
  | nil =>
    symm
    simp only [List.head?_nil, lookupIn, List.find?_eq_none]
    intro a ha hm
    have hm' := hm
    simp only [matches_, decide_eq_true_eq] at hm'
    have := ok.mem_bucket hC ha (by rw [hm'.1, hcp])
    rw [List.append_nil] at this
    rw [hP a this] at hm
    cases hm

theorem tableLookup_spec {h : Heap} {t : HTable} {C : List (List Nat)} {E : List Nat}
    (ok : TabOK h t C E) (hn : Nodes h E) {key : Slice} (hk : key.WF) (hash : UInt32) :
    tableLookup h t key hash = .ok (lookupIn h E key.bytes hash) := by
  obtain ⟨tp, p, tq, cp, P, S, cq, h1, h2, h3, h4, h5, h6, h7, hf, hP, hS, hr, _⟩ :=
    FindPointer_spec ok hn hk hash
  rw [tableLookup, hf]
  simp only [bind, Except.bind]
  rw [hr, head?_eq_lookupIn ok h2 h4 hP hS]

theorem writeLoc_spec {h : Heap} {t : HTable} {tp tq : List (Option Nat)} {p : Option Nat}
    {P S : List Nat} (ht : t.table = tp ++ p :: tq) (hc : HChain h.nextHash p (P ++ S))
    (hP : ∀ a ∈ P, h.live a = true) (hnd : P.Nodup) (v : Option Nat) :
    ∃ nh' p', writeLoc h t v (locFrom (.bucket tp.length) P) =
        .ok ({ h with nextHash := nh' }, { t with table := tp ++ p' :: tq }) ∧
      (∀ x, x ∉ P → nh' x = h.nextHash x) ∧
      (∀ T, HChain nh' v T → HChain nh' p' (P ++ T)) := by
  rcases List.eq_nil_or_concat P with rfl | ⟨Q, a, rfl⟩
  · refine ⟨h.nextHash, v, ?_, fun _ _ => rfl, fun T hT => hT⟩
    simp [locFrom, writeLoc, ht]
  · refine ⟨upd h.nextHash a v, p, ?_, ?_, ?_⟩
    · have hl := hP a (by simp)
      have e : locFrom (.bucket tp.length) (Q ++ [a]) = .nextHash a := by
        simp [locFrom]
      rw [← List.concat_eq_append] at e
      simp only [List.concat_eq_append] at e ⊢
      rw [e]
      simp only [writeLoc, derefNode, hl, if_true, bind, Except.bind, pure, Except.pure]
      congr 2
      rw [← ht]
    · intro x hx
      exact upd_other _ _ (fun e => hx (by simp [e]))
    · intro T hT
      have hQ : a ∉ Q := by
        simp only [List.concat_eq_append] at hnd
        intro hh
        exact (List.nodup_append.mp hnd).2.2 a hh a (by simp) rfl
      simp only [List.concat_eq_append, List.append_assoc, List.cons_append] at hc ⊢
      clear hnd hP
      have gen : ∀ (Q : List Nat) (p : Option Nat) (R : List Nat), a ∉ Q →
          HChain h.nextHash p (Q ++ a :: R) → HChain (upd h.nextHash a v) p (Q ++ a :: T) := by
        intro Q
        induction Q with
        | nil =>
          intro p R _ hc
          refine ⟨hc.1, ?_⟩
          rw [upd_same]; exact hT
        | cons b Q ih =>
          intro p R hQ hc
          refine ⟨hc.1, ?_⟩
          rw [upd_other _ _ (fun e => hQ (by simp [e]))]
          exact ih _ R (fun hh => hQ (by simp [hh])) hc.2
      exact gen Q p _ hQ hc

end Cache
end Lsmdb
