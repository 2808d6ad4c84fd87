import Verif.Proof.Coding

namespace Lsmdb
namespace Coding
open Spec

/-! ## LEB128 facts -/

theorem leb128_lt {n : Nat} (h : n < 128) : leb128 n = [UInt8.ofNat n] := by
  rw [leb128, if_pos h]

theorem leb128_ge {n : Nat} (h : 128 ≤ n) :
    leb128 n = UInt8.ofNat (n % 128 + 128) :: leb128 (n / 128) := by
  rw [leb128, if_neg (by omega)]

theorem leb128_ne_nil (n : Nat) : leb128 n ≠ [] := by
  rw [leb128]; split <;> simp

theorem leb128_length_pos (n : Nat) : 0 < (leb128 n).length := by
  rw [leb128]; split <;> simp

theorem leb128_length_le (k n : Nat) (h : n < 128 ^ (k + 1)) : (leb128 n).length ≤ k + 1 := by
  induction k generalizing n with
  | zero => rw [leb128_lt (by simpa using h)]; simp
  | succ k ih =>
    by_cases h1 : n < 128
    · rw [leb128_lt h1]; simp
    · rw [leb128_ge (by omega)]
      have : n / 128 < 128 ^ (k + 1) := by
        rw [Nat.div_lt_iff_lt_mul (by omega), ← Nat.pow_succ]; exact h
      have := ih _ this
      simp only [List.length_cons]; omega

/-- No shorter list of 7-bit groups can hold `n`. -/
theorem leb128_length_min (k n : Nat) (h : (leb128 n).length ≤ k) : n < 128 ^ k := by
  induction k generalizing n with
  | zero => have := leb128_length_pos n; omega
  | succ k ih =>
    by_cases h1 : n < 128
    · have : 128 ^ 1 ≤ 128 ^ (k + 1) := Nat.pow_le_pow_right (by omega) (by omega)
      simp only [Nat.pow_one] at this; omega
    · rw [leb128_ge (by omega)] at h
      have := ih (n / 128) (by simpa using h)
      rw [Nat.div_lt_iff_lt_mul (by omega), ← Nat.pow_succ] at this; exact this

theorem parse_leb128 (k n : Nat) (rest : Bytes) (h : n < 128 ^ (k + 1)) :
    parseVarint (k + 1) (leb128 n ++ rest) = some (n, rest) := by
  induction k generalizing n with
  | zero =>
    have h1 : n < 128 := by simpa using h
    rw [leb128_lt h1]
    simp only [List.cons_append, List.nil_append, parseVarint, UInt8.toNat_ofNat']
    have : n % 2 ^ 8 = n := by omega
    rw [this, if_pos h1]
  | succ k ih =>
    by_cases h1 : n < 128
    · rw [leb128_lt h1]
      simp only [List.cons_append, List.nil_append, parseVarint, UInt8.toNat_ofNat']
      have : n % 2 ^ 8 = n := by omega
      rw [this, if_pos h1]
    · rw [leb128_ge (by omega)]
      have : n / 128 < 128 ^ (k + 1) := by
        rw [Nat.div_lt_iff_lt_mul (by omega), ← Nat.pow_succ]; exact h
      rw [List.cons_append, parseVarint, ih _ this]
      simp only [UInt8.toNat_ofNat']
      rw [if_neg (by omega)]
      simp only [Option.some.injEq, Prod.mk.injEq, and_true]
      omega

/-- A strict prefix of an encoding is not an encoding. -/
theorem parse_leb128_prefix (k n j : Nat) (h : j < (leb128 n).length) :
    parseVarint k ((leb128 n).take j) = none := by
  induction k generalizing n j with
  | zero => rfl
  | succ k ih =>
    match j with
    | 0 => rfl
    | j + 1 =>
      by_cases h1 : n < 128
      · rw [leb128_lt h1] at h; simp at h
      · rw [leb128_ge (by omega)] at h ⊢
        simp only [List.take_succ_cons, parseVarint, UInt8.toNat_ofNat']
        rw [if_neg (by omega), ih (n / 128) j (by simpa using h)]

/-- Characterisation of a successful parse. -/
theorem parseVarint_some {k : Nat} {bs rest : Bytes} {v : Nat}
    (h : parseVarint k bs = some (v, rest)) :
    ∃ hi b, bs = hi ++ b :: rest ∧ (∀ x ∈ hi, 128 ≤ x.toNat) ∧ b.toNat < 128 ∧
      hi.length + 1 ≤ k := by
  induction k generalizing bs v with
  | zero => simp [parseVarint] at h
  | succ k ih =>
    match bs with
    | [] => simp [parseVarint] at h
    | b :: bs =>
      simp only [parseVarint] at h
      split at h
      · rename_i hb
        simp only [Option.some.injEq, Prod.mk.injEq] at h
        refine ⟨[], b, ?_, ?_, hb, ?_⟩
        · simp [h.2]
        · simp
        · simp
      · rename_i hb
        split at h
        · simp at h
        · rename_i v' rest' heq
          simp only [Option.some.injEq, Prod.mk.injEq] at h
          obtain ⟨hi, c, e1, e2, e3, e4⟩ := ih (h.2 ▸ heq)
          refine ⟨b :: hi, c, ?_, ?_, e3, ?_⟩
          · simp [e1]
          · intro x hx
            rcases List.mem_cons.mp hx with rfl | hx
            · omega
            · exact e2 x hx
          · simpa using e4

/-- Characterisation of a failed parse. -/
theorem parseVarint_none_iff {k : Nat} {bs : Bytes} :
    parseVarint k bs = none ↔ ∀ x ∈ bs.take k, 128 ≤ x.toNat := by
  induction k generalizing bs with
  | zero => simp [parseVarint]
  | succ k ih =>
    match bs with
    | [] => simp [parseVarint]
    | b :: bs =>
      simp only [parseVarint, List.take_succ_cons, List.mem_cons, forall_eq_or_imp]
      split
      · rename_i hb; simp; omega
      · rename_i hb
        rw [← ih]
        constructor
        · intro h
          refine ⟨by omega, ?_⟩
          split at h
          · assumption
          · simp at h
        · rintro ⟨_, h⟩
          rw [h]

/-! ## Encoders -/

theorem EncodeVarint64_eq (v : UInt64) : EncodeVarint64 v = leb128 v.toNat := by
  induction v using EncodeVarint64.induct with
  | case1 v h ih =>
    have h' : 128 ≤ v.toNat := by simpa [UInt64.le_iff_toNat_le] using h
    rw [EncodeVarint64, dif_pos h, ih, leb128_ge h', or128_64]
    have := shr64 v 7 (by omega)
    change _ :: leb128 (v >>> UInt64.ofNat 7).toNat = _
    rw [this]
  | case2 v h =>
    have h' : v.toNat < 128 := by
      have := mt (UInt64.le_iff_toNat_le (a := 128) (b := v)).mpr h
      simpa using this
    rw [EncodeVarint64, dif_neg h, leb128_lt h', low64]

theorem EncodeVarint32_eq (v : UInt32) : EncodeVarint32 v = leb128 v.toNat := by
  have hlt := v.toNat_lt
  have e (s : Nat) (hs : s < 32) := shr32 v s hs
  have c7 : (v < (1 : UInt32) <<< 7) ↔ v.toNat < 128 := UInt32.lt_iff_toNat_lt
  have c14 : (v < (1 : UInt32) <<< 14) ↔ v.toNat < 16384 := UInt32.lt_iff_toNat_lt
  have c21 : (v < (1 : UInt32) <<< 21) ↔ v.toNat < 2097152 := UInt32.lt_iff_toNat_lt
  have c28 : (v < (1 : UInt32) <<< 28) ↔ v.toNat < 268435456 := UInt32.lt_iff_toNat_lt
  have e7 : (v >>> 7).toNat = v.toNat / 128 := e 7 (by omega)
  have e14 : (v >>> 14).toNat = v.toNat / 16384 := e 14 (by omega)
  have e21 : (v >>> 21).toNat = v.toNat / 2097152 := e 21 (by omega)
  have e28 : (v >>> 28).toNat = v.toNat / 268435456 := e 28 (by omega)
  have d2 : v.toNat / 128 / 128 = v.toNat / 16384 := by omega
  have d3 : v.toNat / 16384 / 128 = v.toNat / 2097152 := by omega
  have d4 : v.toNat / 2097152 / 128 = v.toNat / 268435456 := by omega
  unfold EncodeVarint32
  simp only [c7, c14, c21, c28, or128_32]
  simp only [low32, e7, e14, e21, e28]
  split
  · rw [leb128_lt (by assumption)]
  split
  · rw [leb128_ge (by omega), leb128_lt (n := v.toNat / 128) (by omega)]
  split
  · rw [leb128_ge (by omega), leb128_ge (n := v.toNat / 128) (by omega), d2,
      leb128_lt (n := v.toNat / 16384) (by omega)]
  split
  · rw [leb128_ge (by omega), leb128_ge (n := v.toNat / 128) (by omega), d2,
      leb128_ge (n := v.toNat / 16384) (by omega), d3,
      leb128_lt (n := v.toNat / 2097152) (by omega)]
  · rw [leb128_ge (by omega), leb128_ge (n := v.toNat / 128) (by omega), d2,
      leb128_ge (n := v.toNat / 16384) (by omega), d3,
      leb128_ge (n := v.toNat / 2097152) (by omega), d4,
      leb128_lt (n := v.toNat / 268435456) (by omega)]

theorem len32 (v : UInt32) : (leb128 v.toNat).length ≤ 5 :=
  leb128_length_le 4 _ (by have := v.toNat_lt; omega)

theorem len64 (v : UInt64) : (leb128 v.toNat).length ≤ 10 :=
  leb128_length_le 9 _ (by have := v.toNat_lt; omega)

theorem PutVarint32_eq (dst : Bytes) (v : UInt32) :
    PutVarint32 dst v = .ok (dst ++ leb128 v.toNat) := by
  rw [PutVarint32, appendBuf, EncodeVarint32_eq, if_pos (len32 v)]

theorem PutVarint64_eq (dst : Bytes) (v : UInt64) :
    PutVarint64 dst v = .ok (dst ++ leb128 v.toNat) := by
  rw [PutVarint64, appendBuf, EncodeVarint64_eq, if_pos (len64 v)]

theorem varintLengthLoop_eq (v : UInt64) (len : Nat) :
    varintLengthLoop v len = len + ((leb128 v.toNat).length - 1) := by
  induction v, len using varintLengthLoop.induct with
  | case1 v len h ih =>
    have h' : 128 ≤ v.toNat := by simpa [UInt64.le_iff_toNat_le] using h
    rw [varintLengthLoop, dif_pos h, ih, leb128_ge h']
    have := shr64 v 7 (by omega)
    change len + 1 + ((leb128 (v >>> UInt64.ofNat 7).toNat).length - 1) = _
    rw [this]
    have := leb128_length_pos (v.toNat / 128)
    simp only [Nat.reducePow, List.length_cons]
    omega
  | case2 v len h =>
    have h' : v.toNat < 128 := by
      have := mt (UInt64.le_iff_toNat_le (a := 128) (b := v)).mpr h
      simpa using this
    rw [varintLengthLoop, dif_neg h, leb128_lt h']; simp

theorem VarintLength_eq (v : UInt64) : VarintLength v = (leb128 v.toNat).length := by
  rw [VarintLength, varintLengthLoop_eq]
  have := leb128_length_pos v.toNat
  omega

/-! ## Decoders -/

/-- What a pointer-based decoder must return, in terms of the parse of `[p, limit)`. -/
def ptrResult {α : Type} (conv : Nat → α) (limit : Nat) : Option (Nat × Bytes) → Option (α × Nat)
  | none => none
  | some (n, rest) => some (conv n, limit - rest.length)

theorem range_cons {buf : Bytes} {p limit : Nat} (h : p < limit) (hl : limit ≤ buf.length) :
    ∃ b, rd buf p = .ok b ∧
      (buf.drop p).take (limit - p) = b :: (buf.drop (p + 1)).take (limit - (p + 1)) := by
  have hp : p < buf.length := by omega
  refine ⟨buf[p], by simp [rd, hp], ?_⟩
  rw [List.drop_eq_getElem_cons hp]
  have : limit - p = (limit - (p + 1)) + 1 := by omega
  rw [this, List.take_succ_cons]

theorem range_nil {buf : Bytes} {p limit : Nat} (h : limit ≤ p) :
    (buf.drop p).take (limit - p) = [] := by
  have : limit - p = 0 := by omega
  rw [this, List.take_zero]

theorem parse_range_rest_length {k : Nat} {bs rest : Bytes} {v : Nat}
    (h : parseVarint k bs = some (v, rest)) : rest.length < bs.length := by
  obtain ⟨hi, b, e, _⟩ := parseVarint_some h
  rw [e]; simp; omega

theorem getVarint32Loop_eq (k : Nat) (buf : Bytes) (limit p : Nat) (result : UInt32)
    (hl : limit ≤ buf.length) (hk : k ≤ 5) (hr : result.toNat < 2 ^ (7 * (5 - k))) :
    getVarint32Loop buf limit (7 * (5 - k)) p result =
      .ok (ptrResult (fun n => UInt32.ofNat (result.toNat + n * 2 ^ (7 * (5 - k)))) limit
        (parseVarint k ((buf.drop p).take (limit - p)))) := by
  induction k generalizing p result with
  | zero => rw [getVarint32Loop]; simp [parseVarint, ptrResult, pure, Except.pure]
  | succ k ih =>
    rw [getVarint32Loop]
    by_cases hp : p < limit
    · rw [if_pos ⟨by omega, hp⟩]
      obtain ⟨b, hb, hrange⟩ := range_cons hp hl
      rw [hb, hrange]
      simp only [bind, Except.bind, parseVarint]
      have hs : 7 * (5 - (k + 1)) < 32 := by omega
      by_cases hb1 : b.toNat < 128
      · rw [if_neg (by rw [Decidable.not_not]; exact (and128_32 b).mpr hb1), if_pos hb1]
        simp only [pure, Except.pure, ptrResult]
        rw [or_shl32 hr hs, UInt8.toNat_toUInt32]
        simp only [List.length_take, List.length_drop]
        congr 4; omega
      · rw [if_pos (by intro h; exact hb1 ((and128_32 b).mp h)), if_neg hb1]
        have hlt := b.toNat_lt
        have hr2 : result.toNat + b.toNat % 128 * 2 ^ (7 * (5 - (k + 1))) < 2 ^ (7 * (5 - k)) := by
          have e1 : 7 * (5 - k) = 7 * (5 - (k + 1)) + 7 := by omega
          rw [e1, Nat.pow_add]
          generalize 2 ^ (7 * (5 - (k + 1))) = q at *
          have : b.toNat % 128 * q ≤ 127 * q := Nat.mul_le_mul_right _ (by omega)
          omega
        rw [or_shl32 hr hs, and127_32]
        have e2 : 7 * (5 - (k + 1)) + 7 = 7 * (5 - k) := by omega
        rw [e2]
        by_cases hk4 : k = 0
        · subst hk4
          rw [getVarint32Loop]
          simp [parseVarint, ptrResult, pure, Except.pure]
        · have hw : 2 ^ (7 * (5 - k)) ≤ 2 ^ 32 := Nat.pow_le_pow_right (by omega) (by omega)
          have hmod : (result.toNat + b.toNat % 128 * 2 ^ (7 * (5 - (k + 1)))) % 2 ^ 32 =
              result.toNat + b.toNat % 128 * 2 ^ (7 * (5 - (k + 1))) :=
            Nat.mod_eq_of_lt (by omega)
          rw [ih (p + 1) _ (by omega) (by rw [UInt32.toNat_ofNat', hmod]; exact hr2),
            UInt32.toNat_ofNat', hmod]
          cases hparse : parseVarint k ((buf.drop (p + 1)).take (limit - (p + 1))) with
          | none => rfl
          | some r =>
            obtain ⟨v, rest⟩ := r
            simp only [ptrResult]
            congr 4
            have : b.toNat % 128 = b.toNat - 128 := by omega
            rw [this, ← e2, Nat.pow_add]
            generalize 2 ^ (7 * (5 - (k + 1))) = q
            rw [Nat.add_mul, Nat.add_assoc]
            congr 2
            rw [Nat.mul_comm 128 v, Nat.mul_assoc, Nat.mul_comm 128 q]
    · rw [if_neg (by omega), range_nil (by omega)]
      simp [parseVarint, ptrResult, pure, Except.pure]

theorem getVarint64Loop_eq (k : Nat) (buf : Bytes) (limit p : Nat) (result : UInt64)
    (hl : limit ≤ buf.length) (hk : k ≤ 10) (hr : result.toNat < 2 ^ (7 * (10 - k))) :
    getVarint64Loop buf limit (7 * (10 - k)) p result =
      .ok (ptrResult (fun n => UInt64.ofNat (result.toNat + n * 2 ^ (7 * (10 - k)))) limit
        (parseVarint k ((buf.drop p).take (limit - p)))) := by
  induction k generalizing p result with
  | zero => rw [getVarint64Loop]; simp [parseVarint, ptrResult, pure, Except.pure]
  | succ k ih =>
    rw [getVarint64Loop]
    by_cases hp : p < limit
    · rw [if_pos ⟨by omega, hp⟩]
      obtain ⟨b, hb, hrange⟩ := range_cons hp hl
      rw [hb, hrange]
      simp only [bind, Except.bind, parseVarint]
      have hs : 7 * (10 - (k + 1)) < 64 := by omega
      by_cases hb1 : b.toNat < 128
      · rw [if_neg (by rw [Decidable.not_not]; exact (and128_64 b).mpr hb1), if_pos hb1]
        simp only [pure, Except.pure, ptrResult]
        rw [or_shl64 hr hs, UInt8.toNat_toUInt64]
        simp only [List.length_take, List.length_drop]
        congr 4; omega
      · rw [if_pos (by intro h; exact hb1 ((and128_64 b).mp h)), if_neg hb1]
        have hlt := b.toNat_lt
        have hr2 : result.toNat + b.toNat % 128 * 2 ^ (7 * (10 - (k + 1))) < 2 ^ (7 * (10 - k)) := by
          have e1 : 7 * (10 - k) = 7 * (10 - (k + 1)) + 7 := by omega
          rw [e1, Nat.pow_add]
          generalize 2 ^ (7 * (10 - (k + 1))) = q at *
          have : b.toNat % 128 * q ≤ 127 * q := Nat.mul_le_mul_right _ (by omega)
          omega
        rw [or_shl64 hr hs, and127_64]
        have e2 : 7 * (10 - (k + 1)) + 7 = 7 * (10 - k) := by omega
        rw [e2]
        by_cases hk4 : k = 0
        · subst hk4
          rw [getVarint64Loop]
          simp [parseVarint, ptrResult, pure, Except.pure]
        · have hw : 2 ^ (7 * (10 - k)) ≤ 2 ^ 64 := Nat.pow_le_pow_right (by omega) (by omega)
          have hmod : (result.toNat + b.toNat % 128 * 2 ^ (7 * (10 - (k + 1)))) % 2 ^ 64 =
              result.toNat + b.toNat % 128 * 2 ^ (7 * (10 - (k + 1))) :=
            Nat.mod_eq_of_lt (by omega)
          rw [ih (p + 1) _ (by omega) (by rw [UInt64.toNat_ofNat', hmod]; exact hr2),
            UInt64.toNat_ofNat', hmod]
          cases hparse : parseVarint k ((buf.drop (p + 1)).take (limit - (p + 1))) with
          | none => rfl
          | some r =>
            obtain ⟨v, rest⟩ := r
            simp only [ptrResult]
            congr 4
            have : b.toNat % 128 = b.toNat - 128 := by omega
            rw [this, ← e2, Nat.pow_add]
            generalize 2 ^ (7 * (10 - (k + 1))) = q
            rw [Nat.add_mul, Nat.add_assoc]
            congr 2
            rw [Nat.mul_comm 128 v, Nat.mul_assoc, Nat.mul_comm 128 q]
    · rw [if_neg (by omega), range_nil (by omega)]
      simp [parseVarint, ptrResult, pure, Except.pure]

theorem GetVarint32PtrFallback_eq (buf : Bytes) (p limit : Nat) (hl : limit ≤ buf.length) :
    GetVarint32PtrFallback buf p limit =
      .ok (ptrResult UInt32.ofNat limit (parseVarint 5 ((buf.drop p).take (limit - p)))) := by
  have := getVarint32Loop_eq 5 buf limit p 0 hl (by omega) (by decide)
  simpa [GetVarint32PtrFallback] using this

theorem GetVarint32Ptr_eq (buf : Bytes) (p limit : Nat) (hl : limit ≤ buf.length) :
    GetVarint32Ptr buf p limit =
      .ok (ptrResult UInt32.ofNat limit (parseVarint 5 ((buf.drop p).take (limit - p)))) := by
  rw [GetVarint32Ptr]
  split
  · rename_i hp
    obtain ⟨b, hb, hrange⟩ := range_cons hp hl
    simp only [hb, bind, Except.bind]
    split
    · rename_i h0
      have hb1 := (and128_32 b).mp h0
      rw [hrange, parseVarint, if_pos hb1]
      simp only [pure, Except.pure, ptrResult]
      have : b.toUInt32 = UInt32.ofNat b.toNat := by
        apply UInt32.toNat_inj.mp; rw [UInt8.toNat_toUInt32, UInt32.toNat_ofNat']
        have := b.toNat_lt; omega
      rw [this]
      simp only [List.length_take, List.length_drop]
      congr 4; omega
    · exact GetVarint32PtrFallback_eq buf p limit hl
  · exact GetVarint32PtrFallback_eq buf p limit hl

theorem GetVarint64Ptr_eq (buf : Bytes) (p limit : Nat) (hl : limit ≤ buf.length) :
    GetVarint64Ptr buf p limit =
      .ok (ptrResult UInt64.ofNat limit (parseVarint 10 ((buf.drop p).take (limit - p)))) := by
  have := getVarint64Loop_eq 10 buf limit p 0 hl (by omega) (by decide)
  simpa [GetVarint64Ptr] using this

/-! ## Slices -/

/-- Advance a slice so that `n` bytes remain. -/
def keepLast (s : Slice) (n : Nat) : Slice := ⟨s.buf, s.off + s.len - n, n⟩

theorem _root_.Lsmdb.Slice.bytes_length {s : Slice} (h : s.WF) : s.bytes.length = s.len := by
  unfold Slice.WF at h
  simp only [Slice.bytes, List.length_take, List.length_drop]; omega

theorem keepLast_WF {s : Slice} (h : s.WF) {n : Nat} (hn : n ≤ s.len) : (keepLast s n).WF := by
  unfold Slice.WF keepLast at *; simp only; omega

theorem keepLast_bytes {s : Slice} (h : s.WF) {pre rest : Bytes} (e : s.bytes = pre ++ rest) :
    (keepLast s rest.length).bytes = rest := by
  have hl := Slice.bytes_length h
  have hlen : pre.length + rest.length = s.len := by rw [← hl, e]; simp
  unfold keepLast Slice.bytes
  simp only
  have e2 : s.off + s.len - rest.length = s.off + pre.length := by omega
  rw [e2]
  have e3 : rest = s.bytes.drop pre.length := by rw [e]; simp
  conv => rhs; rw [e3]
  rw [Slice.bytes, List.drop_take, List.drop_drop]
  congr 1; omega

theorem GetVarint32_eq (s : Slice) (v : UInt32) (h : s.WF) :
    GetVarint32 s v = .ok (match parseVarint 5 s.bytes with
      | none => (false, s, v)
      | some (n, rest) => (true, keepLast s rest.length, UInt32.ofNat n)) := by
  have hb : (s.buf.drop s.off).take (s.off + s.len - s.off) = s.bytes := by
    rw [Slice.bytes]; congr 1; omega
  rw [GetVarint32, GetVarint32Ptr_eq _ _ _ h, hb]
  cases hp : parseVarint 5 s.bytes with
  | none => rfl
  | some r =>
    obtain ⟨n, rest⟩ := r
    have := parse_range_rest_length hp
    rw [Slice.bytes_length h] at this
    simp only [ptrResult, bind, Except.bind, pure, Except.pure, keepLast]
    congr 4
    omega

theorem GetVarint64_eq (s : Slice) (v : UInt64) (h : s.WF) :
    GetVarint64 s v = .ok (match parseVarint 10 s.bytes with
      | none => (false, s, v)
      | some (n, rest) => (true, keepLast s rest.length, UInt64.ofNat n)) := by
  have hb : (s.buf.drop s.off).take (s.off + s.len - s.off) = s.bytes := by
    rw [Slice.bytes]; congr 1; omega
  rw [GetVarint64, GetVarint64Ptr_eq _ _ _ h, hb]
  cases hp : parseVarint 10 s.bytes with
  | none => rfl
  | some r =>
    obtain ⟨n, rest⟩ := r
    have := parse_range_rest_length hp
    rw [Slice.bytes_length h] at this
    simp only [ptrResult, bind, Except.bind, pure, Except.pure, keepLast]
    congr 4
    omega

end Coding
end Lsmdb
