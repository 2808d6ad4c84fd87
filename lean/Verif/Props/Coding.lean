import Verif.Proof.Varint

/-!
# C01–C05: wire formats
-/

namespace Lsmdb
namespace Props
open Coding Spec

/-! ## C01 -/

/-- C01 (32 bit).  `PutFixed32` appends exactly the four base-256 digits of the value, least
significant first, leaving what was there; `DecodeFixed32` at that position, whatever follows,
returns the value. -/
theorem C01_fixed32 (dst post : Bytes) (v : UInt32) :
    PutFixed32 dst v = dst ++ leBytes 4 v.toNat ∧
    (PutFixed32 dst v).length = dst.length + 4 ∧
    DecodeFixed32 (PutFixed32 dst v ++ post) dst.length = .ok v := by
  have h : PutFixed32 dst v = dst ++ leBytes 4 v.toNat := by rw [PutFixed32, EncodeFixed32_eq]
  refine ⟨h, ?_, ?_⟩
  · rw [h]; simp [leBytes_length]
  · rw [h, DecodeFixed32_eq _ _ _ (leBytes_length 4 _), leValue_leBytes,
      Nat.mod_eq_of_lt (by have := v.toNat_lt; omega), UInt32.ofNat_toNat]

/-- C01 (64 bit). -/
theorem C01_fixed64 (dst post : Bytes) (v : UInt64) :
    PutFixed64 dst v = dst ++ leBytes 8 v.toNat ∧
    (PutFixed64 dst v).length = dst.length + 8 ∧
    DecodeFixed64 (PutFixed64 dst v ++ post) dst.length = .ok v := by
  have h : PutFixed64 dst v = dst ++ leBytes 8 v.toNat := by rw [PutFixed64, EncodeFixed64_eq]
  refine ⟨h, ?_, ?_⟩
  · rw [h]; simp [leBytes_length]
  · rw [h, DecodeFixed64_eq _ _ _ (leBytes_length 8 _), leValue_leBytes,
      Nat.mod_eq_of_lt (by have := v.toNat_lt; omega), UInt64.ofNat_toNat]

/-- C01: decoding arbitrary bytes: any four/eight bytes inside any buffer decode to their
little-endian value. -/
theorem C01_decode_any (pre post b4 b8 : Bytes) (h4 : b4.length = 4) (h8 : b8.length = 8) :
    DecodeFixed32 (pre ++ b4 ++ post) pre.length = .ok (UInt32.ofNat (leValue b4)) ∧
    DecodeFixed64 (pre ++ b8 ++ post) pre.length = .ok (UInt64.ofNat (leValue b8)) :=
  ⟨DecodeFixed32_eq _ _ _ h4, DecodeFixed64_eq _ _ _ h8⟩

example : PutFixed32 [9] 0x04030201 = [9, 1, 2, 3, 4] := by decide
example : DecodeFixed32 [9, 1, 2, 3, 4, 7] 1 = .ok 0x04030201 := by decide
example : ([1, 2, 3, 4] : Bytes).length = 4 ∧ ([1, 2, 3, 4, 5, 6, 7, 8] : Bytes).length = 8 := by
  decide

/-! ## C02 -/

/-- A value together with the width it is written with. -/
inductive Item where
  | v32 (v : UInt32)
  | v64 (v : UInt64)
  deriving DecidableEq

/-- The width a reader expects. -/
def Item.is64 : Item → Bool
  | .v32 _ => false
  | .v64 _ => true

/-- A client writing items one after the other. -/
def putItems (dst : Bytes) : List Item → M Bytes
  | [] => .ok dst
  | .v32 v :: is => do putItems (← PutVarint32 dst v) is
  | .v64 v :: is => do putItems (← PutVarint64 dst v) is

/-- A client reading values of the given widths one after the other, `none` as soon as a read
reports failure. -/
def getItems (s : Slice) : List Bool → M (Option (List Item × Slice))
  | [] => .ok (some ([], s))
  | w64 :: ws => do
    if w64 then
      let (ok, s, v) ← GetVarint64 s 0
      if ok then
        match ← getItems s ws with
        | some (is, s) => return some (.v64 v :: is, s)
        | none => return none
      else return none
    else
      let (ok, s, v) ← GetVarint32 s 0
      if ok then
        match ← getItems s ws with
        | some (is, s) => return some (.v32 v :: is, s)
        | none => return none
      else return none

/-- C02, one 32-bit value: read back from any slice that starts with its encoding, leaving exactly
the rest of the slice. -/
theorem C02_varint32 (dst : Bytes) (v old : UInt32) :
    ∃ enc, PutVarint32 dst v = .ok (dst ++ enc) ∧
      ∀ (s : Slice) (rest : Bytes), s.WF → s.bytes = enc ++ rest →
        ∃ s', GetVarint32 s old = .ok (true, s', v) ∧ s'.WF ∧ s'.buf = s.buf ∧
          s'.off = s.off + enc.length ∧ s'.bytes = rest := by
  refine ⟨leb128 v.toNat, PutVarint32_eq dst v, ?_⟩
  intro s rest hwf hb
  have hl : s.len = (leb128 v.toNat).length + rest.length := by
    rw [← Slice.bytes_length hwf, hb]; simp
  refine ⟨keepLast s rest.length, ?_, keepLast_WF hwf (by omega), rfl, ?_,
    keepLast_bytes hwf hb⟩
  · rw [GetVarint32_eq _ _ hwf, hb, parse_leb128 4 _ _ (by have := v.toNat_lt; omega)]
    simp
  · simp only [keepLast]; omega

/-- C02, one 64-bit value. -/
theorem C02_varint64 (dst : Bytes) (v old : UInt64) :
    ∃ enc, PutVarint64 dst v = .ok (dst ++ enc) ∧
      ∀ (s : Slice) (rest : Bytes), s.WF → s.bytes = enc ++ rest →
        ∃ s', GetVarint64 s old = .ok (true, s', v) ∧ s'.WF ∧ s'.buf = s.buf ∧
          s'.off = s.off + enc.length ∧ s'.bytes = rest := by
  refine ⟨leb128 v.toNat, PutVarint64_eq dst v, ?_⟩
  intro s rest hwf hb
  have hl : s.len = (leb128 v.toNat).length + rest.length := by
    rw [← Slice.bytes_length hwf, hb]; simp
  refine ⟨keepLast s rest.length, ?_, keepLast_WF hwf (by omega), rfl, ?_,
    keepLast_bytes hwf hb⟩
  · rw [GetVarint64_eq _ _ hwf, hb, parse_leb128 9 _ _ (by have := v.toNat_lt; omega)]
    simp
  · simp only [keepLast]; omega

/-- C02, any stream mixing both widths: writing succeeds, appends some bytes `enc` to what was
there, and reading `enc ++ rest` anywhere yields the items in order and leaves exactly `rest`. -/
theorem C02_stream (dst : Bytes) (items : List Item) :
    ∃ enc, putItems dst items = .ok (dst ++ enc) ∧
      ∀ (s : Slice) (rest : Bytes), s.WF → s.bytes = enc ++ rest →
        ∃ s', getItems s (items.map Item.is64) = .ok (some (items, s')) ∧ s'.WF ∧
          s'.buf = s.buf ∧ s'.off = s.off + enc.length ∧ s'.bytes = rest := by
  induction items generalizing dst with
  | nil =>
    refine ⟨[], by simp [putItems], fun s rest hwf hb => ⟨s, ?_, hwf, rfl, by simp, by simpa using hb⟩⟩
    simp [getItems]
  | cons it items ih =>
    cases it with
    | v32 v =>
      obtain ⟨e1, h1, r1⟩ := C02_varint32 dst v 0
      obtain ⟨e2, h2, r2⟩ := ih (dst ++ e1)
      refine ⟨e1 ++ e2, ?_, ?_⟩
      · simp [putItems, h1, h2, bind, Except.bind]
      · intro s rest hwf hb
        obtain ⟨s1, g1, w1, b1, o1, y1⟩ := r1 s (e2 ++ rest) hwf (by simpa using hb)
        obtain ⟨s2, g2, w2, b2, o2, y2⟩ := r2 s1 rest w1 y1
        refine ⟨s2, ?_, w2, by rw [b2, b1], by rw [o2, o1]; simp; omega, y2⟩
        simp [getItems, Item.is64, g1, g2, bind, Except.bind, pure, Except.pure]
    | v64 v =>
      obtain ⟨e1, h1, r1⟩ := C02_varint64 dst v 0
      obtain ⟨e2, h2, r2⟩ := ih (dst ++ e1)
      refine ⟨e1 ++ e2, ?_, ?_⟩
      · simp [putItems, h1, h2, bind, Except.bind]
      · intro s rest hwf hb
        obtain ⟨s1, g1, w1, b1, o1, y1⟩ := r1 s (e2 ++ rest) hwf (by simpa using hb)
        obtain ⟨s2, g2, w2, b2, o2, y2⟩ := r2 s1 rest w1 y1
        refine ⟨s2, ?_, w2, by rw [b2, b1], by rw [o2, o1]; simp; omega, y2⟩
        simp [getItems, Item.is64, g1, g2, bind, Except.bind, pure, Except.pure]

example : putItems [7] [.v32 300, .v64 5] = .ok [7, 172, 2, 5] := by
  simp [putItems, PutVarint32_eq, PutVarint64_eq, leb128, bind, Except.bind]
example : (Slice.mk [7, 172, 2, 5, 9] 1 4).WF ∧
    (Slice.mk [7, 172, 2, 5, 9] 1 4).bytes = [172, 2, 5] ++ [9] := by decide

/-! ## C03 -/

/-- C03: `VarintLength` is exactly what is appended, for both widths; both widths agree on the
bytes; the bytes are the minimal sequence of 7-bit groups; the stack buffers suffice. -/
theorem C03_length (dst : Bytes) (v : UInt64) (w : UInt32) :
    (∃ enc, PutVarint64 dst v = .ok (dst ++ enc) ∧ enc.length = VarintLength v) ∧
    (∃ enc, PutVarint32 dst w = .ok (dst ++ enc) ∧ enc.length = VarintLength w.toUInt64) ∧
    PutVarint32 dst w = PutVarint64 dst w.toUInt64 ∧
    1 ≤ VarintLength v ∧ VarintLength v ≤ 10 ∧ VarintLength w.toUInt64 ≤ 5 ∧
    (∀ k, VarintLength v ≤ k ∧ 0 < k ↔ v.toNat < 2 ^ (7 * k) ∧ 0 < k) := by
  have hw : w.toUInt64.toNat = w.toNat := by simp
  refine ⟨⟨_, PutVarint64_eq dst v, (VarintLength_eq v).symm⟩,
    ⟨_, PutVarint32_eq dst w, by rw [VarintLength_eq, hw]⟩,
    by rw [PutVarint32_eq, PutVarint64_eq, hw], ?_, ?_, ?_, ?_⟩
  · rw [VarintLength_eq]; exact leb128_length_pos _
  · rw [VarintLength_eq]; exact len64 v
  · rw [VarintLength_eq, hw]; exact len32 w
  · intro k
    have e : (2 : Nat) ^ (7 * k) = 128 ^ k := by rw [Nat.pow_mul]
    rw [VarintLength_eq, e]
    constructor
    · rintro ⟨h, h0⟩; exact ⟨leb128_length_min _ _ h, h0⟩
    · rintro ⟨h, h0⟩
      obtain ⟨j, rfl⟩ : ∃ j, k = j + 1 := ⟨k - 1, by omega⟩
      exact ⟨leb128_length_le _ _ h, h0⟩

/-- C03: the encoders themselves (which write through a raw pointer) store exactly the LEB128 bytes
of the number. -/
theorem C03_bytes (v : UInt64) (w : UInt32) :
    EncodeVarint64 v = leb128 v.toNat ∧ EncodeVarint32 w = leb128 w.toNat :=
  ⟨EncodeVarint64_eq v, EncodeVarint32_eq w⟩

example : VarintLength 300 = 2 := by rw [VarintLength_eq]; simp [leb128]

/-! ## C04 -/

/-- C04 (32 bit, pointer version).  For any storage and any range inside it: either the range starts
with fewer than five continuation bytes followed by a byte below 128, and then the pointer just past
that byte is returned, with the value those bytes denote; or the first five bytes of the range (or all
of it) are continuation bytes and null is returned.  The outcome is a function of the bytes of the
range alone. -/
theorem C04_varint32_ptr (buf : Bytes) (p limit : Nat) (h : limit ≤ buf.length) :
    let range := (buf.drop p).take (limit - p)
    (∃ hi b rest n, range = hi ++ b :: rest ∧ (∀ x ∈ hi, 128 ≤ x.toNat) ∧ b.toNat < 128 ∧
        hi.length < 5 ∧ parseVarint 5 range = some (n, rest) ∧
        GetVarint32Ptr buf p limit = .ok (some (UInt32.ofNat n, p + hi.length + 1))) ∨
    ((∀ x ∈ range.take 5, 128 ≤ x.toNat) ∧ GetVarint32Ptr buf p limit = .ok none) := by
  intro range
  rw [GetVarint32Ptr_eq buf p limit h]
  cases hp : parseVarint 5 range with
  | none => right; exact ⟨parseVarint_none_iff.mp hp, by simp [ptrResult]⟩
  | some r =>
    obtain ⟨n, rest⟩ := r
    left
    obtain ⟨hi, b, e1, e2, e3, e4⟩ := parseVarint_some hp
    refine ⟨hi, b, rest, n, e1, e2, e3, e4, rfl, ?_⟩
    have hlen : range.length = hi.length + 1 + rest.length := by rw [e1]; simp; omega
    have hr : range.length = limit - p := by
      simp only [range, List.length_take, List.length_drop]; omega
    simp only [ptrResult]
    congr 3; omega

/-- C04 (64 bit, pointer version). -/
theorem C04_varint64_ptr (buf : Bytes) (p limit : Nat) (h : limit ≤ buf.length) :
    let range := (buf.drop p).take (limit - p)
    (∃ hi b rest n, range = hi ++ b :: rest ∧ (∀ x ∈ hi, 128 ≤ x.toNat) ∧ b.toNat < 128 ∧
        hi.length < 10 ∧ parseVarint 10 range = some (n, rest) ∧
        GetVarint64Ptr buf p limit = .ok (some (UInt64.ofNat n, p + hi.length + 1))) ∨
    ((∀ x ∈ range.take 10, 128 ≤ x.toNat) ∧ GetVarint64Ptr buf p limit = .ok none) := by
  intro range
  rw [GetVarint64Ptr_eq buf p limit h]
  cases hp : parseVarint 10 range with
  | none => right; exact ⟨parseVarint_none_iff.mp hp, by simp [ptrResult]⟩
  | some r =>
    obtain ⟨n, rest⟩ := r
    left
    obtain ⟨hi, b, e1, e2, e3, e4⟩ := parseVarint_some hp
    refine ⟨hi, b, rest, n, e1, e2, e3, e4, rfl, ?_⟩
    have hlen : range.length = hi.length + 1 + rest.length := by rw [e1]; simp; omega
    have hr : range.length = limit - p := by
      simp only [range, List.length_take, List.length_drop]; omega
    simp only [ptrResult]
    congr 3; omega

/-- C04 (slice versions): on any slice both readers return without fault; they report failure exactly
when there is no byte below 128 among the first 5 (10), and then input slice and output value are
untouched; otherwise the slice is advanced, inside its old extent, just past the first such byte. -/
theorem C04_varint_slice (s : Slice) (hwf : s.WF) :
    (∀ v : UInt32, ((∀ x ∈ s.bytes.take 5, 128 ≤ x.toNat) ∧ GetVarint32 s v = .ok (false, s, v)) ∨
      (∃ hi b rest s' v', s.bytes = hi ++ b :: rest ∧ (∀ x ∈ hi, 128 ≤ x.toNat) ∧ b.toNat < 128 ∧
        hi.length < 5 ∧ GetVarint32 s v = .ok (true, s', v') ∧ s'.buf = s.buf ∧
        s'.off = s.off + hi.length + 1 ∧ s'.off + s'.len = s.off + s.len ∧ s'.bytes = rest)) ∧
    (∀ v : UInt64, ((∀ x ∈ s.bytes.take 10, 128 ≤ x.toNat) ∧ GetVarint64 s v = .ok (false, s, v)) ∨
      (∃ hi b rest s' v', s.bytes = hi ++ b :: rest ∧ (∀ x ∈ hi, 128 ≤ x.toNat) ∧ b.toNat < 128 ∧
        hi.length < 10 ∧ GetVarint64 s v = .ok (true, s', v') ∧ s'.buf = s.buf ∧
        s'.off = s.off + hi.length + 1 ∧ s'.off + s'.len = s.off + s.len ∧ s'.bytes = rest)) := by
  constructor
  · intro v
    rw [GetVarint32_eq s v hwf]
    cases hp : parseVarint 5 s.bytes with
    | none => left; exact ⟨parseVarint_none_iff.mp hp, rfl⟩
    | some r =>
      obtain ⟨n, rest⟩ := r
      right
      obtain ⟨hi, b, e1, e2, e3, e4⟩ := parseVarint_some hp
      have hl : s.len = hi.length + 1 + rest.length := by
        rw [← Slice.bytes_length hwf, e1]; simp; omega
      refine ⟨hi, b, rest, _, _, e1, e2, e3, e4, rfl, rfl, ?_, ?_, ?_⟩
      · simp only [keepLast]; omega
      · simp only [keepLast]; omega
      · exact keepLast_bytes hwf (pre := hi ++ [b]) (by simpa using e1)
  · intro v
    rw [GetVarint64_eq s v hwf]
    cases hp : parseVarint 10 s.bytes with
    | none => left; exact ⟨parseVarint_none_iff.mp hp, rfl⟩
    | some r =>
      obtain ⟨n, rest⟩ := r
      right
      obtain ⟨hi, b, e1, e2, e3, e4⟩ := parseVarint_some hp
      have hl : s.len = hi.length + 1 + rest.length := by
        rw [← Slice.bytes_length hwf, e1]; simp; omega
      refine ⟨hi, b, rest, _, _, e1, e2, e3, e4, rfl, rfl, ?_, ?_, ?_⟩
      · simp only [keepLast]; omega
      · simp only [keepLast]; omega
      · exact keepLast_bytes hwf (pre := hi ++ [b]) (by simpa using e1)

/-- C04: every strict prefix of a valid encoding is rejected by both readers, leaving input and
output untouched. -/
theorem C04_truncated (n j : Nat) (h : j < (leb128 n).length) (s : Slice) (hwf : s.WF)
    (hb : s.bytes = (leb128 n).take j) (v : UInt32) (w : UInt64) :
    GetVarint32 s v = .ok (false, s, v) ∧ GetVarint64 s w = .ok (false, s, w) := by
  rw [GetVarint32_eq s v hwf, GetVarint64_eq s w hwf, hb, parse_leb128_prefix _ _ _ h,
    parse_leb128_prefix _ _ _ h]
  exact ⟨rfl, rfl⟩

/-- C04: the outcome does not depend on anything outside the range, nor on where it lies. -/
theorem C04_locality (buf buf' : Bytes) (p p' n : Nat) (h : p + n ≤ buf.length)
    (h' : p' + n ≤ buf'.length) (heq : (buf.drop p).take n = (buf'.drop p').take n) :
    (∀ v q, GetVarint32Ptr buf p (p + n) = .ok (some (v, p + q)) ↔
      GetVarint32Ptr buf' p' (p' + n) = .ok (some (v, p' + q))) ∧
    (GetVarint32Ptr buf p (p + n) = .ok none ↔ GetVarint32Ptr buf' p' (p' + n) = .ok none) ∧
    (∀ v q, GetVarint64Ptr buf p (p + n) = .ok (some (v, p + q)) ↔
      GetVarint64Ptr buf' p' (p' + n) = .ok (some (v, p' + q))) ∧
    (GetVarint64Ptr buf p (p + n) = .ok none ↔ GetVarint64Ptr buf' p' (p' + n) = .ok none) := by
  rw [GetVarint32Ptr_eq _ _ _ h, GetVarint32Ptr_eq _ _ _ h', GetVarint64Ptr_eq _ _ _ h,
    GetVarint64Ptr_eq _ _ _ h', Nat.add_sub_cancel_left, Nat.add_sub_cancel_left, ← heq]
  have key (k : Nat) (r : Nat × Bytes)
      (hr : parseVarint k ((buf.drop p).take n) = some r) : r.2.length < n := by
    have := parse_range_rest_length (v := r.1) (rest := r.2) hr
    simp only [List.length_take, List.length_drop] at this; omega
  refine ⟨?_, ?_, ?_, ?_⟩
  · intro v q
    cases hp : parseVarint 5 ((buf.drop p).take n) with
    | none => simp [ptrResult]
    | some r =>
      have := key 5 r hp
      simp only [ptrResult, Except.ok.injEq, Option.some.injEq, Prod.mk.injEq]
      constructor <;> rintro ⟨a, b⟩ <;> exact ⟨a, by omega⟩
  · cases parseVarint 5 ((buf.drop p).take n) <;> simp [ptrResult]
  · intro v q
    cases hp : parseVarint 10 ((buf.drop p).take n) with
    | none => simp [ptrResult]
    | some r =>
      have := key 10 r hp
      simp only [ptrResult, Except.ok.injEq, Option.some.injEq, Prod.mk.injEq]
      constructor <;> rintro ⟨a, b⟩ <;> exact ⟨a, by omega⟩
  · cases parseVarint 10 ((buf.drop p).take n) <;> simp [ptrResult]

example : (Slice.mk [200, 255, 3, 4] 0 4).WF := by decide
example : 1 < (leb128 300).length ∧ (Slice.mk [172, 9] 0 1).WF ∧
    (Slice.mk [172, 9] 0 1).bytes = (leb128 300).take 1 := by
  simp [leb128, Slice.WF, Slice.bytes]
example : GetVarint32Ptr [255, 255, 255, 255, 255, 1] 0 6 = .ok none := by
  rw [GetVarint32Ptr_eq _ _ _ (by decide)]; decide

/-! ## C05 -/

/-- A client writing slices one after the other. -/
def putSlices (dst : Bytes) : List Slice → M Bytes
  | [] => .ok dst
  | x :: xs => do putSlices (← PutLengthPrefixedSlice dst x) xs

/-- A client reading `k` slices; `none` as soon as a read reports failure. -/
def getSlices (s : Slice) : Nat → M (Option (List Slice × Slice))
  | 0 => .ok (some ([], s))
  | k + 1 => do
    let (ok, s, r) ← GetLengthPrefixedSlice s Slice.empty
    if ok then
      match ← getSlices s k with
      | some (rs, s) => return some (r :: rs, s)
      | none => return none
    else return none

/-- Evaluation of `GetLengthPrefixedSlice` on any slice. -/
theorem getLPS_eq (s r : Slice) (h : s.WF) :
    GetLengthPrefixedSlice s r = .ok (match parseVarint 5 s.bytes with
      | none => (false, s, r)
      | some (n, rest) =>
        let n := n % 2 ^ 32
        if n ≤ rest.length then
          (true, keepLast s (rest.length - n), ⟨s.buf, s.off + s.len - rest.length, n⟩)
        else (false, keepLast s rest.length, r)) := by
  rw [GetLengthPrefixedSlice, GetVarint32_eq s 0 h]
  cases hp : parseVarint 5 s.bytes with
  | none => rfl
  | some x =>
    obtain ⟨n, rest⟩ := x
    have hlt := parse_range_rest_length hp
    rw [Slice.bytes_length h] at hlt
    simp only [bind, Except.bind, Bool.true_and, keepLast, UInt32.toNat_ofNat', ge_iff_le,
      decide_eq_true_eq]
    by_cases hn : n % 2 ^ 32 ≤ rest.length
    · rw [if_pos hn, if_pos hn]
      simp only [Slice.removePrefix, cassert, hn, decide_true, if_true, bind, Except.bind, pure,
        Except.pure]
      congr 4
      omega
    · rw [if_neg hn, if_neg hn]; rfl

/-- C05, one string: reading back, from any slice that starts with the written bytes, yields a slice
with exactly those bytes (those of its first `len mod 2^32` bytes, i.e. all of them below 4 GiB)
and leaves exactly the rest. -/
theorem C05_one (dst : Bytes) (x : Slice) (hx : x.WF) :
    ∃ enc, PutLengthPrefixedSlice dst x = .ok (dst ++ enc) ∧
      ∀ (s r0 : Slice) (rest : Bytes), s.WF → s.bytes = enc ++ rest →
        ∃ s' r, GetLengthPrefixedSlice s r0 = .ok (true, s', r) ∧ r.WF ∧ s'.WF ∧
          r.bytes = x.bytes.take (x.len % 2 ^ 32) ∧
          s'.bytes = x.bytes.drop (x.len % 2 ^ 32) ++ rest := by
  have hx' : x.off + x.len ≤ x.buf.length := hx
  have hxl := Slice.bytes_length hx
  refine ⟨leb128 (x.len % 2 ^ 32) ++ x.bytes, ?_, ?_⟩
  · rw [PutLengthPrefixedSlice, PutVarint32_eq]
    simp only [bind, Except.bind, Slice.toString, if_pos hx', UInt32.toNat_ofNat', pure,
      Except.pure, List.append_assoc]
    rfl
  · intro s r0 rest hwf hb
    have hmod : x.len % 2 ^ 32 < 2 ^ 32 := Nat.mod_lt _ (by decide)
    have hle : x.len % 2 ^ 32 ≤ x.len := Nat.mod_le _ _
    generalize x.len % 2 ^ 32 = n at *
    have hlen : s.len = (leb128 n).length + x.len + rest.length := by
      rw [← Slice.bytes_length hwf, hb]; simp [hxl, Nat.add_assoc]
    rw [List.append_assoc] at hb
    rw [getLPS_eq s r0 hwf, hb, parse_leb128 4 _ _ (by omega)]
    have hll : (x.bytes ++ rest).length = x.len + rest.length := by simp [hxl]
    simp only [hll, Nat.mod_eq_of_lt hmod]
    rw [if_pos (by omega)]
    have hwf' : s.off + s.len ≤ s.buf.length := hwf
    refine ⟨_, _, rfl, ?_, keepLast_WF hwf (by omega), ?_, ?_⟩
    · simp only [Slice.WF]; omega
    · have hk := keepLast_bytes hwf hb
      have e : (Slice.mk s.buf (s.off + s.len - (x.len + rest.length)) n).bytes =
          ((keepLast s (x.bytes ++ rest).length).bytes).take n := by
        simp only [keepLast, hll]
        simp only [Slice.bytes, List.take_take]
        congr 1; omega
      rw [e, hk, List.take_append_of_le_length (by omega)]
    · have hk := keepLast_bytes hwf (pre := leb128 n ++ x.bytes.take n)
        (rest := x.bytes.drop n ++ rest) (by
          rw [hb, List.append_assoc, ← List.append_assoc (List.take n x.bytes),
            List.take_append_drop])
      have e2 : (x.bytes.drop n ++ rest).length = x.len + rest.length - n := by
        simp [hxl]; omega
      rw [← e2, hk]

/-- C05: any list of strings shorter than 2^32 bytes, written one after the other, is read back in
order, leaving exactly what followed. -/
theorem C05_stream (dst : Bytes) (xs : List Slice)
    (hx : ∀ x ∈ xs, x.WF ∧ x.len < 2 ^ 32) :
    ∃ enc, putSlices dst xs = .ok (dst ++ enc) ∧
      ∀ (s : Slice) (rest : Bytes), s.WF → s.bytes = enc ++ rest →
        ∃ s' rs, getSlices s xs.length = .ok (some (rs, s')) ∧
          rs.map Slice.bytes = xs.map Slice.bytes ∧ s'.WF ∧ s'.bytes = rest := by
  induction xs generalizing dst with
  | nil =>
    exact ⟨[], by simp [putSlices], fun s rest hwf hb =>
      ⟨s, [], by simp [getSlices], rfl, hwf, by simpa using hb⟩⟩
  | cons x xs ih =>
    obtain ⟨hxw, hxl⟩ := hx x (by simp)
    obtain ⟨e1, h1, r1⟩ := C05_one dst x hxw
    obtain ⟨e2, h2, r2⟩ := ih (dst ++ e1) (fun y hy => hx y (by simp [hy]))
    refine ⟨e1 ++ e2, ?_, ?_⟩
    · simp [putSlices, h1, h2, bind, Except.bind]
    · intro s rest hwf hb
      obtain ⟨s1, r, g1, _, w1, br, bs⟩ := r1 s Slice.empty (e2 ++ rest) hwf (by simpa using hb)
      rw [Nat.mod_eq_of_lt hxl] at br bs
      have hxl' := Slice.bytes_length hxw
      rw [List.take_of_length_le (by omega)] at br
      rw [List.drop_of_length_le (by omega), List.nil_append] at bs
      obtain ⟨s2, rs, g2, m2, w2, b2⟩ := r2 s1 rest w1 bs
      refine ⟨s2, r :: rs, ?_, ?_, w2, b2⟩
      · simp [getSlices, g1, g2, bind, Except.bind, pure, Except.pure]
      · simp [br, m2]

/-- C05, arbitrary input: `GetLengthPrefixedSlice` on any slice returns without fault; on success the
result lies wholly inside the input, immediately followed by the remaining input, which extends to
the end of the old one; on failure the result slice is unchanged and the input is either unchanged or
advanced inside its old extent. -/
theorem C05_safe (s r0 : Slice) (hwf : s.WF) :
    ∃ ok s' r, GetLengthPrefixedSlice s r0 = .ok (ok, s', r) ∧
      s'.buf = s.buf ∧ s.off ≤ s'.off ∧ s'.off + s'.len = s.off + s.len ∧
      (ok = true → r.buf = s.buf ∧ s.off < r.off ∧ r.off + r.len = s'.off) ∧
      (ok = false → r = r0) := by
  rw [getLPS_eq s r0 hwf]
  cases hp : parseVarint 5 s.bytes with
  | none => exact ⟨false, s, r0, rfl, rfl, Nat.le_refl _, rfl, by simp, by simp⟩
  | some x =>
    obtain ⟨n, rest⟩ := x
    have hlt := parse_range_rest_length hp
    rw [Slice.bytes_length hwf] at hlt
    by_cases hn : n % 2 ^ 32 ≤ rest.length
    · simp only [hn, if_true]
      exact ⟨true, _, _, rfl, rfl, by simp only [keepLast]; omega, by simp only [keepLast]; omega,
        fun _ => ⟨rfl, by simp only; omega, by simp only [keepLast]; omega⟩, by simp⟩
    · simp only [hn, if_false]
      exact ⟨false, _, _, rfl, rfl, by simp only [keepLast]; omega, by simp only [keepLast]; omega,
        by simp, by simp⟩

/-- C05, when it succeeds: exactly when the input starts with a complete length and at least that
many bytes follow. -/
theorem C05_succeeds_iff (s r0 : Slice) (hwf : s.WF) :
    (∃ s' r, GetLengthPrefixedSlice s r0 = .ok (true, s', r)) ↔
      ∃ n rest, parseVarint 5 s.bytes = some (n, rest) ∧ n % 2 ^ 32 ≤ rest.length := by
  rw [getLPS_eq s r0 hwf]
  cases hp : parseVarint 5 s.bytes with
  | none => simp
  | some x =>
    obtain ⟨n, rest⟩ := x
    by_cases hn : n % 2 ^ 32 ≤ rest.length
    · simp only [hn, if_true]
      exact ⟨fun _ => ⟨n, rest, rfl, hn⟩, fun _ => ⟨_, _, rfl⟩⟩
    · simp only [hn, if_false]
      constructor
      · rintro ⟨_, _, h⟩; simp at h
      · rintro ⟨n', rest', h, h'⟩
        simp only [Option.some.injEq, Prod.mk.injEq] at h
        rw [h.1, h.2] at hn; exact absurd h' hn

/-- C05, the pointer overload: on any range inside its storage it returns without fault; a result
lies inside the range, after the length, and ends at the returned pointer. -/
theorem C05_ptr_safe (buf : Bytes) (p limit : Nat) (h : limit ≤ buf.length) :
    GetLengthPrefixedSlicePtr buf p limit = .ok none ∨
    ∃ r q, GetLengthPrefixedSlicePtr buf p limit = .ok (some (r, q)) ∧ r.buf = buf ∧ p < r.off ∧
      r.off + r.len = q ∧ q ≤ limit ∧ r.WF := by
  rw [GetLengthPrefixedSlicePtr]
  rcases C04_varint32_ptr buf p limit h with ⟨hi, b, rest, n, h1, h2, h3, h4, h5, h6⟩ | ⟨_, h6⟩
  · simp only [h6, bind, Except.bind]
    split
    · left; rfl
    · rename_i hle
      right
      refine ⟨_, _, rfl, rfl, by simp only; omega, rfl, by omega, by simp only [Slice.WF]; omega⟩
  · simp only [h6, bind, Except.bind]; left; rfl

/-- C05: both overloads agree on success and on the bytes found. -/
theorem C05_overloads_agree (s r0 : Slice) (hwf : s.WF) :
    (∀ r q, GetLengthPrefixedSlicePtr s.buf s.off (s.off + s.len) = .ok (some (r, q)) ↔
      GetLengthPrefixedSlice s r0 = .ok (true, ⟨s.buf, q, s.off + s.len - q⟩, r) ∧
        r.off + r.len = q) := by
  intro r q
  have hb : (s.buf.drop s.off).take (s.off + s.len - s.off) = s.bytes := by
    rw [Slice.bytes]; congr 1; omega
  rw [getLPS_eq s r0 hwf, GetLengthPrefixedSlicePtr, GetVarint32Ptr_eq _ _ _ hwf, hb]
  cases hp : parseVarint 5 s.bytes with
  | none => simp [ptrResult, bind, Except.bind, pure, Except.pure]
  | some x =>
    obtain ⟨n, rest⟩ := x
    have hlt := parse_range_rest_length hp
    rw [Slice.bytes_length hwf] at hlt
    simp only [ptrResult, bind, Except.bind, UInt32.toNat_ofNat']
    by_cases hn : n % 2 ^ 32 ≤ rest.length
    · rw [if_neg (by omega)]
      simp only [hn, if_true, pure, Except.pure, Except.ok.injEq, Option.some.injEq, Prod.mk.injEq,
        keepLast, true_and, Slice.mk.injEq]
      constructor
      · rintro ⟨rfl, rfl⟩
        exact ⟨⟨⟨by omega, by omega⟩, rfl⟩, rfl⟩
      · rintro ⟨⟨_, rfl⟩, h2⟩
        exact ⟨rfl, by simpa using h2⟩
    · rw [if_pos (by omega)]
      simp [hn, pure, Except.pure]

example : (Slice.ofBytes [1, 2, 3]).WF ∧ (Slice.ofBytes [1, 2, 3]).len < 2 ^ 32 := by decide
example : GetLengthPrefixedSlice ⟨[2, 7, 8, 9], 0, 4⟩ Slice.empty =
    .ok (true, ⟨[2, 7, 8, 9], 3, 1⟩, ⟨[2, 7, 8, 9], 1, 2⟩) := by
  rw [getLPS_eq _ _ (by decide)]; rfl

end Props
end Lsmdb
