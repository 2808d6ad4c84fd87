import Verif.Model.Slice

/-!
# Model of `util/coding.h` and `util/coding.cc`

A routine that writes into a caller-supplied buffer (`char* dst`) is modelled as returning the list
of bytes it stores at `dst[0], dst[1], ...` in order; the pointer it returns is `dst` plus the length
of that list.  A routine that reads through `const char* p` gets the storage object `buf` and the
index `p` (and `limit`), and every read is bounds-checked against the storage object.
-/

namespace Lsmdb
namespace Coding

/-- `EncodeFixed32` (util/coding.h:53-61). -/
def EncodeFixed32 (value : UInt32) : Bytes :=
  [ value.toUInt8, (value >>> 8).toUInt8, (value >>> 16).toUInt8, (value >>> 24).toUInt8 ]

/-- `EncodeFixed64` (util/coding.h:63-75). -/
def EncodeFixed64 (value : UInt64) : Bytes :=
  [ value.toUInt8, (value >>> 8).toUInt8, (value >>> 16).toUInt8, (value >>> 24).toUInt8,
    (value >>> 32).toUInt8, (value >>> 40).toUInt8, (value >>> 48).toUInt8, (value >>> 56).toUInt8 ]

/-- `DecodeFixed32` (util/coding.h:80-88): "without any bounds checking" — out of range is a fault. -/
def DecodeFixed32 (buf : Bytes) (p : Nat) : M UInt32 := do
  let b0 ← rd buf p
  let b1 ← rd buf (p + 1)
  let b2 ← rd buf (p + 2)
  let b3 ← rd buf (p + 3)
  return b0.toUInt32 ||| (b1.toUInt32 <<< 8) ||| (b2.toUInt32 <<< 16) ||| (b3.toUInt32 <<< 24)

/-- `DecodeFixed64` (util/coding.h:90-102). -/
def DecodeFixed64 (buf : Bytes) (p : Nat) : M UInt64 := do
  let b0 ← rd buf p
  let b1 ← rd buf (p + 1)
  let b2 ← rd buf (p + 2)
  let b3 ← rd buf (p + 3)
  let b4 ← rd buf (p + 4)
  let b5 ← rd buf (p + 5)
  let b6 ← rd buf (p + 6)
  let b7 ← rd buf (p + 7)
  return b0.toUInt64 ||| (b1.toUInt64 <<< 8) ||| (b2.toUInt64 <<< 16) ||| (b3.toUInt64 <<< 24) |||
    (b4.toUInt64 <<< 32) ||| (b5.toUInt64 <<< 40) ||| (b6.toUInt64 <<< 48) ||| (b7.toUInt64 <<< 56)

/-- `PutFixed32` (util/coding.cc:9-13). -/
def PutFixed32 (dst : Bytes) (value : UInt32) : Bytes := dst ++ EncodeFixed32 value

/-- `PutFixed64` (util/coding.cc:15-19). -/
def PutFixed64 (dst : Bytes) (value : UInt64) : Bytes := dst ++ EncodeFixed64 value

/-- `EncodeVarint32` (util/coding.cc:21-47), the unrolled cascade. -/
def EncodeVarint32 (v : UInt32) : Bytes :=
  if v < ((1 : UInt32) <<< 7) then
    [v.toUInt8]
  else if v < ((1 : UInt32) <<< 14) then
    [(v ||| 128).toUInt8, (v >>> 7).toUInt8]
  else if v < ((1 : UInt32) <<< 21) then
    [(v ||| 128).toUInt8, ((v >>> 7) ||| 128).toUInt8, (v >>> 14).toUInt8]
  else if v < ((1 : UInt32) <<< 28) then
    [(v ||| 128).toUInt8, ((v >>> 7) ||| 128).toUInt8, ((v >>> 14) ||| 128).toUInt8,
      (v >>> 21).toUInt8]
  else
    [(v ||| 128).toUInt8, ((v >>> 7) ||| 128).toUInt8, ((v >>> 14) ||| 128).toUInt8,
      ((v >>> 21) ||| 128).toUInt8, (v >>> 28).toUInt8]

theorem shr7_lt {v : UInt64} (h : 128 ≤ v) : (v >>> 7).toNat < v.toNat := by
  have h1 : 128 ≤ v.toNat := by simpa [UInt64.le_iff_toNat_le] using h
  rw [UInt64.toNat_shiftRight]
  simp [Nat.shiftRight_eq_div_pow]
  omega

/-- `EncodeVarint64` (util/coding.cc:55-64): `while (v >= B) { *(ptr++) = v | B; v >>= 7; }`. -/
def EncodeVarint64 (v : UInt64) : Bytes :=
  if _h : 128 ≤ v then
    (v ||| 128).toUInt8 :: EncodeVarint64 (v >>> 7)
  else
    [v.toUInt8]
termination_by v.toNat
decreasing_by exact shr7_lt (by assumption)

/-- Append the bytes an `Encode...` routine stored into a local array `char buf[cap]`: overrunning
the array is a fault (util/coding.cc:49-53, 66-70). -/
def appendBuf (cap : Nat) (dst enc : Bytes) : M Bytes :=
  if enc.length ≤ cap then .ok (dst ++ enc) else .error .outOfBounds

/-- `PutVarint32` (util/coding.cc:49-53), `char buf[5]`. -/
def PutVarint32 (dst : Bytes) (v : UInt32) : M Bytes := appendBuf 5 dst (EncodeVarint32 v)

/-- `PutVarint64` (util/coding.cc:66-70), `char buf[10]`. -/
def PutVarint64 (dst : Bytes) (v : UInt64) : M Bytes := appendBuf 10 dst (EncodeVarint64 v)

/-- `PutLengthPrefixedSlice` (util/coding.cc:72-75): `value.size()` is converted to `uint32_t`. -/
def PutLengthPrefixedSlice (dst : Bytes) (value : Slice) : M Bytes := do
  let dst ← PutVarint32 dst (UInt32.ofNat value.len)
  let s ← value.toString
  return dst ++ s

/-- The loop of `VarintLength` (util/coding.cc:77-84). -/
def varintLengthLoop (v : UInt64) (len : Nat) : Nat :=
  if _h : 128 ≤ v then varintLengthLoop (v >>> 7) (len + 1) else len
termination_by v.toNat
decreasing_by exact shr7_lt (by assumption)

/-- `VarintLength` (util/coding.cc:77-84). -/
def VarintLength (v : UInt64) : Nat := varintLengthLoop v 1

/-- The loop of `GetVarint32PtrFallback` (util/coding.cc:86-102).  `none` is `nullptr` (and then
`*value` is not written); `some (value, p)` is the stored value and the returned pointer. -/
def getVarint32Loop (buf : Bytes) (limit : Nat) (shift p : Nat) (result : UInt32) :
    M (Option (UInt32 × Nat)) :=
  if shift ≤ 28 ∧ p < limit then do
    let byte := (← rd buf p).toUInt32
    if byte &&& 128 ≠ 0 then
      getVarint32Loop buf limit (shift + 7) (p + 1)
        (result ||| ((byte &&& 127) <<< UInt32.ofNat shift))
    else
      return some (result ||| (byte <<< UInt32.ofNat shift), p + 1)
  else return none
termination_by 35 - shift

/-- `GetVarint32PtrFallback` (util/coding.cc:86-102). -/
def GetVarint32PtrFallback (buf : Bytes) (p limit : Nat) : M (Option (UInt32 × Nat)) :=
  getVarint32Loop buf limit 0 p 0

/-- `GetVarint32Ptr` (util/coding.h:107-117), fast path and fallback. -/
def GetVarint32Ptr (buf : Bytes) (p limit : Nat) : M (Option (UInt32 × Nat)) := do
  if p < limit then
    let result := (← rd buf p).toUInt32
    if result &&& 128 = 0 then
      return some (result, p + 1)
    else GetVarint32PtrFallback buf p limit
  else GetVarint32PtrFallback buf p limit

/-- `GetVarint32` (util/coding.cc:104-114).  Result: the returned bool, the new `*input`, the new
`*value` (given the old one). -/
def GetVarint32 (input : Slice) (value : UInt32) : M (Bool × Slice × UInt32) := do
  let p := input.off
  let limit := p + input.len
  match ← GetVarint32Ptr input.buf p limit with
  | none => return (false, input, value)
  | some (v, q) => return (true, ⟨input.buf, q, limit - q⟩, v)

/-- The loop of `GetVarint64Ptr` (util/coding.cc:116-131). -/
def getVarint64Loop (buf : Bytes) (limit : Nat) (shift p : Nat) (result : UInt64) :
    M (Option (UInt64 × Nat)) :=
  if shift ≤ 63 ∧ p < limit then do
    let byte := (← rd buf p).toUInt64
    if byte &&& 128 ≠ 0 then
      getVarint64Loop buf limit (shift + 7) (p + 1)
        (result ||| ((byte &&& 127) <<< UInt64.ofNat shift))
    else
      return some (result ||| (byte <<< UInt64.ofNat shift), p + 1)
  else return none
termination_by 70 - shift

/-- `GetVarint64Ptr` (util/coding.cc:116-131). -/
def GetVarint64Ptr (buf : Bytes) (p limit : Nat) : M (Option (UInt64 × Nat)) :=
  getVarint64Loop buf limit 0 p 0

/-- `GetVarint64` (util/coding.cc:133-143). -/
def GetVarint64 (input : Slice) (value : UInt64) : M (Bool × Slice × UInt64) := do
  let p := input.off
  let limit := p + input.len
  match ← GetVarint64Ptr input.buf p limit with
  | none => return (false, input, value)
  | some (v, q) => return (true, ⟨input.buf, q, limit - q⟩, v)

/-- `GetLengthPrefixedSlice(const char* p, const char* limit, Slice* result)`
(util/coding.cc:145-153).  Simplification: addresses are unbounded, so `p + len` does not wrap (in
C++ forming it beyond the end of the object is formally undefined). -/
def GetLengthPrefixedSlicePtr (buf : Bytes) (p limit : Nat) : M (Option (Slice × Nat)) := do
  match ← GetVarint32Ptr buf p limit with
  | none => return none
  | some (len, p) =>
    if p + len.toNat > limit then return none
    else return some (⟨buf, p, len.toNat⟩, p + len.toNat)

/-- `GetLengthPrefixedSlice(Slice* input, Slice* result)` (util/coding.cc:155-164).  Result: the
returned bool, the new `*input` (note: advanced past the length even when the call fails because too
few bytes follow), the new `*result`.  The uninitialised local `len` is only read when GetVarint32
succeeded and set it; its initial value is the arbitrary `0` here. -/
def GetLengthPrefixedSlice (input result : Slice) : M (Bool × Slice × Slice) := do
  let (ok, input, len) ← GetVarint32 input 0
  if ok && decide (input.len ≥ len.toNat) then
    let result := ⟨input.buf, input.off, len.toNat⟩
    let input ← input.removePrefix len.toNat
    return (true, input, result)
  else return (false, input, result)

end Coding
end Lsmdb
