import Verif.Model.Random
import Verif.Model.Slice

/-!
# Model of `util/test_util.cc`

`M (Option α)`: `none` is an exception (`std::length_error` from `std::string::resize`).  The header declares
`RandomString(Random*, int)` (util/test_util.h:35), which is defined nowhere; the model is of what the source file defines.
-/

namespace Lsmdb
namespace TestUtil

/-- `std::string::resize(n)`; `n` is converted to `size_t`, and a string cannot have `2^63` or more characters (C++ library). -/
def resize (s : Bytes) (n : Int) : Option Bytes :=
  if n < 0 ∨ n ≥ 2 ^ 63 then none else some (s.take n.toNat ++ List.replicate (n.toNat - s.length) 0)

/-- The loop of `RandomString` (util/test_util.cc:16-18), from `i` on. -/
def randomLoop (len : Int) (i : Nat) (seed : UInt32) (dst : Bytes) : M (UInt32 × Bytes) :=
  if (i : Int) < len then do
    let (u, seed) ← Random.Uniform seed 95
    if i < dst.length then randomLoop len (i + 1) seed (dst.set i (32 + u.toUInt8))
    else .error .outOfBounds
  else return (seed, dst)
termination_by (len - i).toNat

/-- `RandomString` (util/test_util.cc:14-20): the generator afterwards, `*dst`, and the slice returned. -/
def RandomString (seed : UInt32) (len : Int) (dst : Bytes) : M (Option (UInt32 × Bytes × Slice)) := do
  match resize dst len with
  | none => return none
  | some dst =>
    let (seed, dst) ← randomLoop len 0 seed dst
    return some (seed, dst, Slice.ofBytes dst)

/-- `kTestChars` (util/test_util.cc:25-26). -/
def kTestChars : Bytes := [0, 1, 97, 98, 99, 100, 101, 253, 254, 255]

/-- The loop of `RandomKey` (util/test_util.cc:28-30). -/
def keyLoop (len : Int) (i : Nat) (seed : UInt32) (result : Bytes) : M (UInt32 × Bytes) :=
  if (i : Int) < len then do
    let (u, seed) ← Random.Uniform seed kTestChars.length
    let c ← rd kTestChars u.toNat
    keyLoop len (i + 1) seed (result ++ [c])
  else return (seed, result)
termination_by (len - i).toNat

/-- `RandomKey` (util/test_util.cc:22-32): the generator afterwards, and the result. -/
def RandomKey (seed : UInt32) (len : Int) : M (UInt32 × Bytes) := keyLoop len 0 seed []

/-- The loop of `CompressibleString` (util/test_util.cc:42-44). -/
def fillLoop (raw_data : Bytes) (len : Nat) (dst : Bytes) : M Bytes :=
  if dst.length < len then
    if 0 < raw_data.length then fillLoop raw_data len (dst ++ raw_data) else .error .diverges
  else return dst
termination_by len - dst.length
decreasing_by simp only [List.length_append]; omega

/-- Conversion of a floating-point number to an integer drops the fraction (C++). -/
def trunc (x : Rat) : Int := if x < 0 then -(-x).floor else x.floor

/-- `CompressibleString` (util/test_util.cc:34-47).  `round` is the rounding of a product to a `double`; infinities and NaN are not
modelled.  Converting a number out of the range of `int` is undefined. -/
def CompressibleString (round : Rat → Rat) (seed : UInt32) (compressed_function : Rat) (len : Nat) (dst : Bytes) :
    M (Option (UInt32 × Bytes × Slice)) := do
  let raw := trunc (round (len * compressed_function))
  if raw < -2 ^ 31 ∨ raw ≥ 2 ^ 31 then throw .arith
  let raw := if raw < 1 then 1 else raw
  match ← RandomString seed raw [] with
  | none => return none
  | some (seed, raw_data, _) =>
    let dst ← fillLoop raw_data len []
    match resize dst len with
    | none => return none
    | some dst => return some (seed, dst, Slice.ofBytes dst)

end TestUtil
end Lsmdb
