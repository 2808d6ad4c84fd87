import Verif.Model.Basic

/-!
# Model of `util/random.h`

The object is its single field `seed_`; a method returns its result and the new `seed_`.
-/

namespace Lsmdb
namespace Random

/-- `explicit Random(uint32_t s)` (util/random.h:20-25). -/
def init (s : UInt32) : UInt32 :=
  let seed := s &&& 0x7fffffff
  if seed = 0 ∨ seed = 2147483647 then 1 else seed

/-- `uint32_t Next()` (util/random.h:27-47).  The product is 64 bits wide; the sum is truncated to
32 bits by the cast.  Result and new `seed_` coincide. -/
def Next (seed : UInt32) : UInt32 :=
  let M : UInt32 := 2147483647
  let A : UInt64 := 16807
  let product : UInt64 := seed.toUInt64 * A
  let seed : UInt32 := ((product >>> 31) + (product &&& M.toUInt64)).toUInt32
  if seed > M then seed - M else seed

/-- `uint32_t Uniform(int n)` (util/random.h:51): `Next() % n`; the `int` is converted to `uint32_t`,
division by zero is a fault. -/
def Uniform (seed : UInt32) (n : Int) : M (UInt32 × UInt32) :=
  let s := Next seed
  let d := UInt32.ofNat (n % 2 ^ 32).toNat
  if d = 0 then .error .arith else .ok (s % d, s)

/-- `bool OneIn(int n)` (util/random.h:55). -/
def OneIn (seed : UInt32) (n : Int) : M (Bool × UInt32) :=
  let s := Next seed
  let d := UInt32.ofNat (n % 2 ^ 32).toNat
  if d = 0 then .error .arith else .ok (s % d == 0, s)

/-- `uint32_t Skewed(int max_log)` (util/random.h:60): `Uniform(1 << Uniform(max_log + 1))`; the
`int` addition must not overflow, and the `int` shift must produce a representable value. -/
def Skewed (seed : UInt32) (max_log : Int) : M (UInt32 × UInt32) := do
  if max_log ≥ 2 ^ 31 - 1 then throw .arith
  let (k, seed) ← Uniform seed (max_log + 1)
  if k.toNat ≥ 31 then throw .arith
  Uniform seed (2 ^ k.toNat)

end Random
end Lsmdb
