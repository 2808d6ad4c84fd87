import Verif.Model.Basic

/-!
# What the wire formats are, independent of the code
-/

namespace Lsmdb.Spec

/-- The `k` base-256 digits of `n`, least significant first. -/
def leBytes : (k : Nat) → (n : Nat) → Bytes
  | 0, _ => []
  | k + 1, n => UInt8.ofNat (n % 256) :: leBytes k (n / 256)

/-- The number whose base-256 digits, least significant first, are the given bytes. -/
def leValue : Bytes → Nat
  | [] => 0
  | b :: bs => b.toNat + 256 * leValue bs

/-- Varint (LEB128) encoding of a number: 7-bit groups, least significant first, the high bit set on
all but the last. -/
def leb128 (n : Nat) : Bytes :=
  if n < 128 then [UInt8.ofNat n]
  else UInt8.ofNat (n % 128 + 128) :: leb128 (n / 128)

/-- Parse a varint of at most `maxBytes` bytes from the front of a byte string: the number and the
remaining bytes, or `none` if none of the first `maxBytes` bytes is below 128. -/
def parseVarint : (maxBytes : Nat) → Bytes → Option (Nat × Bytes)
  | 0, _ => none
  | _ + 1, [] => none
  | k + 1, b :: bs =>
    if b.toNat < 128 then some (b.toNat, bs)
    else match parseVarint k bs with
      | none => none
      | some (v, rest) => some (b.toNat - 128 + 128 * v, rest)

end Lsmdb.Spec
