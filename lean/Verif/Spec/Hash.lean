import Verif.Spec.Coding

/-!
# The hash function as a function of a byte string, independent of the code

All arithmetic on natural numbers modulo 2^32.
-/

namespace Lsmdb.Spec

/-- The multiplier. -/
def hashM : Nat := 0xc6a4a793

/-- Mix one (little-endian) number into the state, folding the result by `s` bits. -/
def mix (s h w : Nat) : Nat :=
  let x := ((h + w) * hashM) % 2 ^ 32
  x ^^^ (x / 2 ^ s)

/-- Mix in complete 4-byte words (fold by 16), then the 1–3 remaining bytes, if any (fold by 24). -/
def hashBytes (h : Nat) : Bytes → Nat
  | a :: b :: c :: d :: rest => hashBytes (mix 16 h (leValue [a, b, c, d])) rest
  | [] => h
  | tail => mix 24 h (leValue tail)

/-- The hash of a byte string under a 32-bit seed. -/
def hash (seed : Nat) (bs : Bytes) : Nat :=
  hashBytes (seed ^^^ ((bs.length * hashM) % 2 ^ 32)) bs

end Lsmdb.Spec
