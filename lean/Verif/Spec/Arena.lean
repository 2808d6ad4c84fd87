import Verif.Model.Arena

/-!
# What the arena may assume of `new[]`, and what it promises
-/

namespace Lsmdb.Spec

/-- Two address ranges `[a, a+n)` and `[b, b+m)` have no address in common. -/
def Disjoint (a n b m : Nat) : Prop :=
  ∀ i, a ≤ i → i < a + n → b ≤ i → i < b + m → False

/-- `[a, a+n)` lies inside `[b, b+m)`. -/
def Inside (a n b m : Nat) : Prop := b ≤ a ∧ a + n ≤ b + m

/-- What `new char[n]` guarantees: the memory does not overlap any block the arena still owns, and the
address is suitably aligned. -/
def NewOK (blocks : List (Nat × Nat)) (a n : Nat) : Prop :=
  a % 8 = 0 ∧ ∀ b ∈ blocks, Disjoint a n b.1 b.2

/-- The environment behaves in a run: whenever a call is made in arena state `s` and `new[]` returns
an address, that address is good for any of the two sizes the arena could have asked for (the request
itself if it is large, a standard block otherwise); and the client asks for at least one byte and not
for more than the address space minus alignment. -/
def EnvOK (s : Arena.State) : List (Arena.Call × Option Nat) → Prop
  | [] => True
  | (c, new) :: rest =>
    (0 < c.bytes ∧ c.bytes + 8 ≤ 2 ^ 64) ∧
    (∀ a, new = some a → NewOK s.blocks a (if c.bytes > 1024 then c.bytes else 4096)) ∧
    (match Arena.step s c new with
      | .ok (some (_, s')) => EnvOK s' rest
      | .ok none => EnvOK s rest
      | .error _ => True)

end Lsmdb.Spec
