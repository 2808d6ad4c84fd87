import Verif.Model.Basic

/-!
# Byte-wise lexicographic order, independent of the code
-/

namespace Lsmdb.Spec

/-- `lexLt a b`: at the first position where they differ `a` has the smaller byte (as an unsigned
number), or `a` is a proper prefix of `b`. -/
def lexLt (a b : Bytes) : Prop :=
  ∃ common, (∃ y b', a = common ∧ b = common ++ y :: b') ∨
    (∃ x a' y b', a = common ++ x :: a' ∧ b = common ++ y :: b' ∧ x.toNat < y.toNat)

end Lsmdb.Spec
