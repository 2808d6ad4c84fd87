import Verif.Model.TestUtil
import Verif.Spec.Text

/-!
# Specification vocabulary for the test data
-/

namespace Lsmdb
namespace TestUtil

/-- What the `k`-th call of `Next` (counting from 1) on a generator in state `seed` returns. -/
def draw (seed : UInt32) : Nat → UInt32
  | 0 => seed
  | k + 1 => Random.Next (draw seed k)

/-- `text` consists of the printable characters that the draws of the generator select. -/
def DrawnText (seed : UInt32) (n : Nat) (text : Bytes) : Prop :=
  text.length = n ∧ ∀ i (h : i < text.length), text[i].toNat = 32 + (draw seed (i + 1)).toNat % 95

/-- `s` is `len` characters long and repeats `period`. -/
def Repeats (period : Bytes) (len : Nat) (s : Bytes) : Prop :=
  s.length = len ∧ ∀ i (_ : i < s.length), s[i]? = period[i % period.length]?

end TestUtil
end Lsmdb
