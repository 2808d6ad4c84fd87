import Verif.Model.Basic

/-!
# Data races

A statement is a function on the memory.  What it reads and writes is not declared but follows from what it does: it *writes* a
location if, for some value of that location, it leaves another value there; it *reads* a location if another value there makes
a difference to something else.  (So a write of the value that is there already counts as a write.)
-/

namespace Lsmdb
namespace Race

/-- The memory: what is stored at a location, and what the allocator knows (which addresses were given out). -/
structure Memory (σ Loc Val Shape : Type) where
  get : Loc → σ → Val
  shape : σ → Shape

section
variable {σ Loc Val Shape β : Type} (m : Memory σ Loc Val Shape)

/-- `s'` differs from `s` at most at `l`. -/
def OnlyAt (l : Loc) (s s' : σ) : Prop := m.shape s' = m.shape s ∧ ∀ l', l' ≠ l → m.get l' s' = m.get l' s

/-- The outcomes are the same, except for what is stored at `l`. -/
def Alike (l : Loc) : M (σ × β) → M (σ × β) → Prop
  | .ok (s, b), .ok (s', b') => b = b' ∧ OnlyAt m l s s'
  | .error x, .error x' => x = x'
  | _, _ => False

/-- In state `s`, statement `f` writes `l`. -/
def Writes (f : σ → M (σ × β)) (l : Loc) (s : σ) : Prop :=
  ∃ s1 s2 b, OnlyAt m l s s1 ∧ f s1 = .ok (s2, b) ∧ m.get l s2 ≠ m.get l s1

/-- In state `s`, statement `f` reads `l`. -/
def Reads (f : σ → M (σ × β)) (l : Loc) (s : σ) : Prop := ∃ s1, OnlyAt m l s s1 ∧ ¬ Alike m l (f s) (f s1)

end

end Race
end Lsmdb
