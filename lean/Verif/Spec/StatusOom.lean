import Verif.Model.StatusOom
import Verif.Spec.Status

/-!
# Status values when memory runs out (C87): an operation that throws has no effect
-/

namespace Lsmdb.Spec
open Status (Code Op)

/-- Is it an error? -/
def SVal.isErr : SVal → Bool
  | .ok => false
  | .err _ _ => true

/-- Does the operation need memory?  Errors own their message; OK needs none; assigning a status to itself copies nothing. -/
def needsMemory (e : SEnv) : Op → Bool
  | .mkErr _ _ _ _ => true
  | .copyCtor _ j => match e j with | some v => v.isErr | none => false
  | .copyAssign i j => decide (i ≠ j) && match e j with | some v => v.isErr | none => false
  | _ => false

/-- Value semantics with exceptions: an operation that needs memory and does not get it throws and changes nothing. -/
def sstepO (e : SEnv) (o : Op) (throws : Bool) : Option (SEnv × Bool) :=
  match sstep e o with
  | none => none
  | some e' => if throws && needsMemory e o then some (e, true) else some (e', false)

def srunO (e : SEnv) : List (Op × Bool) → Option (SEnv × List Bool)
  | [] => some (e, [])
  | (o, throws) :: os => match sstepO e o throws with
    | none => none
    | some (e', t) => match srunO e' os with
      | none => none
      | some (e'', ts) => some (e'', t :: ts)

/-- No copy assignment throws whose left side is an error (of another object than the right side). -/
def Spared (e : SEnv) : List (Op × Bool) → Prop
  | [] => True
  | (o, throws) :: os =>
    (throws = true → ∀ i j v, o = .copyAssign i j → e i = some v → v.isErr = true → needsMemory e o = false) ∧
    ∀ e' t, sstepO e o throws = some (e', t) → Spared e' os

end Lsmdb.Spec
