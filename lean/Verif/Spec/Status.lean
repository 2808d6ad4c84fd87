import Verif.Model.Status

/-!
# Status as a value, independent of the representation
-/

namespace Lsmdb.Spec
open Status (Code)

/-- What a Status says. -/
inductive SVal where
  | ok
  | err (kind : Code) (msg : Bytes)
  deriving DecidableEq

/-- The message of an error built from two parts. -/
def joinMsg (m1 m2 : Bytes) : Bytes := if m2 = [] then m1 else m1 ++ [58, 32] ++ m2

/-- How each kind prints. -/
def kindText : Code → String
  | .notFound => "NotFound: "
  | .corruption => "Corruption: "
  | .notSupported => "Not implemented: "
  | .invalidArgument => "Invalid argument: "
  | .ioError => "IO error: "

def SVal.text : SVal → Bytes
  | .ok => "OK".toUTF8.toList
  | .err k msg => (kindText k).toUTF8.toList ++ msg

/-- Is it an error of kind `c`? -/
def SVal.isKind : SVal → Code → Bool
  | .ok, _ => false
  | .err k _, c => decide (k = c)

/-- Client variables holding Status values; `none` = no live object. -/
abbrev SEnv := Nat → Option SVal

/-- Value semantics of the operations.  `none`: the client broke the rules (constructed over a live
object, used a dead one, passed a slice that points outside its storage, or messages that do not fit
in 32-bit sizes).  Moving hands over the value; move construction leaves the source OK, move
assignment leaves the source with the old value of the destination. -/
def sstep (e : SEnv) : Status.Op → Option SEnv
  | .mkOk i => if e i = none then some (upd e i (some .ok)) else none
  | .mkErr i c m1 m2 =>
    if e i = none ∧ m1.WF ∧ m2.WF ∧ m1.len + m2.len + 7 < 2 ^ 32 then
      some (upd e i (some (.err c (joinMsg m1.bytes m2.bytes))))
    else none
  | .copyCtor i j =>
    match e i, e j with
    | none, some v => some (upd e i (some v))
    | _, _ => none
  | .moveCtor i j =>
    match e i, e j with
    | none, some v => some (upd (upd e i (some v)) j (some .ok))
    | _, _ => none
  | .copyAssign i j =>
    match e i, e j with
    | some _, some v => some (upd e i (some v))
    | _, _ => none
  | .moveAssign i j =>
    match e i, e j with
    | some u, some v => some (upd (upd e i (some v)) j (some u))
    | _, _ => none
  | .destroy i =>
    match e i with
    | some _ => some (upd e i none)
    | none => none

def srun (e : SEnv) : List Status.Op → Option SEnv
  | [] => some e
  | o :: os => match sstep e o with
    | some e' => srun e' os
    | none => none

end Lsmdb.Spec
