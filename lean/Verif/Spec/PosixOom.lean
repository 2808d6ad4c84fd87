import Verif.Model.PosixOom
import Verif.Spec.PosixEnv

/-!
# Specification vocabulary for C91: the POSIX Env when memory runs out
-/

namespace Lsmdb
namespace Posix

/-- The call did not return: it threw or waits for ever. -/
def Ans.broke : Ans → Bool
  | .threw => true
  | .hangs => true
  | _ => false

/-- Calls that open a descriptor of their own on the way. -/
def POp.opens : POp → Bool
  | .newSequential _ => true
  | .newRandomAccess _ => true
  | .newWritable _ => true
  | .newAppendable _ => true
  | .newLogger _ => true
  | .getChildren _ => true
  | .lockFile _ => true
  | .randRead _ _ _ => true
  | .write _ .sync => true
  | _ => false

/-- Calls that take a slot of the mmap limiter. -/
def POp.maps : POp → Bool
  | .newRandomAccess _ => true
  | _ => false

/-- How many of the calls with property `p` did not return. -/
def broken (p : POp → Bool) (ops : List (PMem × POp)) (as : List Ans) : Nat :=
  ((ops.zip as).filter (fun x => x.2.broke && p x.1.2)).length

/-- There is memory for the status of every `Close` call of the history. -/
def CloseHasMemory (ops : List (PMem × POp)) : Prop := ∀ mem h, (mem, POp.write h .close) ∈ ops → mem.message = true

/-- The locks a client holds, as it knows from the answers (`heldStep`); a call that did not return gave it none. -/
def heldStepO (held : List (Nat × Bytes)) : (PMem × POp) × Ans → List (Nat × Bytes)
  | ((_, op), .res r) => heldStep held (op, r)
  | _ => held

/-- The locks held after a history with its answers. -/
def heldLocksO (ops : List (PMem × POp)) (as : List Ans) : List (Nat × Bytes) := (ops.zip as).foldl heldStepO []

/-- A LockFile call for the name threw. -/
def LockThrew (ops : List (PMem × POp)) (as : List Ans) (n : Bytes) : Prop :=
  ∃ mem, ((mem, POp.lockFile n), Ans.threw) ∈ ops.zip as

end Posix
end Lsmdb
