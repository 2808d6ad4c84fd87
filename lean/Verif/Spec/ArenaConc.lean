import Verif.Model.ArenaConc
import Verif.Spec.Arena
import Verif.Spec.HappensBefore

/-!
# The arena while other threads call `MemoryUsage`
-/

namespace Lsmdb
namespace ArenaConc
open Arena

/-- The first `N` steps of an execution. -/
structure Exec (N : Nat) where
  w : Nat → World
  ev : Nat → Option Ev
  start : w 0 = World.init
  step : ∀ i, i < N → Step (w i) (ev i) (w (i + 1))

/-- The thread that makes a step. -/
def threadOf : Option Ev → Tid
  | none => 0
  | some (.call _ _) => 0
  | some (.ret _) => 0
  | some (.load t _) => t
  | some (.send t) => t
  | some (.receive t _) => t

/-- A message is like a mutex that is released once: sending it synchronizes with every step that receives it. -/
def Exec.sync {N : Nat} (x : Exec N) : Sync Nat where
  thread i t := i < N ∧ threadOf (x.ev i) = t
  unlocks i m := i < N ∧ (∃ t, x.ev i = some (.send t)) ∧ (x.w i).sent.length = m
  locks i m := i < N ∧ ∃ t, x.ev i = some (.receive t m)
  starts _ _ := False

/-- The calls of the allocating thread before step `n`, oldest first. -/
def calls (ev : Nat → Option Ev) : Nat → List (Call × Option Nat)
  | 0 => []
  | n + 1 => match ev n with
    | some (.call c new) => calls ev n ++ [(c, new)]
    | _ => calls ev n

/-- What `MemoryUsage` returns after the calls when nothing else goes on. -/
def usageAfter (cs : List (Call × Option Nat)) : Nat :=
  match run init [] cs with
  | .ok (s, _) => MemoryUsage s
  | .error _ => 0

end ArenaConc
end Lsmdb
