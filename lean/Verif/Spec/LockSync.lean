import Verif.Spec.PosixLock
import Verif.Spec.HappensBefore

/-!
# `LockFile` and `UnlockFile`: synchronization
-/

namespace Lsmdb
namespace PLock

/-- The events before step `n`. -/
def evs (ev : Nat → Option Ev) : Nat → List Ev
  | 0 => []
  | n + 1 => evs ev n ++ (ev n).toList

/-- The first `N` steps of an execution of any number of processes and threads, in which the clients unlock only what their process
holds. -/
structure Exec (N : Nat) where
  s : Nat → Sys
  ev : Nat → Option Ev
  start : s 0 = Sys.init
  step : ∀ i, i < N → Step (s i) (ev i) (s (i + 1))
  rules : ∀ i, i < N → ∀ t l, ev i = some (.callUnlock t l) → l ∈ held (evs ev i) ∧ l.proc = t.1

/-- The thread is at an operation on the lock table: `Insert` (env_posix.cc:641) or `Remove` (649, 665). -/
def AtTable : Pc → Prop
  | .insert _ _ | .failRemove _ _ | .remove _ => True
  | _ => False

/-- A step is made by the thread that moves.  `PosixLockTable::Insert` and `Remove` take and release the mutex of the table of the
process (env_posix.cc:475-485).  Nothing else synchronizes: system calls, in particular, do not. -/
def Exec.sync {N : Nat} (x : Exec N) : Sync Nat (Nat × Nat) where
  thread i t := (x.s (i + 1)).pc t ≠ (x.s i).pc t ∧ ∀ p, x.ev i ≠ some (.exit p)
  locks i p := ∃ k, AtTable ((x.s i).pc (p, k)) ∧ (x.s (i + 1)).pc (p, k) ≠ (x.s i).pc (p, k) ∧ ∀ p, x.ev i ≠ some (.exit p)
  unlocks i p := ∃ k, AtTable ((x.s i).pc (p, k)) ∧ (x.s (i + 1)).pc (p, k) ≠ (x.s i).pc (p, k) ∧ ∀ p, x.ev i ≠ some (.exit p)
  starts _ _ := False

end PLock
end Lsmdb
