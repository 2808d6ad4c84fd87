import Verif.Spec.CacheConc
import Verif.Spec.HappensBefore

/-!
# The shared cache: synchronization
-/

namespace Lsmdb
namespace CacheConc
open Cache Spec

/-- The history before step `n`. -/
def hist (ev : Nat → Option Ev) : Nat → Hist
  | 0 => []
  | n + 1 => (ev n).toList ++ hist ev n

/-- The first `n` steps of an execution of any number of threads on a new cache, with clients that follow the rules. -/
structure Exec (hf : Slice → M UInt32) (capacity : UInt64) (n : Nat) where
  w : Nat → World
  ev : Nat → Option Ev
  start : ∃ c, newSharded capacity = .ok c ∧ w 0 = ⟨c, fun _ => none, none, fun _ => .idle⟩
  step : ∀ i, i < n → Step hf code (w i) (ev i) (w (i + 1))
  rules : ∀ i, i < n → ∀ t c, ev i = some (.call t c) → Permitted (hist ev i) c

/-- Who holds the mutex of shard `i` (`some i`) or `id_mutex_` (`none`). -/
def World.holder (w : World) : Option Nat → Option Tid
  | some i => w.owner i
  | none => w.idOwner

/-- A step is made by the thread that moves; which mutexes are taken and released is read off the state. -/
def Exec.sync {hf : Slice → M UInt32} {capacity : UInt64} {n : Nat} (x : Exec hf capacity n) : Sync (Option Nat) where
  thread i t := (x.w (i + 1)).pc t ≠ (x.w i).pc t
  locks i m := (x.w i).holder m = none ∧ (x.w (i + 1)).holder m ≠ none
  unlocks i m := (x.w i).holder m ≠ none ∧ (x.w (i + 1)).holder m = none
  starts _ _ := False

/-- Step `i` runs the deleter on the entry of the handle. -/
def Exec.Deletes {hf : Slice → M UInt32} {capacity : UInt64} {n : Nat} (x : Exec hf capacity n) (i : Nat) (h : Handle) : Prop :=
  deletions (x.w i).cache.shards h = [] ∧ deletions (x.w (i + 1)).cache.shards h ≠ []

end CacheConc
end Lsmdb
