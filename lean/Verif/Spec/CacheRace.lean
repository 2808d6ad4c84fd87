import Verif.Spec.Race
import Verif.Spec.CacheConc

/-!
# Data races of the cache
-/

namespace Lsmdb
namespace CacheConc
open Cache

namespace Race

/-- The memory that the threads share: `hash` and `value` of each entry of each shard, which are read through handles without the mutex;
everything else that belongs to a shard; and `last_id_`. -/
inductive Loc where
  | hash (i a : Nat)
  | value (i a : Nat)
  | rest (i : Nat)
  | lastId
  deriving DecidableEq

/-- What is stored there; a field of an entry comes with whether the entry is allocated, so that freeing the entry changes it. -/
inductive Val where
  | hash (x : Option (Bool × UInt32))
  | value (x : Option (Bool × Nat))
  | rest (x : Option Shard)
  | lastId (n : UInt64)

/-- A shard without the hashes and values. -/
def blank (s : Shard) : Shard := { s with heap := { s.heap with hash := fun _ => 0, value := fun _ => 0 } }

def valueAt : Loc → Sharded → Val
  | .hash i a, c => .hash ((c.shards[i]?).map fun s => (s.heap.live a, s.heap.hash a))
  | .value i a, c => .value ((c.shards[i]?).map fun s => (s.heap.live a, s.heap.value a))
  | .rest i, c => .rest ((c.shards[i]?).map blank)
  | .lastId, c => .lastId c.lastId

def memory : Lsmdb.Race.Memory Sharded Loc Val Nat := ⟨valueAt, fun c => c.shards.length⟩

/-- A step of a body, on the memory. -/
def onShard {β : Type} (i : Nat) (f : Shard → M (Shard × β)) (c : Sharded) : M (Sharded × β) :=
  match c.shards[i]? with
  | none => .error .outOfBounds
  | some s => do
    let (s, b) ← f s
    return (setShard c i s, b)

/-- The next step of thread `t` writes the location. -/
inductive WritesNext (w : World) (t : Tid) : Loc → Prop
  | body {i : Nat} {m : Method} {k : After} {β : Type} {f : Shard → M (Shard × β)} {next : β → Prog Shard MRes} {l : Loc}
      (h : w.pc t = .inside i m (.step f next) k) (x : Lsmdb.Race.Writes memory (onShard i f) l w.cache) : WritesNext w t l
  | id (h : w.pc t = .idInside) : WritesNext w t .lastId

/-- The next step of thread `t` reads the location. -/
inductive ReadsNext (w : World) (t : Tid) : Loc → Prop
  | body {i : Nat} {m : Method} {k : After} {β : Type} {f : Shard → M (Shard × β)} {next : β → Prog Shard MRes} {l : Loc}
      (h : w.pc t = .inside i m (.step f next) k) (x : Lsmdb.Race.Reads memory (onShard i f) l w.cache) : ReadsNext w t l
  | hash {h : Handle} (p : w.pc t = .readHash h) : ReadsNext w t (.hash h.shard h.addr)
  | value {h : Handle} (p : w.pc t = .readValue h) : ReadsNext w t (.value h.shard h.addr)
  | id (h : w.pc t = .idInside) : ReadsNext w t .lastId

/-- A data race: the next steps of two threads access the same location and one of them writes it. -/
def DataRace (w : World) : Prop := ∃ t u l, t ≠ u ∧ WritesNext w t l ∧ (ReadsNext w u l ∨ WritesNext w u l)

end Race
end CacheConc
end Lsmdb
