import Verif.Model.Cache

/-!
# `Cache::Insert` when memory runs out

`Insert` is the only method of the cache that allocates: the handle (`new LRUHandle`, util/cache.cc:313), the copy of the key
(`malloc`, util/cache.cc:322, whose result is not tested) and, when the table grows, the new table (`new LRUHandle*[..]`,
util/cache.cc:156).  Here each of the three may fail.  The copies of the `std::function` argument that are made on the way
(util/cache.cc:404) may throw as well; they do so before anything happens and count as a failure of the first allocation.
An exception leaves `LRUCache::Insert` through the destructor of its `MutexLock`, which unlocks.
-/

namespace Lsmdb
namespace Cache

/-- Which allocations fail, if they are reached. -/
structure Oom where
  node : Bool
  key : Bool
  table : Bool
  deriving DecidableEq, Repr

/-- `HandleTable::Resize` (util/cache.cc:151-178); `fail`: `new LRUHandle*[new_length]` throws, before anything was moved.
`none` as result: threw. -/
def ResizeO (h : Heap) (t : HTable) (fail : Bool) : M (Heap × HTable × Option Unit) := do
  let _ ← growLoop t.elems 32 4
  if fail then return (h, t, none)
  else
    let (h, t) ← Resize h t
    return (h, t, some ())

/-- Growing the table after an insertion of a new key (util/cache.cc:107-114). -/
def growO (h : Heap) (t : HTable) (old : Option Nat) (fail : Bool) : M (Heap × HTable × Option Unit) := do
  if old = none then
    let t := { t with elems := t.elems + 1 }
    if t.elems > t.length then ResizeO h t fail else return (h, t, some ())
  else return (h, t, some ())

/-- `HandleTable::Insert` (util/cache.cc:98-116).  Result `none`: threw; otherwise the replaced handle, if any. -/
def tableInsertO (h : Heap) (t : HTable) (a : Nat) (fail : Bool) : M (Heap × HTable × Option (Option Nat)) := do
  let k ← keyOf h a
  let ptr ← FindPointer h t k (h.hash a)
  let old ← readLoc h t ptr
  let nx ← oldNext h old
  let h := { h with nextHash := upd h.nextHash a nx }
  let (h, t) ← writeLoc h t (some a) ptr
  let (h, t, r) ← growO h t old fail
  return (h, t, r.map (fun _ => old))

/-- `FinishErase(table_.Insert(e))` (util/cache.cc:329). -/
def finishInsert (s : Shard) : Option (Option Nat) → M (Shard × Bool)
  | none => .ok (s, false)
  | some old => do
    let (s, _) ← FinishErase s old
    return (s, true)

/-- The branch `capacity_ > 0` of `Insert` (util/cache.cc:325-329).  Result `false`: threw. -/
def insertCachedO (s : Shard) (a : Nat) (fail : Bool) : M (Shard × Bool) := do
  let h := { s.heap with refs := upd s.heap.refs a (s.heap.refs a + 1) }
  let h := { h with inCache := upd h.inCache a true }
  let h ← LRU_Append h .inUse (.node a)
  let usage := s.usage + h.charge a
  let (h, t, r) ← tableInsertO h s.tab a fail
  finishInsert { s with heap := h, usage := usage, tab := t } r

/-- `malloc` of the key's length and `memcpy` into it (util/cache.cc:322-323): copying a non-empty key to null faults.
Simplification: `memcpy` of no bytes to null, which C++ does not define, does nothing. -/
def copyKey (key : Slice) (fail : Bool) : M Bytes := do
  let k ← key.toString
  if fail && !k.isEmpty then .error .nullDeref else return k

/-- The eviction loop and the `return` (util/cache.cc:336-347), when nothing threw. -/
def finishEvict (s : Shard) (a : Nat) : Bool → M (Shard × Option Nat)
  | false => .ok (s, none)
  | true => do
    let s ← evictLoop s.heap.fresh s
    return (s, some a)

/-- `LRUCache::Insert` (util/cache.cc:305-348).  Result `none`: threw `std::bad_alloc`. -/
def InsertO (s : Shard) (key : Slice) (hash : UInt32) (value : Nat) (charge : UInt64) (deleter : Nat) (o : Oom) :
    M (Shard × Option Nat) :=
  if o.node then .ok (s, none)
  else do
    let k ← copyKey key o.key
    let (h, a) := newHandle s.heap k hash value charge deleter
    let s := { s with heap := h }
    let (s, done) ← if s.capacity > 0 then insertCachedO s a o.table else pure (s, true)
    finishEvict s a done

/-- `ShardedLRUCache::Insert` (util/cache.cc:400-405). -/
def Sharded.InsertO (hf : Slice → M UInt32) (c : Sharded) (key : Slice) (value : Nat)
    (charge : UInt64) (deleter : Nat) (o : Oom) : M (Sharded × Option Handle) := do
  let hash ← hf key
  let s ← getShard c (shardIndex hash)
  let (s, a) ← Cache.InsertO s key hash value charge deleter o
  return (setShard c (shardIndex hash) s, a.map (fun a => ⟨shardIndex hash, a⟩))

end Cache
end Lsmdb
