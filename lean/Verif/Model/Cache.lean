import Verif.Model.Slice
import Verif.Model.Hash

/-!
# Model of `util/cache.cc`

Objects: every `LRUHandle` allocated by `new` gets an address `a : Nat`; the two list heads `lru_` and
`in_use_` of a shard are objects of their own.  The heap is one function per field.  Freed addresses
are not reused (simplification: in the program `new` may return a freed address again; no function of
cache.cc compares a pointer with a pointer it might have kept to a freed object, see C37).
A `std::function` deleter and a `void*` value are opaque numbers; running a deleter is recorded in a
log.  Simplification: deleters do not call back into the cache (they run under its mutex, a call back
would deadlock) and do not throw; `new`/`malloc` do not fail (Model/CacheOom has them fail).  Assertions are enabled.
Each public method of `LRUCache` holds `mutex_` from its first statement to its end
(util/cache.cc:199, 292, 301, 308, 369, 374), so it is one atomic step.
-/

namespace Lsmdb
namespace Cache

/-- `LRUHandle*`, non-null: one of the two dummy heads of a shard or an allocated handle
(util/cache.cc:221, 225, 313). -/
inductive Ptr where
  | lru
  | inUse
  | node (a : Nat)
  deriving DecidableEq, Repr

/-- The fields of all `LRUHandle` objects of one shard (util/cache.cc:46-77).  `live a` says that `a`
was allocated and not deleted; `fresh` is the next address `new` returns.  `key` is the byte string
`key_data[0..key_length)`. -/
structure Heap where
  live : Nat → Bool
  fresh : Nat
  next : Ptr → Option Ptr
  prev : Ptr → Option Ptr
  nextHash : Nat → Option Nat
  charge : Nat → UInt64
  inCache : Nat → Bool
  refs : Nat → UInt32
  hash : Nat → UInt32
  key : Nat → Bytes
  value : Nat → Nat
  deleter : Nat → Nat

/-- Dereferencing an `LRUHandle*`: faults on null and on deleted handles; the heads are always
there. -/
def deref (h : Heap) : Option Ptr → M Ptr
  | none => .error .nullDeref
  | some (.node a) => if h.live a then .ok (.node a) else .error .useAfterFree
  | some p => .ok p

/-- Dereferencing an `LRUHandle*` that points to an allocated handle. -/
def derefNode (h : Heap) (a : Nat) : M Unit :=
  if h.live a then .ok () else .error .useAfterFree

/-- `LRUHandle::key()` (util/cache.cc:79-85), with its assertion. -/
def keyOf (h : Heap) (a : Nat) : M Slice := do
  derefNode h a
  cassert (decide (h.next (.node a) ≠ some (.node a)))
  return Slice.ofBytes (h.key a)

/-! ## HandleTable -/

/-- `class HandleTable` (util/cache.cc:131-133): `table` is the array `table_[0..length_)`. -/
structure HTable where
  length : UInt32
  elems : UInt32
  table : List (Option Nat)

/-- `LRUHandle**`: the address of a bucket or of the `next_hash` field of a handle. -/
inductive Loc where
  | bucket (i : Nat)
  | nextHash (a : Nat)
  deriving DecidableEq, Repr

/-- `*ptr` for `LRUHandle** ptr` (util/cache.cc:100, 120, 145). -/
def readLoc (h : Heap) (t : HTable) : Loc → M (Option Nat)
  | .bucket i => match t.table[i]? with
    | some p => .ok p
    | none => .error .outOfBounds
  | .nextHash a => do
    derefNode h a
    return h.nextHash a

/-- `*ptr = v` (util/cache.cc:106, 122). -/
def writeLoc (h : Heap) (t : HTable) (v : Option Nat) : Loc → M (Heap × HTable)
  | .bucket i =>
    if i < t.table.length then .ok (h, { t with table := t.table.set i v }) else .error .outOfBounds
  | .nextHash a => do
    derefNode h a
    return ({ h with nextHash := upd h.nextHash a v }, t)

/-- The condition `(*ptr)->hash != hash || key != (*ptr)->key()` (util/cache.cc:145). -/
def mismatch (h : Heap) (key : Slice) (hash : UInt32) (a : Nat) : M Bool := do
  derefNode h a
  if h.hash a ≠ hash then return true
  else
    let k ← keyOf h a
    Slice.ne key k

/-- The loop of `FindPointer` (util/cache.cc:145-147).  `fuel` bounds the number of iterations; running
out of it means that the chain does not end. -/
def findLoop (h : Heap) (t : HTable) (key : Slice) (hash : UInt32) : Nat → Loc → M Loc
  | 0, _ => .error .diverges
  | fuel + 1, loc => do
    let cur ← readLoc h t loc
    match cur with
    | none => return loc
    | some a =>
      let mm ← mismatch h key hash a
      if mm then findLoop h t key hash fuel (.nextHash a) else return loc

/-- The bucket index `hash & (length_ - 1)` (util/cache.cc:144, 166). -/
def bucketOf (hash length : UInt32) : Nat := (hash &&& (length - 1)).toNat

/-- `HandleTable::FindPointer` (util/cache.cc:135-149).  The fuel is the number of handles ever
allocated plus one: a chain without repetition is shorter. -/
def FindPointer (h : Heap) (t : HTable) (key : Slice) (hash : UInt32) : M Loc :=
  findLoop h t key hash (h.fresh + 1) (.bucket (bucketOf hash t.length))

/-- `while (new_length < elems_) new_length *= 2` (util/cache.cc:153-155) with 32-bit wrap-around.
Called with fuel 32: after 30 doublings of 4 the value is 0 and stays 0, so a loop that has not ended
after 32 iterations never ends. -/
def growLoop (elems : UInt32) : Nat → UInt32 → M UInt32
  | 0, _ => .error .diverges
  | fuel + 1, n => if n < elems then growLoop elems fuel (n * 2) else .ok n

/-- The inner loop of `Resize`, moving one old chain into the new table (util/cache.cc:162-172). -/
def moveChain (newLength : UInt32) : Nat → Heap → List (Option Nat) → Option Nat → UInt32 →
    M (Heap × List (Option Nat) × UInt32)
  | _, h, nt, none, count => .ok (h, nt, count)
  | 0, _, _, some _, _ => .error .diverges
  | fuel + 1, h, nt, some a, count => do
    derefNode h a
    let next := h.nextHash a
    let i := bucketOf (h.hash a) newLength
    match nt[i]? with
    | none => .error .outOfBounds
    | some old =>
      let h := { h with nextHash := upd h.nextHash a old }
      moveChain newLength fuel h (nt.set i (some a)) next (count + 1)

/-- The outer loop of `Resize` over the old buckets (util/cache.cc:159-173). -/
def moveAll (newLength : UInt32) : List (Option Nat) → Heap → List (Option Nat) → UInt32 →
    M (Heap × List (Option Nat) × UInt32)
  | [], h, nt, count => .ok (h, nt, count)
  | p :: rest, h, nt, count => do
    let (h, nt, count) ← moveChain newLength (h.fresh + 1) h nt p count
    moveAll newLength rest h nt count

/-- `HandleTable::Resize` (util/cache.cc:151-178), with its assertion. -/
def Resize (h : Heap) (t : HTable) : M (Heap × HTable) := do
  let newLength ← growLoop t.elems 32 4
  let (h, nt, count) ← moveAll newLength t.table h (List.replicate newLength.toNat none) 0
  cassert (decide (t.elems = count))
  return (h, ⟨newLength, t.elems, nt⟩)

/-- `HandleTable::Lookup` (util/cache.cc:94-96). -/
def tableLookup (h : Heap) (t : HTable) (key : Slice) (hash : UInt32) : M (Option Nat) := do
  let ptr ← FindPointer h t key hash
  readLoc h t ptr

/-- `(old == nullptr) ? nullptr : old->next_hash` (util/cache.cc:104). -/
def oldNext (h : Heap) : Option Nat → M (Option Nat)
  | none => .ok none
  | some o => do
    derefNode h o
    return h.nextHash o

/-- Growing the table after an insertion of a new key (util/cache.cc:107-114). -/
def grow (h : Heap) (t : HTable) (old : Option Nat) : M (Heap × HTable) := do
  if old = none then
    let t := { t with elems := t.elems + 1 }
    if t.elems > t.length then Resize h t else return (h, t)
  else return (h, t)

/-- `HandleTable::Insert` (util/cache.cc:98-116). -/
def tableInsert (h : Heap) (t : HTable) (a : Nat) : M (Heap × HTable × Option Nat) := do
  let k ← keyOf h a
  let ptr ← FindPointer h t k (h.hash a)
  let old ← readLoc h t ptr
  let nx ← oldNext h old
  let h := { h with nextHash := upd h.nextHash a nx }
  let (h, t) ← writeLoc h t (some a) ptr
  let (h, t) ← grow h t old
  return (h, t, old)

/-- `HandleTable::Remove` (util/cache.cc:118-126). -/
def tableRemove (h : Heap) (t : HTable) (key : Slice) (hash : UInt32) :
    M (Heap × HTable × Option Nat) := do
  let ptr ← FindPointer h t key hash
  let result ← readLoc h t ptr
  match result with
  | none => return (h, t, none)
  | some r =>
    derefNode h r
    let (h, t) ← writeLoc h t (h.nextHash r) ptr
    return (h, { t with elems := t.elems - 1 }, some r)

/-! ## LRUCache -/

/-- One run of a deleter: on which entry, which deleter, with which arguments (util/cache.cc:266).
The address identifies the entry; the program does not see it. -/
structure Deletion where
  addr : Nat
  deleter : Nat
  key : Bytes
  value : Nat
  deriving DecidableEq, Repr

/-- `class LRUCache` (util/cache.cc:210-227) with its heap and the log of deleter runs. -/
structure Shard where
  capacity : UInt64
  usage : UInt64
  heap : Heap
  tab : HTable
  log : List Deletion

/-- `LRUCache::LRU_Remove` (util/cache.cc:275-279). -/
def LRU_Remove (h : Heap) (e : Ptr) : M Heap := do
  let e ← deref h (some e)
  let n ← deref h (h.next e)
  let h := { h with prev := upd h.prev n (h.prev e) }
  let p ← deref h (h.prev e)
  return { h with next := upd h.next p (h.next e) }

/-- `LRUCache::LRU_Append` (util/cache.cc:281-289). -/
def LRU_Append (h : Heap) (list e : Ptr) : M Heap := do
  let e ← deref h (some e)
  let list ← deref h (some list)
  let h := { h with next := upd h.next e (some list) }
  let h := { h with prev := upd h.prev e (h.prev list) }
  let p ← deref h (h.prev e)
  let h := { h with next := upd h.next p (some e) }
  let n ← deref h (h.next e)
  return { h with prev := upd h.prev n (some e) }

/-- `LRUCache::Ref` (util/cache.cc:252-259). -/
def Ref (h : Heap) (a : Nat) : M Heap := do
  derefNode h a
  let h ← if h.refs a = 1 ∧ h.inCache a = true then do
      let h ← LRU_Remove h (.node a)
      LRU_Append h .inUse (.node a)
    else pure h
  return { h with refs := upd h.refs a (h.refs a + 1) }

/-- `LRUCache::Unref` (util/cache.cc:261-273), with its assertions. -/
def Unref (h : Heap) (log : List Deletion) (a : Nat) : M (Heap × List Deletion) := do
  derefNode h a
  cassert (decide (h.refs a > 0))
  let h := { h with refs := upd h.refs a (h.refs a - 1) }
  if h.refs a = 0 then
    cassert (!h.inCache a)
    let k ← keyOf h a
    let k ← k.toString
    return ({ h with live := upd h.live a false }, log ++ [⟨a, h.deleter a, k, h.value a⟩])
  else if h.inCache a = true ∧ h.refs a = 1 then
    let h ← LRU_Remove h (.node a)
    let h ← LRU_Append h .lru (.node a)
    return (h, log)
  else return (h, log)

/-- The part of `FinishErase` for a non-null argument (util/cache.cc:354-364). -/
def finishErase1 (s : Shard) (a : Nat) : M Shard := do
  derefNode s.heap a
  cassert (s.heap.inCache a)
  let h ← LRU_Remove s.heap (.node a)
  let h := { h with inCache := upd h.inCache a false }
  let usage := s.usage - h.charge a
  let (h, log) ← Unref h s.log a
  return { s with heap := h, usage := usage, log := log }

/-- `LRUCache::FinishErase` (util/cache.cc:353-366). -/
def FinishErase (s : Shard) : Option Nat → M (Shard × Bool)
  | none => .ok (s, false)
  | some a => do
    let s ← finishErase1 s a
    return (s, true)

/-- `LRUCache::Lookup` (util/cache.cc:291-298). -/
def Lookup (s : Shard) (key : Slice) (hash : UInt32) : M (Shard × Option Nat) := do
  let e ← tableLookup s.heap s.tab key hash
  match e with
  | none => return (s, none)
  | some a =>
    let h ← Ref s.heap a
    return ({ s with heap := h }, some a)

/-- `LRUCache::Release` (util/cache.cc:300-303). -/
def Release (s : Shard) (a : Nat) : M Shard := do
  let (h, log) ← Unref s.heap s.log a
  return { s with heap := h, log := log }

/-- `FinishErase(table_.Remove(key, hash))` (util/cache.cc:340, 370, 379). -/
def removeKey (s : Shard) (key : Slice) (hash : UInt32) : M (Shard × Bool) := do
  let (h, t, r) ← tableRemove s.heap s.tab key hash
  FinishErase { s with heap := h, tab := t } r

/-- One iteration of the eviction loops, for the handle `old` (util/cache.cc:338-343, 377-382), with
their assertions. -/
def evictOne (s : Shard) (old : Nat) : M Shard := do
  derefNode s.heap old
  cassert (decide (s.heap.refs old = 1))
  let k ← keyOf s.heap old
  let (s, erased) ← removeKey s k (s.heap.hash old)
  cassert erased
  return s

/-- The eviction loop of `Insert` (util/cache.cc:336-344).  An iteration on the dummy head cannot
happen: the loop condition excludes it. -/
def evictLoop : Nat → Shard → M Shard
  | fuel, s =>
    if s.usage > s.capacity ∧ s.heap.next .lru ≠ some .lru then
      match fuel with
      | 0 => .error .diverges
      | fuel + 1 => do
        let old ← deref s.heap (s.heap.next .lru)
        match old with
        | .node a => do
          let s ← evictOne s a
          evictLoop fuel s
        | _ => .error .assertFail   -- the head of the other list: its refs are 0, `assert(old->refs == 1)`
    else .ok s

/-- `new LRUHandle` and the field assignments of `Insert` (util/cache.cc:47-58, 313-322). -/
def newHandle (h : Heap) (key : Bytes) (hash : UInt32) (value : Nat) (charge : UInt64)
    (deleter : Nat) : Heap × Nat :=
  let a := h.fresh
  ({ live := upd h.live a true
     fresh := a + 1
     next := upd h.next (.node a) none
     prev := upd h.prev (.node a) none
     nextHash := upd h.nextHash a none
     charge := upd h.charge a charge
     inCache := upd h.inCache a false
     refs := upd h.refs a 1
     hash := upd h.hash a hash
     key := upd h.key a key
     value := upd h.value a value
     deleter := upd h.deleter a deleter }, a)

/-- The branch `capacity_ > 0` of `Insert` (util/cache.cc:325-329). -/
def insertCached (s : Shard) (a : Nat) : M Shard := do
  let h := { s.heap with refs := upd s.heap.refs a (s.heap.refs a + 1) }
  let h := { h with inCache := upd h.inCache a true }
  let h ← LRU_Append h .inUse (.node a)
  let usage := s.usage + h.charge a
  let (h, t, old) ← tableInsert h s.tab a
  let (s, _) ← FinishErase { s with heap := h, usage := usage, tab := t } old
  return s

/-- `LRUCache::Insert` (util/cache.cc:305-348). -/
def Insert (s : Shard) (key : Slice) (hash : UInt32) (value : Nat) (charge : UInt64)
    (deleter : Nat) : M (Shard × Nat) := do
  let k ← key.toString
  let (h, a) := newHandle s.heap k hash value charge deleter
  let s := { s with heap := h }
  let s ← if s.capacity > 0 then insertCached s a else pure s
  let s ← evictLoop s.heap.fresh s
  return (s, a)

/-- `LRUCache::Erase` (util/cache.cc:368-371). -/
def Erase (s : Shard) (key : Slice) (hash : UInt32) : M Shard := do
  let (s, _) ← removeKey s key hash
  return s

/-- The loop of `LRUCache::Prune` (util/cache.cc:376-383). -/
def pruneLoop : Nat → Shard → M Shard
  | fuel, s =>
    if s.heap.next .lru ≠ some .lru then
      match fuel with
      | 0 => .error .diverges
      | fuel + 1 => do
        let e ← deref s.heap (s.heap.next .lru)
        match e with
        | .node a => do
          let s ← evictOne s a
          pruneLoop fuel s
        | _ => .error .assertFail   -- as in `evictLoop`
    else .ok s

/-- `LRUCache::Prune` (util/cache.cc:373-384). -/
def Prune (s : Shard) : M Shard := pruneLoop s.heap.fresh s

/-- `LRUCache::TotalCharge` (util/cache.cc:198-201). -/
def TotalCharge (s : Shard) : UInt64 := s.usage

/-- The heap of a new shard: no handle allocated, both lists empty (util/cache.cc:230-236). -/
def emptyHeap : Heap where
  live := fun _ => false
  fresh := 0
  next := fun p => match p with | .node _ => none | p => some p
  prev := fun p => match p with | .node _ => none | p => some p
  nextHash := fun _ => none
  charge := fun _ => 0
  inCache := fun _ => false
  refs := fun _ => 0
  hash := fun _ => 0
  key := fun _ => []
  value := fun _ => 0
  deleter := fun _ => 0

/-- `LRUCache()` with the constructor of its `HandleTable` member (util/cache.cc:91, 230-236) followed
by `SetCapacity` (util/cache.cc:188). -/
def newShard (capacity : UInt64) : M Shard := do
  let (h, t) ← Resize emptyHeap ⟨0, 0, []⟩
  return ⟨capacity, 0, h, t, []⟩

/-- The loop of `~LRUCache` (util/cache.cc:241-249), with its assertions. -/
def destroyLoop : Nat → Shard → Option Ptr → M Shard
  | fuel, s, e =>
    if e ≠ some .lru then
      match fuel with
      | 0 => .error .diverges
      | fuel + 1 => do
        let p ← deref s.heap e
        let next := s.heap.next p
        match p with
        | .node a => do
          cassert (s.heap.inCache a)
          let h := { s.heap with inCache := upd s.heap.inCache a false }
          cassert (decide (h.refs a = 1))
          let (h, log) ← Unref h s.log a
          destroyLoop fuel { s with heap := h, log := log } next
        | _ => .error .assertFail   -- the head of the other list: `assert(e->in_cache)`
    else .ok s

/-- `LRUCache::~LRUCache` (util/cache.cc:238-250), with its assertion. -/
def destroyShard (s : Shard) : M Shard := do
  cassert (decide (s.heap.next .inUse = some .inUse))
  destroyLoop s.heap.fresh s (s.heap.next .lru)

/-! ## ShardedLRUCache -/

/-- `kNumShards` (util/cache.cc:386-387). -/
def kNumShards : Nat := 1 <<< 4

/-- `ShardedLRUCache::Shard` (util/cache.cc:448). -/
def shardIndex (hash : UInt32) : Nat := (hash >>> (32 - 4)).toNat

/-- `per_shard` (util/cache.cc:394), in `size_t`. -/
def perShard (capacity : UInt64) : UInt64 := (capacity + 15) / 16

/-- `ShardedLRUCache` (util/cache.cc:440-442). -/
structure Sharded where
  shards : List Shard
  lastId : UInt64

/-- A `Cache::Handle*`: the address of a handle together with the shard in whose heap it was allocated
(pointers into different shards are different). -/
structure Handle where
  shard : Nat
  addr : Nat
  deriving DecidableEq, Repr

/-- `HashSlice` (util/cache.cc:444-446).  The functions below take the hash function as a parameter, so
that the theorems can be about every hash function; the program uses this one. -/
def HashSlice (s : Slice) : M UInt32 := Hash.Hash s.buf s.off s.len 0

/-- The constructor (util/cache.cc:393-398); `NewLRUCache` (util/cache.cc:453-455). -/
def newSharded (capacity : UInt64) : M Sharded := do
  let s ← newShard (perShard capacity)
  return ⟨List.replicate kNumShards s, 0⟩

/-- `shard_[i]` (util/cache.cc:404, 408, 412, 416). -/
def getShard (c : Sharded) (i : Nat) : M Shard :=
  match c.shards[i]? with
  | some s => .ok s
  | none => .error .outOfBounds

/-- Store the new state of shard `i`. -/
def setShard (c : Sharded) (i : Nat) (s : Shard) : Sharded := { c with shards := c.shards.set i s }

/-- `ShardedLRUCache::Insert` (util/cache.cc:400-405). -/
def Sharded.Insert (hf : Slice → M UInt32) (c : Sharded) (key : Slice) (value : Nat)
    (charge : UInt64) (deleter : Nat) : M (Sharded × Handle) := do
  let hash ← hf key
  let s ← getShard c (shardIndex hash)
  let (s, a) ← Cache.Insert s key hash value charge deleter
  return (setShard c (shardIndex hash) s, ⟨shardIndex hash, a⟩)

/-- `ShardedLRUCache::Lookup` (util/cache.cc:406-409). -/
def Sharded.Lookup (hf : Slice → M UInt32) (c : Sharded) (key : Slice) :
    M (Sharded × Option Handle) := do
  let hash ← hf key
  let s ← getShard c (shardIndex hash)
  let (s, a) ← Cache.Lookup s key hash
  return (setShard c (shardIndex hash) s, a.map (fun a => ⟨shardIndex hash, a⟩))

/-- `ShardedLRUCache::Release` (util/cache.cc:410-413).  `h->hash` is read through the handle; a shard
must only be given handles allocated in it, anything else is a fault. -/
def Sharded.Release (c : Sharded) (h : Handle) : M Sharded := do
  let s ← getShard c h.shard
  derefNode s.heap h.addr
  let i := shardIndex (s.heap.hash h.addr)
  if i ≠ h.shard then .error .outOfBounds
  else
    let s ← Cache.Release s h.addr
    return setShard c i s

/-- `ShardedLRUCache::Erase` (util/cache.cc:414-417). -/
def Sharded.Erase (hf : Slice → M UInt32) (c : Sharded) (key : Slice) : M Sharded := do
  let hash ← hf key
  let s ← getShard c (shardIndex hash)
  let s ← Cache.Erase s key hash
  return setShard c (shardIndex hash) s

/-- `ShardedLRUCache::Value` (util/cache.cc:418-420). -/
def Sharded.Value (c : Sharded) (h : Handle) : M Nat := do
  let s ← getShard c h.shard
  derefNode s.heap h.addr
  return s.heap.value h.addr

/-- `ShardedLRUCache::NewId` (util/cache.cc:421-424), one atomic step under `id_mutex_`. -/
def Sharded.NewId (c : Sharded) : Sharded × UInt64 :=
  let i := c.lastId + 1
  ({ c with lastId := i }, i)

/-- `shard_[i].Prune()` (util/cache.cc:427). -/
def Sharded.PruneShard (c : Sharded) (i : Nat) : M Sharded := do
  let s ← getShard c i
  let s ← Cache.Prune s
  return setShard c i s

/-- The loop of `ShardedLRUCache::Prune` from index `i` (util/cache.cc:426-428). -/
def pruneFrom (c : Sharded) : Nat → Nat → M Sharded
  | _, 0 => .ok c
  | i, k + 1 => do
    let c ← Sharded.PruneShard c i
    pruneFrom c (i + 1) k

/-- `ShardedLRUCache::Prune` (util/cache.cc:425-429). -/
def Sharded.Prune (c : Sharded) : M Sharded := pruneFrom c 0 kNumShards

/-- `ShardedLRUCache::TotalCharge` (util/cache.cc:431-437). -/
def Sharded.TotalCharge (c : Sharded) : UInt64 :=
  c.shards.foldl (fun total s => total + Cache.TotalCharge s) 0

/-- Destroying every shard: `~ShardedLRUCache() = default` (util/cache.cc:399).  Simplification: the
members are destroyed in index order (C++ uses the reverse order; the shards share nothing). -/
def destroyShards : List Shard → M (List Shard)
  | [] => .ok []
  | s :: rest => do
    let s ← destroyShard s
    let rest ← destroyShards rest
    return s :: rest

end Cache
end Lsmdb
