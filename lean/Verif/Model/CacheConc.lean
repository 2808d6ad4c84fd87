import Verif.Model.Cache

/-!
# Model of the cache used by many threads (util/cache.cc)

The methods of `ShardedLRUCache` as programs of threads that interleave step by step.  `Model/Cache` says what a method of
`LRUCache` does when it runs alone; here a thread takes the mutex of the shard, runs the body of the method one step after the
other, and releases the mutex.  Between any two steps other threads may run.  What is outside of the critical sections (computing
the hash, reading `h->hash` and `h->value` through a handle, the loops over the shards) interleaves as well, so a thread can read a
field of a handle while another thread is in the middle of a change to that shard.

`std::mutex` (port_stdcxx.h:37-56) gives mutual exclusion and orders the critical sections of one mutex, so the memory that the
mutex protects behaves as if the steps interleave.  Reads outside of the mutex are of fields that are written before the handle is
first given to a client.
-/

namespace Lsmdb
namespace CacheConc
open Cache

/-- The number of a thread. -/
abbrev Tid := Nat

/-- A piece of code on a state `σ`, cut into steps: `step f next` performs `f` and goes on with what `f` returned. -/
inductive Prog (σ : Type) (α : Type) : Type 1 where
  | done (a : α)
  | step {β : Type} (f : σ → M (σ × β)) (next : β → Prog σ α)

/-- The steps one after the other, without interruption. -/
def Prog.run {σ α : Type} : Prog σ α → σ → M (σ × α)
  | .done a, s => .ok (s, a)
  | .step f next, s => do
    let (s', b) ← f s
    (next b).run s'

/-- One piece of code after another. -/
def Prog.bind {σ α β : Type} : Prog σ α → (α → Prog σ β) → Prog σ β
  | .done a, g => g a
  | .step f next, g => .step f (fun b => (next b).bind g)

/-! ## The methods of LRUCache -/

/-- A call of a method of `LRUCache` (util/cache.cc:190-201). -/
inductive Method where
  | insert (key : Slice) (hash : UInt32) (value : Nat) (charge : UInt64) (deleter : Nat)
  | lookup (key : Slice) (hash : UInt32)
  | release (a : Nat)
  | erase (key : Slice) (hash : UInt32)
  | prune
  | totalCharge

/-- What it returns. -/
inductive MRes where
  | handle (a : Option Nat)
  | unit
  | charge (n : UInt64)
  deriving DecidableEq, Repr

/-- What the method does when it runs alone: the functions of `Model/Cache` (util/cache.cc:198-201, 291-384). -/
def Method.run : Method → Shard → M (Shard × MRes)
  | .insert key hash value charge deleter, s => do
    let (s, a) ← Cache.Insert s key hash value charge deleter
    return (s, .handle (some a))
  | .lookup key hash, s => do
    let (s, a) ← Cache.Lookup s key hash
    return (s, .handle a)
  | .release a, s => do
    let s ← Cache.Release s a
    return (s, .unit)
  | .erase key hash, s => do
    let s ← Cache.Erase s key hash
    return (s, .unit)
  | .prune, s => do
    let s ← Cache.Prune s
    return (s, .unit)
  | .totalCharge, s => .ok (s, .charge (Cache.TotalCharge s))

/-! ### Their bodies, statement by statement -/

/-- A step that changes the heap. -/
def onHeap (f : Heap → M Heap) (s : Shard) : M (Shard × Unit) := do
  let h ← f s.heap
  return ({ s with heap := h }, ())

/-- `Unref` (util/cache.cc:261-273): the decrement; then the deleter and `delete`, or the move to the other list. -/
def unrefCode (a : Nat) : Prog Shard Unit :=
  .step (fun s => do
    derefNode s.heap a
    cassert (decide (s.heap.refs a > 0))
    let h := { s.heap with refs := upd s.heap.refs a (s.heap.refs a - 1) }
    return ({ s with heap := h }, (h.refs a, h.inCache a))) fun (refs, inCache) =>
  if refs = 0 then
    .step (fun s => do
      cassert (!s.heap.inCache a)
      let k ← keyOf s.heap a
      let k ← k.toString
      return ({ s with log := s.log ++ [⟨a, s.heap.deleter a, k, s.heap.value a⟩] }, ())) fun _ =>
    .step (fun s => .ok ({ s with heap := { s.heap with live := upd s.heap.live a false } }, ())) fun _ =>
    .done ()
  else if inCache = true ∧ refs = 1 then
    .step (onHeap (fun h => LRU_Remove h (.node a))) fun _ =>
    .step (onHeap (fun h => LRU_Append h .lru (.node a))) fun _ =>
    .done ()
  else .done ()

/-- `FinishErase` (util/cache.cc:353-366). -/
def finishEraseCode : Option Nat → Prog Shard Bool
  | none => .done false
  | some a =>
    .step (onHeap (fun h => do
      derefNode h a
      cassert (h.inCache a)
      LRU_Remove h (.node a))) fun _ =>
    .step (fun s => .ok ({ s with heap := { s.heap with inCache := upd s.heap.inCache a false } }, ())) fun _ =>
    .step (fun s => .ok ({ s with usage := s.usage - s.heap.charge a }, ())) fun _ =>
    (unrefCode a).bind fun _ => .done true

/-- `FinishErase(table_.Remove(key, hash))` (util/cache.cc:340, 370, 379). -/
def removeKeyCode (key : Slice) (hash : UInt32) : Prog Shard Bool :=
  .step (fun s => do
    let (h, t, r) ← tableRemove s.heap s.tab key hash
    return ({ s with heap := h, tab := t }, r)) fun r =>
  finishEraseCode r

/-- One iteration of the eviction loops (util/cache.cc:338-343, 377-382). -/
def evictOneCode (old : Nat) : Prog Shard Unit :=
  .step (fun s => do
    derefNode s.heap old
    cassert (decide (s.heap.refs old = 1))
    let k ← keyOf s.heap old
    return (s, (k, s.heap.hash old))) fun (k, hash) =>
  (removeKeyCode k hash).bind fun erased =>
  .step (fun s => do
    cassert erased
    return (s, ())) fun _ =>
  .done ()

/-- The test of an eviction loop and `old = lru_.next`: `none` if the loop ends.  `over` is the part of the test that only `Insert`
has (util/cache.cc:336-337, 376-377). -/
def loopTest (over : Shard → Bool) (s : Shard) : M (Shard × Option Nat) :=
  if over s = true ∧ s.heap.next .lru ≠ some .lru then do
    let old ← deref s.heap (s.heap.next .lru)
    match old with
    | .node a => return (s, some a)
    | _ => .error .assertFail
  else .ok (s, none)

/-- The eviction loops (util/cache.cc:336-344, 376-383).  The bound on the number of iterations is that of `Model/Cache`. -/
def evictLoopCode (over : Shard → Bool) : Nat → Prog Shard Unit
  | 0 => .step (fun s => if over s = true ∧ s.heap.next .lru ≠ some .lru then .error .diverges else .ok (s, ())) fun _ => .done ()
  | fuel + 1 =>
    .step (loopTest over) fun old =>
    match old with
    | none => .done ()
    | some a => (evictOneCode a).bind fun _ => evictLoopCode over fuel

/-- The branch `capacity_ > 0` of `Insert` (util/cache.cc:325-329). -/
def insertCachedCode (a : Nat) : Prog Shard Unit :=
  .step (fun s => .ok ({ s with heap := { s.heap with refs := upd s.heap.refs a (s.heap.refs a + 1) } }, ())) fun _ =>
  .step (fun s => .ok ({ s with heap := { s.heap with inCache := upd s.heap.inCache a true } }, ())) fun _ =>
  .step (onHeap (fun h => LRU_Append h .inUse (.node a))) fun _ =>
  .step (fun s => .ok ({ s with usage := s.usage + s.heap.charge a }, ())) fun _ =>
  .step (fun s => do
    let (h, t, old) ← tableInsert s.heap s.tab a
    return ({ s with heap := h, tab := t }, old)) fun old =>
  (finishEraseCode old).bind fun _ => .done ()

/-- The bodies of the methods (util/cache.cc:198-201, 291-384), inside of the mutex. -/
def code : Method → Prog Shard MRes
  | .insert key hash value charge deleter =>
    .step (fun s => do
      let k ← key.toString
      let (h, a) := newHandle s.heap k hash value charge deleter
      return ({ s with heap := h }, a)) fun a =>
    .step (fun s => .ok (s, decide (s.capacity > 0))) fun caching =>
    (if caching then insertCachedCode a else Prog.done ()).bind fun _ =>
    .step (fun s => .ok (s, s.heap.fresh)) fun fuel =>
    (evictLoopCode (fun s => decide (s.usage > s.capacity)) fuel).bind fun _ =>
    .done (.handle (some a))
  | .lookup key hash =>
    .step (fun s => do
      let e ← tableLookup s.heap s.tab key hash
      return (s, e)) fun e =>
    match e with
    | none => .done (.handle none)
    | some a => .step (onHeap (fun h => Ref h a)) fun _ => .done (.handle (some a))
  | .release a => (unrefCode a).bind fun _ => .done .unit
  | .erase key hash => (removeKeyCode key hash).bind fun _ => .done .unit
  | .prune =>
    .step (fun s => .ok (s, s.heap.fresh)) fun fuel =>
    (evictLoopCode (fun _ => true) fuel).bind fun _ => .done .unit
  | .totalCharge => .step (fun s => .ok (s, s.usage)) fun n => .done (.charge n)

/-! ## The calls of the clients -/

/-- A call of a method of `Cache` (include/lsmdb/cache.h:30-90). -/
inductive Call where
  | insert (key : Slice) (value : Nat) (charge : UInt64) (deleter : Nat)
  | lookup (key : Slice)
  | release (h : Handle)
  | erase (key : Slice)
  | value (h : Handle)
  | newId
  | prune
  | totalCharge

/-- What a call returns. -/
inductive Res where
  | handle (h : Option Handle)
  | unit
  | value (v : Nat)
  | id (n : UInt64)
  | charge (n : UInt64)
  deriving DecidableEq, Repr

/-- What a call does with the result of the method of the shard (util/cache.cc:404, 408, 412, 416, 426-428, 432-436). -/
inductive After where
  /-- return the handle that shard `i` returned -/
  | handle (i : Nat)
  /-- return nothing -/
  | unit
  /-- the loop of `Prune` at `i` -/
  | prune (i : Nat)
  /-- the loop of `TotalCharge` at `i`, with the total so far -/
  | charge (i : Nat) (total : UInt64)

/-- Where a thread is. -/
inductive Pc : Type 1 where
  /-- not in the cache -/
  | idle
  /-- in `Insert`, `Lookup` or `Erase`, before `HashSlice(key)` (util/cache.cc:403, 407, 415) -/
  | hashKey (c : Call)
  /-- in `Release`, before the read of `h->hash` (util/cache.cc:412) -/
  | readHash (h : Handle)
  /-- in `Value`, before the read of `value` (util/cache.cc:419) -/
  | readValue (h : Handle)
  /-- before the `MutexLock` of method `m` of shard `i` -/
  | enter (i : Nat) (m : Method) (k : After)
  /-- in method `m` of shard `i`, holding its mutex, before `p` -/
  | inside (i : Nat) (m : Method) (p : Prog Shard MRes) (k : After)
  /-- in `NewId`, before the `MutexLock` (util/cache.cc:422) -/
  | idEnter
  /-- in `NewId`, before `++(last_id_)` (util/cache.cc:423) -/
  | idInside
  /-- in `NewId`, before the mutex is released -/
  | idLeave (n : UInt64)
  /-- before the return of the call -/
  | leave (r : Res)

/-- The entry into a call. -/
def begin : Call → Pc
  | .insert k v ch d => .hashKey (.insert k v ch d)
  | .lookup k => .hashKey (.lookup k)
  | .erase k => .hashKey (.erase k)
  | .release h => .readHash h
  | .value h => .readValue h
  | .newId => .idEnter
  | .prune => .enter 0 .prune (.prune 0)               -- the loop starts at 0 (util/cache.cc:426)
  | .totalCharge => .enter 0 .totalCharge (.charge 0 0)  -- (util/cache.cc:432-433)

/-- After `HashSlice(key)`: which method of which shard (util/cache.cc:404, 408, 416). -/
def dispatch (hash : UInt32) : Call → Pc
  | .insert k v ch d => .enter (shardIndex hash) (.insert k hash v ch d) (.handle (shardIndex hash))
  | .lookup k => .enter (shardIndex hash) (.lookup k hash) (.handle (shardIndex hash))
  | .erase k => .enter (shardIndex hash) (.erase k hash) .unit
  | _ => .idle

/-- The key that a call hashes. -/
def keyOfCall : Call → Option Slice
  | .insert k _ _ _ => some k
  | .lookup k => some k
  | .erase k => some k
  | _ => none

/-- After the mutex of the shard is released (util/cache.cc:404, 408, 412, 416, 426-428, 433-436). -/
def proceed : After → MRes → Pc
  | .handle i, .handle a => .leave (.handle (a.map fun a => ⟨i, a⟩))
  | .prune i, _ => if i + 1 < kNumShards then .enter (i + 1) .prune (.prune (i + 1)) else .leave .unit
  | .charge i total, .charge n =>
    if i + 1 < kNumShards then .enter (i + 1) .totalCharge (.charge (i + 1) (total + n)) else .leave (.charge (total + n))
  | _, _ => .leave .unit

/-! ## The threads together -/

/-- The cache, who holds the mutexes of the shards and `id_mutex_`, and where each thread is. -/
structure World : Type 1 where
  cache : Sharded
  owner : Nat → Option Tid
  idOwner : Option Tid
  pc : Tid → Pc

/-- Thread `t` moves on. -/
def World.at (w : World) (t : Tid) (p : Pc) : World := { w with pc := fun u => if u = t then p else w.pc u }

/-- The mutex of shard `i` changes hands. -/
def World.own (w : World) (i : Nat) (o : Option Tid) : World := { w with owner := fun j => if j = i then o else w.owner j }

/-- What the clients see: calls and returns. -/
inductive Ev where
  | call (t : Tid) (c : Call)
  | ret (t : Tid) (r : Res)

/-- One step of one thread, with what the clients see of it.  `hf` is the hash function and `body` are the bodies of the methods. -/
inductive Step (hf : Slice → M UInt32) (body : Method → Prog Shard MRes) : World → Option Ev → World → Prop
  /-- a client calls a method -/
  | call {w : World} {t : Tid} (c : Call) (h : w.pc t = .idle) : Step hf body w (some (.call t c)) (w.at t (begin c))
  /-- `HashSlice(key)` -/
  | hash {w : World} {t : Tid} {c : Call} {k : Slice} {hash : UInt32} (h : w.pc t = .hashKey c) (hk : keyOfCall c = some k)
      (e : hf k = .ok hash) : Step hf body w none (w.at t (dispatch hash c))
  /-- `h->hash` (util/cache.cc:411-412), without a mutex.  A shard must only be given handles allocated in it. -/
  | readHash {w : World} {t : Tid} {a : Handle} {s : Shard} (h : w.pc t = .readHash a) (hs : w.cache.shards[a.shard]? = some s)
      (e : derefNode s.heap a.addr = .ok ()) (hi : shardIndex (s.heap.hash a.addr) = a.shard) :
      Step hf body w none (w.at t (.enter a.shard (.release a.addr) .unit))
  /-- `reinterpret_cast<LRUHandle*>(handle)->value` (util/cache.cc:419), without a mutex -/
  | readValue {w : World} {t : Tid} {a : Handle} {v : Nat} (h : w.pc t = .readValue a) (e : Sharded.Value w.cache a = .ok v) :
      Step hf body w none (w.at t (.leave (.value v)))
  /-- `MutexLock lock(&mutex_)` (util/cache.cc:199, 292, 301, 308, 369, 374) -/
  | lock {w : World} {t : Tid} {i : Nat} {m : Method} {k : After} (h : w.pc t = .enter i m k) (hi : i < w.cache.shards.length)
      (free : w.owner i = none) : Step hf body w none ((w.own i (some t)).at t (.inside i m (body m) k))
  /-- a step of the body -/
  | body {w : World} {t : Tid} {i : Nat} {m : Method} {k : After} {β : Type} {f : Shard → M (Shard × β)}
      {next : β → Prog Shard MRes} {s s' : Shard} {b : β} (h : w.pc t = .inside i m (.step f next) k)
      (hs : w.cache.shards[i]? = some s) (e : f s = .ok (s', b)) :
      Step hf body w none ({ w with cache := setShard w.cache i s' }.at t (.inside i m (next b) k))
  /-- the end of the method: the destructor of `MutexLock` (util/mutexlock.h:29) -/
  | unlock {w : World} {t : Tid} {i : Nat} {m : Method} {k : After} {r : MRes} (h : w.pc t = .inside i m (.done r) k) :
      Step hf body w none ((w.own i none).at t (proceed k r))
  /-- `MutexLock lock(&id_mutex_)` (util/cache.cc:422) -/
  | idLock {w : World} {t : Tid} (h : w.pc t = .idEnter) (free : w.idOwner = none) :
      Step hf body w none ({ w with idOwner := some t }.at t .idInside)
  /-- `++(last_id_)` (util/cache.cc:423) -/
  | idNext {w : World} {t : Tid} (h : w.pc t = .idInside) :
      Step hf body w none ({ w with cache := { w.cache with lastId := w.cache.lastId + 1 } }.at t (.idLeave (w.cache.lastId + 1)))
  /-- the mutex is released -/
  | idUnlock {w : World} {t : Tid} {n : UInt64} (h : w.pc t = .idLeave n) :
      Step hf body w none ({ w with idOwner := none }.at t (.leave (.id n)))
  /-- the call returns -/
  | ret {w : World} {t : Tid} {r : Res} (h : w.pc t = .leave r) : Step hf body w (some (.ret t r)) (w.at t .idle)

/-- The next step of some thread is undefined behaviour or a failed assertion. -/
inductive Faulty (hf : Slice → M UInt32) (w : World) : Prop
  | hash {t : Tid} {c : Call} {k : Slice} {f : Fault} (h : w.pc t = .hashKey c) (hk : keyOfCall c = some k) (e : hf k = .error f)
  | readHash {t : Tid} {a : Handle} (h : w.pc t = .readHash a)
      (e : ¬ ∃ s, w.cache.shards[a.shard]? = some s ∧ derefNode s.heap a.addr = .ok () ∧ shardIndex (s.heap.hash a.addr) = a.shard)
  | readValue {t : Tid} {a : Handle} {f : Fault} (h : w.pc t = .readValue a) (e : Sharded.Value w.cache a = .error f)
  | lock {t : Tid} {i : Nat} {m : Method} {k : After} (h : w.pc t = .enter i m k) (hi : w.cache.shards.length ≤ i)
  | body {t : Tid} {i : Nat} {m : Method} {k : After} {β : Type} {f : Shard → M (Shard × β)}
      {next : β → Prog Shard MRes} {s : Shard} {x : Fault} (h : w.pc t = .inside i m (.step f next) k)
      (hs : w.cache.shards[i]? = some s) (e : f s = .error x)

end CacheConc
end Lsmdb
