import Verif.Model.Cache

/-!
# Specification vocabulary for the cache: histories and what they mean

A trace is the list of completed calls with their results, newest first.
-/

namespace Lsmdb
namespace Spec

/-- A call on the cache.  `value` and `deleter` are opaque.  `pruneShard i` is the part of `Prune` that
is atomic; `Prune` is the sequence of all sixteen, and other calls may come in between. -/
inductive COp where
  | insert (key : Slice) (value : Nat) (charge : UInt64) (deleter : Nat)
  | lookup (key : Slice)
  | release (h : Cache.Handle)
  | erase (key : Slice)
  | pruneShard (i : Nat)

/-- A completed call and the handle it returned, if any. -/
structure CEvent where
  op : COp
  result : Option Cache.Handle

abbrev CTrace := List CEvent

/-- The handle of the most recent Insert of the key that has not been followed by an Erase of it. -/
def current : CTrace → Bytes → Option Cache.Handle
  | [], _ => none
  | ⟨.insert k _ _ _, r⟩ :: tr, kb => if k.bytes = kb then r else current tr kb
  | ⟨.erase k, _⟩ :: tr, kb => if k.bytes = kb then none else current tr kb
  | _ :: tr, kb => current tr kb

/-- How often the handle was returned by Insert or Lookup. -/
def obtained : CTrace → Cache.Handle → Nat
  | [], _ => 0
  | ⟨.insert _ _ _ _, r⟩ :: tr, h => obtained tr h + if r = some h then 1 else 0
  | ⟨.lookup _, r⟩ :: tr, h => obtained tr h + if r = some h then 1 else 0
  | _ :: tr, h => obtained tr h

/-- How often the handle was passed to Release. -/
def released : CTrace → Cache.Handle → Nat
  | [], _ => 0
  | ⟨.release h', _⟩ :: tr, h => released tr h + if h' = h then 1 else 0
  | _ :: tr, h => released tr h

/-- References the client still holds. -/
def outstanding (tr : CTrace) (h : Cache.Handle) : Nat := obtained tr h - released tr h

/-- What was inserted. -/
structure CInfo where
  key : Bytes
  value : Nat
  charge : UInt64
  deleter : Nat
  deriving DecidableEq, Repr

/-- The arguments of the (latest) Insert that returned the handle. -/
def inserted : CTrace → Cache.Handle → Option CInfo
  | [], _ => none
  | ⟨.insert k v c d, r⟩ :: tr, h => if r = some h then some ⟨k.bytes, v, c, d⟩ else inserted tr h
  | _ :: tr, h => inserted tr h

def chargeOf (tr : CTrace) (h : Cache.Handle) : Nat :=
  match inserted tr h with
  | some i => i.charge.toNat
  | none => 0

/-- The time (number of completed calls) of the last Release of the handle; 0 if there was none. -/
def idleSince : CTrace → Cache.Handle → Nat
  | [], _ => 0
  | ⟨.release h', _⟩ :: tr, h => if h' = h then tr.length + 1 else idleSince tr h
  | _ :: tr, h => idleSince tr h

/-- The rules a client must follow: Slices point at readable memory; a handle is released at most as
often as it was obtained; fewer than 2^31 keys are in use (beyond that the table cannot grow); a
handle has fewer than 2^32-2 references. -/
def Allowed (tr : CTrace) : COp → Prop
  | .insert k _ _ _ => k.WF ∧
      ∀ ks : List Bytes, ks.Nodup → (∀ k ∈ ks, current tr k ≠ none) → ks.length < 2 ^ 31
  | .lookup k => k.WF ∧ ∀ h, outstanding tr h + 3 ≤ 2 ^ 32
  | .release h => released tr h < obtained tr h
  | .erase k => k.WF
  | .pruneShard i => i < 16

/-- One call on the model of the cache. -/
def cstep (hf : Slice → M UInt32) (c : Cache.Sharded) : COp → M (Cache.Sharded × Option Cache.Handle)
  | .insert k v ch d => do
    let (c, h) ← Cache.Sharded.Insert hf c k v ch d
    return (c, some h)
  | .lookup k => Cache.Sharded.Lookup hf c k
  | .release h => do
    let c ← Cache.Sharded.Release c h
    return (c, none)
  | .erase k => do
    let c ← Cache.Sharded.Erase hf c k
    return (c, none)
  | .pruneShard i => do
    let c ← Cache.Sharded.PruneShard c i
    return (c, none)

/-- `c` is the state of a cache created with the given capacity after the calls in `tr`, every one of
them allowed. -/
inductive Reach (hf : Slice → M UInt32) (capacity : UInt64) : Cache.Sharded → CTrace → Prop where
  | init {c} : Cache.newSharded capacity = .ok c → Reach hf capacity c []
  | step {c tr op c' r} : Reach hf capacity c tr → Allowed tr op → cstep hf c op = .ok (c', r) →
      Reach hf capacity c' (⟨op, r⟩ :: tr)

/-- `hf` computes a function of the bytes (as every hash function does). -/
def HashFn (hf : Slice → M UInt32) : Prop := ∃ H : Bytes → UInt32, ∀ k : Slice, k.WF → hf k = .ok (H k.bytes)

/-- A Lookup of some key would return this handle now. -/
def Cached (hf : Slice → M UInt32) (c : Cache.Sharded) (h : Cache.Handle) : Prop :=
  ∃ k c', k.WF ∧ Cache.Sharded.Lookup hf c k = .ok (c', some h)

/-- What a Lookup of the key would return now. -/
def Finds (hf : Slice → M UInt32) (c : Cache.Sharded) (k : Slice) (r : Option Cache.Handle) : Prop :=
  ∃ c', Cache.Sharded.Lookup hf c k = .ok (c', r)

/-- The deleter runs on the entry of this handle. -/
def deletions (shards : List Cache.Shard) (h : Cache.Handle) : List Cache.Deletion :=
  match shards[h.shard]? with
  | some s => s.log.filter (fun d => d.addr == h.addr)
  | none => []

/-- `n` is the sum of the charges of the handles with the property. -/
def ChargeSum (tr : CTrace) (P : Cache.Handle → Prop) (n : Nat) : Prop :=
  ∃ L : List Cache.Handle, L.Nodup ∧ (∀ h, h ∈ L ↔ P h) ∧ (L.map (chargeOf tr)).sum = n

/-- In the call that inserted `k` (from `c` to `c'`, with history `tr` before it) the entry left the cache
although its key was not `k`. -/
def Evicted (hf : Slice → M UInt32) (c c' : Cache.Sharded) (tr : CTrace) (k : Slice) (h : Cache.Handle) : Prop :=
  Cached hf c h ∧ ¬ Cached hf c' h ∧ current tr k.bytes ≠ some h

/-- The capacity of all shards together. -/
def totalCapacity (c : Cache.Sharded) : Nat := (c.shards.map (fun s => s.capacity.toNat)).sum

/-- The sixteen calls that make up `Prune`, as they appear at the front of a trace. -/
def pruneEvents : Nat → Nat → CTrace
  | _, 0 => []
  | i, k + 1 => pruneEvents (i + 1) k ++ [⟨.pruneShard i, none⟩]

/-- A run of calls by any number of clients in which some calls (`none`) are `NewId`: the final state
and the ids returned. -/
def runIds (hf : Slice → M UInt32) : Cache.Sharded → List (Option COp) → M (Cache.Sharded × List UInt64)
  | c, [] => .ok (c, [])
  | c, none :: rest => do
    let (c', id) := Cache.Sharded.NewId c
    let (c'', ids) ← runIds hf c' rest
    return (c'', id :: ids)
  | c, some op :: rest => do
    let (c', _) ← cstep hf c op
    runIds hf c' rest

/-! ## The hash table on its own -/

/-- A finite map from (hash, key) to the handle stored under it. -/
abbrev TMap := UInt32 × Bytes → Option Nat

/-- `n` is the number of keys of the map. -/
def KeyCount (m : TMap) (n : Nat) : Prop :=
  ∃ ks : List (UInt32 × Bytes), ks.Nodup ∧ (∀ k, k ∈ ks ↔ m k ≠ none) ∧ ks.length = n

/-- Tables reachable from a new one by insertions and removals, in any order, with the map that an
observer who only sees the arguments would expect.  The handles' keys and hash values are arbitrary (the
heap `h` is arbitrary, only the chain pointers are the table's to change).  A handle is inserted only if
it is allocated, not self-linked and not in the table; fewer than 2^31 keys are in use. -/
inductive TReach : Cache.Heap → Cache.HTable → TMap → Prop where
  | init {h h' t} : Cache.Resize h ⟨0, 0, []⟩ = .ok (h', t) → TReach h' t (fun _ => none)
  | insert {h t m a h' t' r} : TReach h t m → h.live a = true →
      h.next (.node a) ≠ some (.node a) → a < h.fresh → (∀ k, m k ≠ some a) →
      (∃ n, KeyCount m n ∧ n < 2 ^ 31) →
      Cache.tableInsert h t a = .ok (h', t', r) → TReach h' t' (upd m (h.hash a, h.key a) (some a))
  | remove {h t m} {k : Slice} {hash h' t' r} : TReach h t m → k.WF →
      Cache.tableRemove h t k hash = .ok (h', t', r) → TReach h' t' (upd m (hash, k.bytes) none)

end Spec
end Lsmdb
