import Verif.Model.Basic
import Verif.Model.Random

/-!
# Model of `db/skiplist.h`

Node addresses are indices into the list of allocated nodes (nodes are allocated from the arena and
never freed; that their memory does not overlap is C17); `head_` is node 0 and a pointer is
`Option Nat`, `none` being `nullptr`.  Every atomic link is a separate location; slots of a tower are
uninitialised until first written.  Every store to shared memory is recorded as an event, so that the
same text of `Insert` serves the sequential theorems (final memory) and the concurrent ones (memory
after any number of stores).

The three searches are written as machines: one iteration of the C++ `while (true)` is one load
(`x->Next(level)`) followed by a body that either goes on or returns.
-/

namespace Lsmdb
namespace SkipList

/-- `enum { kMaxHeight = 12 }` (db/skiplist.h:99). -/
def kMaxHeight : Nat := 12

/-- Which assertions are compiled in.  `asserts` is every `assert` except the one of line 249, which is
`line249`.  A release build has neither, an assertion-enabled build has both. -/
structure Build where
  asserts : Bool
  line249 : Bool

def Build.release : Build := ⟨false, false⟩
def Build.debug : Build := ⟨true, true⟩

/-- `assert(c)` under a build flag. -/
def assertIf (on : Bool) (c : M Bool) : M Unit :=
  if on then do cassert (← c) else .ok ()

abbrev Ptr := Option Nat

/-- `struct Node` (db/skiplist.h:142-177): key and tower of links; `none` is an uninitialised slot,
`some none` is `nullptr`. -/
structure Node (K : Type) where
  key : K
  next : List (Option Ptr)

/-- The shared memory of a skip list: the nodes, and `max_height_`. -/
structure Mem (K : Type) where
  nodes : List (Node K)
  maxH : Nat

/-- The stores to shared memory.  `store x l v rel` is a store of `v` to `next_[l]` of node `x`, `rel`
telling `memory_order_release` from `memory_order_relaxed`; `new` is `NewNode`; `setMax` is the
relaxed store to `max_height_`. -/
inductive Ev (K : Type) where
  | new (key : K) (height : Nat)
  | store (x l : Nat) (v : Ptr) (rel : Bool)
  | setMax (h : Nat)

/-- Effect of a store. -/
def Mem.apply {K : Type} (m : Mem K) : Ev K → Mem K
  | .new k h => { m with nodes := m.nodes ++ [⟨k, List.replicate h none⟩] }
  | .store x l v _ =>
    { m with nodes := m.nodes.modify x (fun n => { n with next := n.next.set l (some v) }) }
  | .setMax h => { m with maxH := h }

/-- Memory after a sequence of stores. -/
def Mem.replay {K : Type} (m : Mem K) (log : List (Ev K)) : Mem K := log.foldl Mem.apply m

/-- `p->Next(l)`, `p->NoBarries_Next(l)` on the given memory (db/skiplist.h:150-155, 164-167). -/
def Mem.next {K : Type} (m : Mem K) (p : Ptr) (l : Nat) : M Ptr :=
  match p with
  | none => .error .nullDeref
  | some x =>
    match m.nodes[x]? with
    | none => .error .outOfBounds
    | some n =>
      match n.next[l]? with
      | none => .error .outOfBounds
      | some none => .error .uninit
      | some (some q) => .ok q

/-- `p->key` on the given memory. -/
def Mem.key {K : Type} (m : Mem K) (p : Ptr) : M K :=
  match p with
  | none => .error .nullDeref
  | some x =>
    match m.nodes[x]? with
    | none => .error .uninit
    | some n => .ok n.key

/-- The list object as its (externally synchronised) writer sees it: current memory, the stores
performed since construction, and `rnd_`. -/
structure SL (K : Type) where
  mem : Mem K
  log : List (Ev K)
  rnd : UInt32

/-- Perform a store. -/
def SL.emit {K : Type} (s : SL K) (e : Ev K) : SL K :=
  { s with mem := s.mem.apply e, log := s.log ++ [e] }

/-- `p->SetNext(l, v)` (release) and `p->NoBarrier_SetNext(l, v)` (relaxed) (db/skiplist.h:156-161,
168-171): writing outside the tower is a fault. -/
def SetNext {K : Type} (s : SL K) (p : Ptr) (l : Nat) (v : Ptr) (rel : Bool) : M (SL K) :=
  match p with
  | none => .error .nullDeref
  | some x =>
    match s.mem.nodes[x]? with
    | none => .error .outOfBounds
    | some n => if l < n.next.length then .ok (s.emit (.store x l v rel)) else .error .outOfBounds

/-- `NewNode` (db/skiplist.h:179-187); returns the pointer. -/
def NewNode {K : Type} (s : SL K) (key : K) (height : Nat) : Ptr × SL K :=
  (some s.mem.nodes.length, s.emit (.new key height))

/-- What an iteration of a search loop does. -/
inductive Step (σ ρ : Type) where
  | go (s : σ)
  | ret (r : ρ)

/-- Local variables of a search: `x`, `level`, and the array behind `prev` (`none` if `prev` is
`nullptr`; slots are uninitialised until written). -/
structure Pos where
  x : Ptr
  level : Nat
  prev : Option (List (Option Ptr))

/-- Start of a search (db/skiplist.h:264-265, 290-291, 312-313): `x = head_`,
`level = GetMaxHeight() - 1`. -/
def startPos (maxH : Nat) (prev : Option (List (Option Ptr))) : M Pos :=
  if maxH = 0 then .error .outOfBounds else .ok ⟨some 0, maxH - 1, prev⟩

section
variable {K : Type} (cmp : K → K → Int) (b : Build)

/-- `KeyIsAfterNode` (db/skiplist.h:254-258). -/
def KeyIsAfterNode (keyOf : Ptr → M K) (key : K) (n : Ptr) : M Bool :=
  match n with
  | none => .ok false
  | some _ => do return decide (cmp (← keyOf n) key < 0)

/-- One iteration of `FindGreaterOrEqual` after its load (db/skiplist.h:269-283); the returned state
carries the filled `prev`. -/
def geBody (key : K) (keyOf : Ptr → M K) (s : Pos) (next : Ptr) : M (Step Pos (Ptr × Pos)) := do
  if ← KeyIsAfterNode cmp keyOf key next then
    return .go { s with x := next }
  else
    let prev ← match s.prev with
      | none => pure none
      | some arr =>
        if s.level < arr.length then pure (some (arr.set s.level (some s.x)))
        else throw .outOfBounds
    let s := { s with prev := prev }
    if s.level = 0 then return .ret (next, s)
    else return .go { s with level := s.level - 1 }

/-- The assertion at the head of the loop of `FindLessThan` (db/skiplist.h:293). -/
def ltPre (key : K) (keyOf : Ptr → M K) (s : Pos) : M Unit :=
  assertIf b.asserts (if s.x = some 0 then pure true else do return decide (cmp (← keyOf s.x) key < 0))

/-- One iteration of `FindLessThan` after its load (db/skiplist.h:296-305). -/
def ltBody (key : K) (keyOf : Ptr → M K) (s : Pos) (next : Ptr) : M (Step Pos (Ptr × Pos)) := do
  let stop ← match next with
    | none => pure true
    | some _ => do pure (decide (cmp (← keyOf next) key ≥ 0))
  if stop then
    if s.level = 0 then return .ret (s.x, s)
    else return .go { s with level := s.level - 1 }
  else return .go { s with x := next }

/-- One iteration of `FindLast` after its load (db/skiplist.h:317-328). -/
def lastBody (_keyOf : Ptr → M K) (s : Pos) (next : Ptr) : M (Step Pos (Ptr × Pos)) :=
  match next with
  | none =>
    if s.level = 0 then return .ret (s.x, s)
    else return .go { s with level := s.level - 1 }
  | some _ => return .go { s with x := next }

/-- The three searches. -/
inductive Search (K : Type) where
  | ge (key : K)
  | lt (key : K)
  | last

/-- What precedes the load in an iteration. -/
def Search.pre (keyOf : Ptr → M K) : Search K → Pos → M Unit
  | .ge _, _ => .ok ()
  | .lt k, s => ltPre cmp b k keyOf s
  | .last, _ => .ok ()

/-- What follows the load in an iteration. -/
def Search.body (keyOf : Ptr → M K) : Search K → Pos → Ptr → M (Step Pos (Ptr × Pos))
  | .ge k, s, n => geBody cmp k keyOf s n
  | .lt k, s, n => ltBody cmp k keyOf s n
  | .last, s, n => lastBody keyOf s n

/-- The `while (true)` loop on a memory that does not change meanwhile.  The number of iterations is
bounded by the fuel; running out is the fault `diverges`, so a theorem that says "no fault" says that
the loop ends. -/
def loop (m : Mem K) (q : Search K) : Nat → Pos → M (Ptr × Pos)
  | 0, _ => .error .diverges
  | fuel + 1, s => do
    q.pre cmp b m.key s
    let next ← m.next s.x s.level
    match ← q.body cmp m.key s next with
    | .ret r => return r
    | .go s' => loop m q fuel s'

/-- More iterations than any search needs (C24 proves it). -/
def fuelFor (m : Mem K) : Nat := m.nodes.length + 12

/-- `FindGreaterOrEqual`, `FindLessThan`, `FindLast` (db/skiplist.h:260-330). -/
def find (m : Mem K) (q : Search K) (prev : Option (List (Option Ptr))) : M (Ptr × Pos) := do
  loop cmp b m q (fuelFor m) (← startPos m.maxH prev)

/-- The loop of `RandomHeight` (db/skiplist.h:245-248). -/
def randomLoop : Nat → Nat → UInt32 → M (Nat × UInt32)
  | 0, _, _ => .error .diverges
  | fuel + 1, height, rnd =>
    if height < kMaxHeight then
      let r := Random.Next rnd
      if r % 4 = 0 then randomLoop fuel (height + 1) r else .ok (height, r)
    else .ok (height, rnd)

/-- `RandomHeight` (db/skiplist.h:241-252).  `height` is never negative, so `assert(height < 0)` is
`assert(false)`. -/
def RandomHeight (rnd : UInt32) : M (Nat × UInt32) := do
  let (height, rnd) ← randomLoop 12 1 rnd
  assertIf b.line249 (pure false)
  assertIf b.asserts (pure (decide (height ≤ kMaxHeight)))
  return (height, rnd)

/-- The loop `for (i = 0; i < kMaxHeight; ++i) head_->SetNext(i, nullptr)` of the constructor
(db/skiplist.h:339-341), from `i`, `n` iterations left. -/
def ctorLoop (s : SL K) (i : Nat) : Nat → M (SL K)
  | 0 => .ok s
  | n + 1 => do ctorLoop (← SetNext s (some 0) i none true) (i + 1) n

/-- `SkipList::SkipList` (db/skiplist.h:332-342); `k0` is the key of the head node ("any key will do"),
`seed` is 0xdeadbeef in the code.  The event log starts after the constructor: the object is handed
to other threads only then. -/
def construct (k0 : K) (seed : UInt32) : M (SL K) := do
  let s : SL K := ⟨⟨[], 1⟩, [], Random.init seed⟩
  let (_, s) := NewNode s k0 kMaxHeight
  let s ← ctorLoop s 0 kMaxHeight
  return { s with log := [] }

/-- The loop `for (i = GetMaxHeight(); i < height; ++i) prev[i] = head_` (db/skiplist.h:356-358). -/
def fillPrev (arr : List (Option Ptr)) (i : Nat) : Nat → M (List (Option Ptr))
  | 0 => .ok arr
  | n + 1 =>
    if i < arr.length then fillPrev (arr.set i (some (some 0))) (i + 1) n else .error .outOfBounds

/-- `prev[i]`. -/
def getPrev (arr : List (Option Ptr)) (i : Nat) : M Ptr :=
  match arr[i]? with
  | none => .error .outOfBounds
  | some none => .error .uninit
  | some (some p) => .ok p

/-- The linking loop of `Insert` (db/skiplist.h:370-375), from `i`, `n` iterations left. -/
def linkLoop (x : Ptr) (prev : List (Option Ptr)) (s : SL K) (i : Nat) : Nat → M (SL K)
  | 0 => .ok s
  | n + 1 => do
    let p ← getPrev prev i
    let nx ← s.mem.next p i
    let s ← SetNext s x i nx false
    let s ← SetNext s p i x true
    linkLoop x prev s (i + 1) n

/-- `assert(x == nullptr || !Equal(key, x->key))` (db/skiplist.h:352). -/
def dupAssert (m : Mem K) (key : K) (x : Ptr) : M Unit :=
  assertIf b.asserts (match x with
    | none => pure true
    | some _ => do return decide (cmp key (← m.key x) ≠ 0))

/-- `if (height > GetMaxHeight()) { ... }` (db/skiplist.h:355-367). -/
def raiseHeight (s : SL K) (prev : List (Option Ptr)) (height : Nat) : M (List (Option Ptr) × SL K) :=
  if height > s.mem.maxH then do
    let prev ← fillPrev prev s.mem.maxH (height - s.mem.maxH)
    return (prev, s.emit (.setMax height))
  else .ok (prev, s)

/-- `SkipList::Insert` (db/skiplist.h:344-376). -/
def Insert (s : SL K) (key : K) : M (SL K) := do
  let (x, pos) ← find cmp b s.mem (.ge key) (some (List.replicate kMaxHeight none))
  let prev ← match pos.prev with
    | some arr => pure arr
    | none => throw .nullDeref
  dupAssert cmp b s.mem key x
  let (height, rnd) ← RandomHeight b s.rnd
  let (prev, s) ← raiseHeight { s with rnd := rnd } prev height
  let (x, s) := NewNode s key height
  linkLoop x prev s 0 height

/-- `SkipList::Contains` (db/skiplist.h:378-382). -/
def Contains (m : Mem K) (key : K) : M Bool := do
  let (x, _) ← find cmp b m (.ge key) none
  match x with
  | none => return false
  | some _ => return decide (cmp key (← m.key x) = 0)

/-- The operations of `Iterator` (db/skiplist.h:189-239); the iterator is its `node_`. -/
inductive IterOp (K : Type) where
  | seek (target : K)
  | seekToFirst
  | seekToLast
  | next
  | prev

/-- `Iterator::Valid` (db/skiplist.h:195-198). -/
def Valid (node : Ptr) : Bool := node.isSome

/-- Normalisation after `FindLessThan`/`FindLast`: `if (node_ == list_->head_) node_ = nullptr`
(db/skiplist.h:218-220, 236-238). -/
def dropHead (p : Ptr) : Ptr := if p = some 0 then none else p

/-- An iterator operation on a memory that does not change meanwhile; returns the new `node_`. -/
def iter (m : Mem K) (node : Ptr) : IterOp K → M Ptr
  | .seek t => do return (← find cmp b m (.ge t) none).1
  | .seekToFirst => m.next (some 0) 0
  | .seekToLast => do return dropHead (← find cmp b m .last none).1
  | .next => do
    assertIf b.asserts (pure (Valid node))
    m.next node 0
  | .prev => do
    assertIf b.asserts (pure (Valid node))
    let k ← m.key node
    return dropHead (← find cmp b m (.lt k) none).1

/-- `Iterator::key` (db/skiplist.h:200-204). -/
def iterKey (m : Mem K) (node : Ptr) : M K := do
  assertIf b.asserts (pure (Valid node))
  m.key node

/-- A client's history of insertions. -/
def insertAll (s : SL K) : List K → M (SL K)
  | [] => .ok s
  | k :: ks => do insertAll (← Insert cmp b s k) ks

/-- The whole history: construct, then insert. -/
def build (k0 : K) (seed : UInt32) (ks : List K) : M (SL K) := do
  insertAll cmp b (← construct k0 seed) ks

/-! ## Readers concurrent with the writer

The writer performs the stores of its log one after the other.  A reader has a *view*: the number `T`
of stores that happen before what it does next.  A load of a link may return the value the link had
after any number `t ≥ T` of stores, up to the stores performed so far (C++ release/acquire with a
single writer: a load may not return a value overwritten by a store that happens before it, and may
otherwise return any value written).  Reading a value written by a release store extends the view to
that store and everything before it; reading a relaxed store does not.  -/

/-- Memory after the first `t` stores. -/
def memAt (base : Mem K) (log : List (Ev K)) (t : Nat) : Mem K := base.replay (log.take t)

/-- Index after the last store to link `l` of node `x` in the log, and whether it was a release
store. -/
def lastStore (x l : Nat) : List (Ev K) → Nat → Option (Nat × Bool) → Option (Nat × Bool)
  | [], _, acc => acc
  | .store x' l' _ rel :: es, i, acc =>
    lastStore x l es (i + 1) (if x' = x ∧ l' = l then some (i + 1, rel) else acc)
  | _ :: es, i, acc => lastStore x l es (i + 1) acc

/-- An acquire load of `p->next_[l]` (db/skiplist.h:150-155) under view `T`, choosing the value of time
`t`: returns the value and the new view.  If the slot is not known (in the view) to be initialised, the
load is a fault. -/
def cload (base : Mem K) (log : List (Ev K)) (T t : Nat) (p : Ptr) (l : Nat) : M (Ptr × Nat) := do
  let _ ← (memAt base log T).next p l
  let v ← (memAt base log t).next p l
  match p with
  | none => throw .nullDeref
  | some x =>
    match lastStore x l (log.take t) 0 none with
    | some (i, true) => return (v, max T i)
    | _ => return (v, T)

/-- The key of a node under view `T`: reading it is race-free only if the construction of the node
happens before. -/
def ckey (base : Mem K) (log : List (Ev K)) (T : Nat) (p : Ptr) : M K := (memAt base log T).key p

/-- A search run by a reader, `ts` choosing the time of each load.  `none`: the choices are not legal
(a load older than the view, or of a store not yet performed) or the read has not finished. -/
def cloop (base : Mem K) (log : List (Ev K)) (q : Search K) : List Nat → Pos → Nat →
    Option (M (Ptr × Nat))
  | [], _, _ => none
  | t :: ts, s, T =>
    if T ≤ t ∧ t ≤ log.length then
      match q.pre cmp b (ckey base log T) s with
      | .error f => some (.error f)
      | .ok _ =>
        match cload base log T t s.x s.level with
        | .error f => some (.error f)
        | .ok (next, T') =>
          match q.body cmp (ckey base log T') s next with
          | .error f => some (.error f)
          | .ok (.ret (r, _)) => some (.ok (r, T'))
          | .ok (.go s') => cloop base log q ts s' T'
    else none

/-- A search by a reader: the relaxed load of `max_height_` returns the value of any time `th` up to
now, however old. -/
def cfind (base : Mem K) (log : List (Ev K)) (q : Search K) (th : Nat) (ts : List Nat) (T : Nat) :
    Option (M (Ptr × Nat)) :=
  match startPos (memAt base log th).maxH none with
  | .error f => some (.error f)
  | .ok p => cloop cmp b base log q ts p T

/-- A single load by a reader. -/
def cload1 (base : Mem K) (log : List (Ev K)) (ts : List Nat) (T : Nat) (p : Ptr) :
    Option (M (Ptr × Nat)) :=
  match ts with
  | [] => none
  | t :: _ => if T ≤ t ∧ t ≤ log.length then some (cload base log T t p 0) else none

/-- An iterator operation run by a reader. -/
def citer (base : Mem K) (log : List (Ev K)) (th : Nat) (ts : List Nat) (T : Nat) (node : Ptr) :
    IterOp K → Option (M (Ptr × Nat))
  | .seek t => cfind cmp b base log (.ge t) th ts T
  | .seekToFirst => cload1 base log ts T (some 0)
  | .seekToLast =>
    (cfind cmp b base log .last th ts T).map (fun r => r.map (fun (p, T') => (dropHead p, T')))
  | .next =>
    match assertIf b.asserts (pure (Valid node)) with
    | .error f => some (.error f)
    | .ok _ => cload1 base log ts T node
  | .prev =>
    match assertIf b.asserts (pure (Valid node)) with
    | .error f => some (.error f)
    | .ok _ =>
      match ckey base log T node with
      | .error f => some (.error f)
      | .ok k =>
        (cfind cmp b base log (.lt k) th ts T).map (fun r => r.map (fun (p, T') => (dropHead p, T')))

/-- `Contains` run by a reader. -/
def ccontains (base : Mem K) (log : List (Ev K)) (th : Nat) (ts : List Nat) (T : Nat) (key : K) :
    Option (M (Bool × Nat)) :=
  (cfind cmp b base log (.ge key) th ts T).map (fun r => do
    let (x, T') ← r
    match x with
    | none => return (false, T')
    | some _ => return (decide (cmp key (← ckey base log T' x) = 0), T'))

end

end SkipList
end Lsmdb
