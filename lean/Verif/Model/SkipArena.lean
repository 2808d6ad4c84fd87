import Verif.Model.Arena
import Verif.Model.SkipList

/-!
# The skip list in the memory of an arena

`Model/SkipList` numbers the nodes.  Here pointers are addresses in the memory of the arena that the list was given, which it shares with
other users, and the members of a node lie at offsets from its address.

Memory is the list of the objects that were stored, newest first.  Storing an object makes every object it overlaps unreadable; reading
is a fault unless exactly this object is there, inside memory that the arena owns.
-/

namespace Lsmdb
namespace SkipArena
open SkipList (Ptr Build Pos Search Step assertIf kMaxHeight IterOp Valid)

/-- What is stored: a key, a `std::atomic<Node*>`, or something of another user of the arena. -/
inductive Obj (K : Type) where
  | key (k : K)
  | link (p : Ptr)
  | other

/-- The stored objects: address, size, object. -/
abbrev Memory (K : Type) := List (Nat × Nat × Obj K)

/-- `[a, a+n)` and `[b, b+m)` have an address in common. -/
def overlaps (a n b m : Nat) : Bool := decide (a < b + m ∧ b < a + n)

/-- `[a, a+n)` lies in a block that the arena owns. -/
def owned (ar : Arena.State) (a n : Nat) : Bool := ar.blocks.any fun b => decide (b.1 ≤ a ∧ a + n ≤ b.1 + b.2)

section
variable {K : Type}

/-- Reading the object of size `n` at address `a`. -/
def readAt (ar : Arena.State) (mem : Memory K) (a n : Nat) : M (Obj K) :=
  if owned ar a n = true then
    match mem.find? (fun o => overlaps a n o.1 o.2.1) with
    | none => .error .uninit
    | some (b, m, o) => if b = a ∧ m = n then .ok o else .error .uninit
  else .error .outOfBounds

/-- Storing an object of size `n` at address `a`. -/
def writeAt (ar : Arena.State) (mem : Memory K) (a n : Nat) (o : Obj K) : M (Memory K) :=
  if owned ar a n = true then .ok ((a, n, o) :: mem) else .error .outOfBounds

/-- The list object (db/skiplist.h:125-138): `arena_` with its memory, `head_`, `max_height_`, `rnd_`. -/
structure FL (K : Type) where
  arena : Arena.State
  mem : Memory K
  head : Nat
  maxH : Nat
  rnd : UInt32

/-- `offsetof(Node, next_)`: `key` comes first (db/skiplist.h:146, 176), `next_` is aligned to 8.  `sz` is `sizeof(Key)`; keys need no
larger alignment than 8. -/
def linkOff (sz : Nat) : Nat := (sz + 7) / 8 * 8

/-- `sizeof(Node)`, with one link (db/skiplist.h:176). -/
def sizeofNode (sz : Nat) : Nat := linkOff sz + 8

/-- `sizeof(Node) + sizeof(std::atomic<Node*>) * (height - 1)` (db/skiplist.h:184). -/
def nodeBytes (sz height : Nat) : Nat := sizeofNode sz + 8 * (height - 1)

variable (sz : Nat)

/-- The address of `p->next_[l]`; an atomic object must be aligned. -/
def linkAddr (a l : Nat) : M Nat :=
  let addr := a + linkOff sz + 8 * l
  if addr % 8 = 0 then .ok addr else .error .outOfBounds

/-- `p->Next(l)`, `p->NoBarries_Next(l)` (db/skiplist.h:150-155, 164-167). -/
def next (s : FL K) (p : Ptr) (l : Nat) : M Ptr :=
  match p with
  | none => .error .nullDeref
  | some a => do
    match ← readAt s.arena s.mem (← linkAddr sz a l) 8 with
    | .link q => return q
    | _ => throw .uninit

/-- `p->key`. -/
def keyOf (s : FL K) (p : Ptr) : M K :=
  match p with
  | none => .error .nullDeref
  | some a => do
    match ← readAt s.arena s.mem a sz with
    | .key k => return k
    | _ => throw .uninit

/-- `p->SetNext(l, v)`, `p->NoBarrier_SetNext(l, v)` (db/skiplist.h:156-161, 168-171). -/
def setNext (s : FL K) (p : Ptr) (l : Nat) (v : Ptr) : M (FL K) :=
  match p with
  | none => .error .nullDeref
  | some a => do
    let mem ← writeAt s.arena s.mem (← linkAddr sz a l) 8 (.link v)
    return { s with mem := mem }

/-- `NewNode` (db/skiplist.h:179-187): `none` if `new[]` throws.  The placement `new` needs aligned memory and constructs the key. -/
def newNode (s : FL K) (key : K) (height : Nat) (new : Option Nat) : M (Option (Nat × FL K)) := do
  match ← Arena.AllocateAligned s.arena (nodeBytes sz height) new with
  | none => return none
  | some (a, ar) =>
    if a % 8 = 0 then do
      let mem ← writeAt ar s.mem a sz (.key key)
      return some (a, { s with arena := ar, mem := mem })
    else throw .outOfBounds

variable (cmp : K → K → Int) (b : Build)

/-- The assertion at the head of the loop of `FindLessThan` (db/skiplist.h:293). -/
def pre (s : FL K) : Search K → Pos → M Unit
  | .lt key, p => assertIf b.asserts (if p.x = some s.head then pure true else do return decide (cmp (← keyOf sz s p.x) key < 0))
  | _, _ => .ok ()

/-- The loops of the searches (db/skiplist.h:266-284, 292-306, 314-329), as in `Model/SkipList`. -/
def loop (s : FL K) (q : Search K) : Nat → Pos → M (Ptr × Pos)
  | 0, _ => .error .diverges
  | fuel + 1, p => do
    pre sz cmp b s q p
    let next ← next sz s p.x p.level
    match ← q.body cmp (keyOf sz s) p next with
    | .ret r => return r
    | .go p' => loop s q fuel p'

/-- `FindGreaterOrEqual`, `FindLessThan`, `FindLast` (db/skiplist.h:260-330).  There are at least as many stored objects as nodes. -/
def find (s : FL K) (q : Search K) (prev : Option (List (Option Ptr))) : M (Ptr × Pos) :=
  if s.maxH = 0 then .error .outOfBounds else loop sz cmp b s q (s.mem.length + 12) ⟨some s.head, s.maxH - 1, prev⟩

/-- The loop of the constructor (db/skiplist.h:339-341). -/
def ctorLoop (s : FL K) (i : Nat) : Nat → M (FL K)
  | 0 => .ok s
  | n + 1 => do ctorLoop (← setNext sz s (some s.head) i none) (i + 1) n

/-- `SkipList::SkipList` (db/skiplist.h:332-342), `mem` being what is already stored in the arena's memory; `none` if `new[]` throws. -/
def construct (ar : Arena.State) (mem : Memory K) (k0 : K) (seed : UInt32) (new : Option Nat) : M (Option (FL K)) := do
  match ← newNode sz ⟨ar, mem, 0, 1, Random.init seed⟩ k0 kMaxHeight new with
  | none => return none
  | some (a, s) => return some (← ctorLoop sz { s with head := a } 0 kMaxHeight)

/-- The loop `for (i = GetMaxHeight(); i < height; ++i) prev[i] = head_` (db/skiplist.h:356-358). -/
def fillPrev (head : Nat) (arr : List (Option Ptr)) (i : Nat) : Nat → M (List (Option Ptr))
  | 0 => .ok arr
  | n + 1 => if i < arr.length then fillPrev head (arr.set i (some (some head))) (i + 1) n else .error .outOfBounds

/-- `if (height > GetMaxHeight()) { ... }` (db/skiplist.h:355-367). -/
def raiseHeight (s : FL K) (prev : List (Option Ptr)) (height : Nat) : M (List (Option Ptr) × FL K) :=
  if height > s.maxH then do
    let prev ← fillPrev s.head prev s.maxH (height - s.maxH)
    return (prev, { s with maxH := height })
  else .ok (prev, s)

/-- The linking loop of `Insert` (db/skiplist.h:370-375). -/
def linkLoop (x : Ptr) (prev : List (Option Ptr)) (s : FL K) (i : Nat) : Nat → M (FL K)
  | 0 => .ok s
  | n + 1 => do
    let p ← SkipList.getPrev prev i
    let nx ← next sz s p i
    let s ← setNext sz s x i nx
    let s ← setNext sz s p i x
    linkLoop x prev s (i + 1) n

/-- `assert(x == nullptr || !Equal(key, x->key))` (db/skiplist.h:352). -/
def dupAssert (s : FL K) (key : K) (x : Ptr) : M Unit :=
  assertIf b.asserts (match x with
    | none => pure true
    | some _ => do return decide (cmp key (← keyOf sz s x) ≠ 0))

/-- `SkipList::Insert` (db/skiplist.h:344-376).  `false`: `new[]` threw `std::bad_alloc`, which leaves `Insert` from `NewNode`, after
`max_height_` was raised. -/
def Insert (s : FL K) (key : K) (new : Option Nat) : M (Bool × FL K) := do
  let (x, pos) ← find sz cmp b s (.ge key) (some (List.replicate kMaxHeight none))
  let prev ← match pos.prev with
    | some arr => pure arr
    | none => throw .nullDeref
  dupAssert sz cmp b s key x
  let (height, rnd) ← SkipList.RandomHeight b s.rnd
  let (prev, s) ← raiseHeight { s with rnd := rnd } prev height
  match ← newNode sz s key height new with
  | none => return (false, s)
  | some (a, s) => return (true, ← linkLoop sz (some a) prev s 0 height)

/-- `SkipList::Contains` (db/skiplist.h:378-382). -/
def Contains (s : FL K) (key : K) : M Bool := do
  let (x, _) ← find sz cmp b s (.ge key) none
  match x with
  | none => return false
  | some _ => return decide (cmp key (← keyOf sz s x) = 0)

/-- `if (node_ == list_->head_) node_ = nullptr` (db/skiplist.h:218-220, 236-238). -/
def dropHead (s : FL K) (p : Ptr) : Ptr := if p = some s.head then none else p

/-- The operations of `Iterator` (db/skiplist.h:206-239). -/
def iter (s : FL K) (node : Ptr) : IterOp K → M Ptr
  | .seek t => do return (← find sz cmp b s (.ge t) none).1
  | .seekToFirst => next sz s (some s.head) 0
  | .seekToLast => do return dropHead s (← find sz cmp b s .last none).1
  | .next => do
    assertIf b.asserts (pure (Valid node))
    next sz s node 0
  | .prev => do
    assertIf b.asserts (pure (Valid node))
    let k ← keyOf sz s node
    return dropHead s (← find sz cmp b s (.lt k) none).1

/-- `Iterator::key` (db/skiplist.h:200-204). -/
def iterKey (s : FL K) (node : Ptr) : M K := do
  assertIf b.asserts (pure (Valid node))
  keyOf sz s node

end

end SkipArena
end Lsmdb
