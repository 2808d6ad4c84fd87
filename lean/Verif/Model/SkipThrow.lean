import Verif.Model.SkipList

/-!
# Model of `db/skiplist.h` with a comparator that may throw

The methods again, statement by statement, as computations that change an object of type `σ` and count the calls of the comparator; the
comparator throws at the calls that `throws` tells.  An exception leaves the object as it is at that moment: there is no `catch` and
no destructor with an effect in the methods.  What does not call the comparator (loads, stores, `RandomHeight`) is taken from
`Model/SkipList`.
-/

namespace Lsmdb
namespace SkipList

/-- How a computation ends: it returns, or an exception leaves it, or it commits a fault (or a failed assertion ends the program). -/
inductive Out (α : Type) where
  | ok (a : α)
  | threw
  | fault (e : Fault)

/-- A computation: from the object and the number of calls of the comparator so far. -/
def T (σ α : Type) : Type := σ → Nat → Out α × σ × Nat

instance {σ : Type} : Monad (T σ) where
  pure a := fun s n => (.ok a, s, n)
  bind t f := fun s n => match t s n with
    | (.ok a, s, n) => f a s n
    | (.threw, s, n) => (.threw, s, n)
    | (.fault e, s, n) => (.fault e, s, n)

namespace T

/-- The object. -/
def get {σ : Type} : T σ σ := fun s n => (.ok s, s, n)

/-- A change of the object. -/
def set {σ : Type} (s : σ) : T σ Unit := fun _ n => (.ok (), s, n)

/-- Something that neither changes the object nor compares. -/
def lift {σ α : Type} : M α → T σ α
  | .ok a => fun s n => (.ok a, s, n)
  | .error e => fun s n => (.fault e, s, n)

/-- `try { t } catch (...) {}` in the client; tells whether `t` was completed. -/
def attempt {σ α : Type} (t : T σ α) : T σ Bool := fun s n => match t s n with
  | (.ok _, s, n) => (.ok true, s, n)
  | (.threw, s, n) => (.ok false, s, n)
  | (.fault e, s, n) => (.fault e, s, n)

end T

section
open T
variable {K σ : Type} (cmp : K → K → Int) (throws : Nat → Bool) (b : Build)

/-- `compare_(x, y)`. -/
def compareT (x y : K) : T σ Int := fun s n => if throws n then (.threw, s, n + 1) else (.ok (cmp x y), s, n + 1)

/-- `KeyIsAfterNode` (db/skiplist.h:254-258). -/
def keyIsAfterNodeT (mem : σ → Mem K) (key : K) (n : Ptr) : T σ Bool :=
  match n with
  | none => pure false
  | some _ => do
    let s ← get
    let k ← lift ((mem s).key n)
    let r ← compareT cmp throws k key
    pure (decide (r < 0))

/-- The loop of `FindGreaterOrEqual` (db/skiplist.h:266-284). -/
def geLoopT (mem : σ → Mem K) (key : K) : Nat → Pos → T σ (Ptr × Pos)
  | 0, _ => lift (.error .diverges)
  | fuel + 1, p => do
    let s ← get
    let next ← lift ((mem s).next p.x p.level)
    let after ← keyIsAfterNodeT cmp throws mem key next
    if after then geLoopT mem key fuel { p with x := next }
    else do
      let prev ← lift (match p.prev with
        | none => pure none
        | some arr => if p.level < arr.length then pure (some (arr.set p.level (some p.x))) else throw .outOfBounds)
      let p := { p with prev := prev }
      if p.level = 0 then pure (next, p) else geLoopT mem key fuel { p with level := p.level - 1 }

/-- `FindGreaterOrEqual` (db/skiplist.h:260-285). -/
def findGreaterOrEqualT (mem : σ → Mem K) (key : K) (prev : Option (List (Option Ptr))) : T σ (Ptr × Pos) := do
  let s ← get
  let p ← lift (startPos (mem s).maxH prev)
  geLoopT cmp throws mem key (fuelFor (mem s)) p

/-- The assertion of `FindLessThan` (db/skiplist.h:293). -/
def ltPreT (mem : σ → Mem K) (key : K) (p : Pos) : T σ Unit :=
  if b.asserts then
    if p.x = some 0 then pure ()
    else do
      let s ← get
      let k ← lift ((mem s).key p.x)
      let r ← compareT cmp throws k key
      lift (cassert (decide (r < 0)))
  else pure ()

/-- `next == nullptr || compare_(next->key, key) >= 0` (db/skiplist.h:297). -/
def stopT (mem : σ → Mem K) (key : K) (next : Ptr) : T σ Bool :=
  match next with
  | none => pure true
  | some _ => do
    let s ← get
    let k ← lift ((mem s).key next)
    let r ← compareT cmp throws k key
    pure (decide (r ≥ 0))

/-- The loop of `FindLessThan` (db/skiplist.h:292-306). -/
def ltLoopT (mem : σ → Mem K) (key : K) : Nat → Pos → T σ (Ptr × Pos)
  | 0, _ => lift (.error .diverges)
  | fuel + 1, p => do
    ltPreT cmp throws b mem key p
    let s ← get
    let next ← lift ((mem s).next p.x p.level)
    let stop ← stopT cmp throws mem key next
    if stop then
      if p.level = 0 then pure (p.x, p) else ltLoopT mem key fuel { p with level := p.level - 1 }
    else ltLoopT mem key fuel { p with x := next }

/-- `FindLessThan` (db/skiplist.h:287-307). -/
def findLessThanT (mem : σ → Mem K) (key : K) : T σ (Ptr × Pos) := do
  let s ← get
  let p ← lift (startPos (mem s).maxH none)
  ltLoopT cmp throws b mem key (fuelFor (mem s)) p

/-- `assert(x == nullptr || !Equal(key, x->key))` (db/skiplist.h:352). -/
def dupAssertT (mem : σ → Mem K) (key : K) (x : Ptr) : T σ Unit :=
  if b.asserts then
    match x with
    | none => pure ()
    | some _ => do
      let s ← get
      let k ← lift ((mem s).key x)
      let r ← compareT cmp throws key k
      lift (cassert (decide (r ≠ 0)))
  else pure ()

/-- `Insert` (db/skiplist.h:344-376); the object is the list. -/
def InsertT (key : K) : T (SL K) Unit := do
  let (x, pos) ← findGreaterOrEqualT cmp throws SL.mem key (some (List.replicate kMaxHeight none))
  let prev ← lift (match pos.prev with
    | some arr => pure arr
    | none => throw .nullDeref)
  dupAssertT cmp throws b SL.mem key x
  let s ← get
  let (height, rnd) ← lift (RandomHeight b s.rnd)
  set { s with rnd := rnd }
  let s ← get
  let (prev, s) ← lift (raiseHeight s prev height)
  set s
  let s ← get
  let (x, s) := NewNode s key height
  set s
  let s ← get
  let s ← lift (linkLoop x prev s 0 height)
  set s

/-- `Contains` (db/skiplist.h:378-382); the object is the list's memory. -/
def ContainsT (key : K) : T (Mem K) Bool := do
  let (x, _) ← findGreaterOrEqualT cmp throws id key none
  match x with
  | none => pure false
  | some _ => do
    let m ← get
    let k ← lift (m.key x)
    let r ← compareT cmp throws key k
    pure (decide (r = 0))

/-- The iterator's operations (db/skiplist.h:206-239); the object is the list's memory and `node_`. -/
def iterT : IterOp K → T (Mem K × Ptr) Unit
  | .seek t => do
    let (x, _) ← findGreaterOrEqualT cmp throws Prod.fst t none
    let (m, _) ← get
    set (m, x)
  | .seekToFirst => do
    let (m, _) ← get
    let x ← lift (m.next (some 0) 0)
    set (m, x)
  | .seekToLast => do
    let (m, _) ← get
    let (x, _) ← lift (find cmp b m .last none)
    set (m, x)
    let (m, node) ← get
    set (m, dropHead node)
  | .next => do
    let (m, node) ← get
    lift (assertIf b.asserts (pure (Valid node)))
    let x ← lift (m.next node 0)
    set (m, x)
  | .prev => do
    let (m, node) ← get
    lift (assertIf b.asserts (pure (Valid node)))
    let k ← lift (m.key node)
    let (x, _) ← findLessThanT cmp throws b Prod.fst k
    set (m, x)
    let (m, node) ← get
    set (m, dropHead node)

/-- A client that inserts keys and catches what the comparator throws; returns the keys whose insertion was completed. -/
def insertAllT : List K → T (SL K) (List K)
  | [] => pure []
  | k :: ks => do
    let done ← attempt (InsertT cmp throws b k)
    let rest ← insertAllT ks
    pure (if done then k :: rest else rest)

end

end SkipList
end Lsmdb
