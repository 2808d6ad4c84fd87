import Verif.Model.SkipArena
import Verif.Spec.Arena
import Verif.Spec.SkipList

/-!
# A skip list that shares its arena with others

The client constructs a list in an arena that may already be in use, inserts keys, moves an iterator, allocates from the same arena for
other purposes and stores what it likes into what it was given.
-/

namespace Lsmdb.Spec
open SkipList (Build IterOp Ptr Valid)
open SkipArena

/-- `new[]` behaves in an arena call for `bytes` bytes: the address is good for the block the arena may ask for. -/
def NewGood (ar : Arena.State) (bytes : Nat) (new : Option Nat) : Prop :=
  ∀ a, new = some a → NewOK ar.blocks a (if bytes > 1024 then bytes else 4096)

section
variable {K : Type} (sz : Nat) (cmp : K → K → Int) (b : Build)

/-- `new[]` behaves in the `Insert` that comes next (how much it asks for depends on the height that the generator yields). -/
def InsertNew (s : FL K) (new : Option Nat) : Prop :=
  ∀ height rnd, SkipList.RandomHeight b s.rnd = .ok (height, rnd) → NewGood s.arena (nodeBytes sz height) new

/-- The states of a client of the list: `A` is what it was given by the arena, `ks` are the keys whose `Insert` did not throw, in order,
`node` is its iterator. -/
inductive ListReach : FL K → List Arena.Alloc → List K → Ptr → Prop
  | start {hist : List (Arena.Call × Option Nat)} {ar : Arena.State} {A : List Arena.Alloc} {mem : Memory K} {k0 : K} {seed : UInt32}
      {new : Option Nat} {s : FL K} : EnvOK Arena.init hist → Arena.run Arena.init [] hist = .ok (ar, A) →
      NewGood ar (nodeBytes sz SkipList.kMaxHeight) new → construct sz ar mem k0 seed new = .ok (some s) → ListReach s A [] none
  | insert {s s' : FL K} {A : List Arena.Alloc} {ks : List K} {node : Ptr} {k : K} {new : Option Nat} {done : Bool} :
      ListReach s A ks node → (∀ k' ∈ ks, cmp k k' ≠ 0) → InsertNew sz b s new → Insert sz cmp b s k new = .ok (done, s') →
      ListReach s' A (if done then ks ++ [k] else ks) node
  | alloc {s : FL K} {A : List Arena.Alloc} {ks : List K} {node : Ptr} {c : Arena.Call} {new : Option Nat} {p : Nat} {ar : Arena.State} :
      ListReach s A ks node → 0 < c.bytes ∧ c.bytes + 8 ≤ 2 ^ 64 → NewGood s.arena c.bytes new →
      Arena.step s.arena c new = .ok (some (p, ar)) → ListReach { s with arena := ar } (A ++ [⟨p, c.bytes, c.aligned⟩]) ks node
  | write {s : FL K} {A : List Arena.Alloc} {ks : List K} {node : Ptr} {x : Arena.Alloc} {a n : Nat} {o : Obj K} {mem : Memory K} :
      ListReach s A ks node → x ∈ A → Inside a n x.addr x.size → writeAt s.arena s.mem a n o = .ok mem →
      ListReach { s with mem := mem } A ks node
  | fresh {s : FL K} {A : List Arena.Alloc} {ks : List K} {node : Ptr} : ListReach s A ks node → ListReach s A ks none
  | op {s : FL K} {A : List Arena.Alloc} {ks : List K} {node node' : Ptr} {o : IterOp K} :
      ListReach s A ks node → IterPre (Valid node) o → iter sz cmp b s node o = .ok node' → ListReach s A ks node'

/-- What the client sees of its iterator. -/
def seenKey (s : FL K) (node : Ptr) : M (Option K) :=
  if Valid node then do return some (← SkipArena.iterKey sz b s node) else .ok none

end
end Lsmdb.Spec
