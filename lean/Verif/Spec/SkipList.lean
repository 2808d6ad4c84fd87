import Verif.Model.SkipList

/-!
# What an ordered set is

Written with the comparator only: nothing here mentions nodes, levels or memory.
-/

namespace Lsmdb.Spec

/-- A comparator: antisymmetric in sign and transitive (a total preorder; keys that compare equal count
as the same key). -/
structure CmpOK {K : Type} (cmp : K → K → Int) : Prop where
  swap : ∀ a b, cmp a b < 0 ↔ 0 < cmp b a
  trans : ∀ a b c, cmp a b ≤ 0 → cmp b c ≤ 0 → cmp a c ≤ 0

/-- No two keys of the list compare equal. -/
def Distinct {K : Type} (cmp : K → K → Int) (ks : List K) : Prop :=
  ks.Pairwise (fun a b => cmp a b ≠ 0)

section
variable {K : Type} (cmp : K → K → Int) (ks : List K)

/-- `r` is the smallest key of the set satisfying `P` (`none`: there is no such key). -/
def Least (P : K → Prop) : Option K → Prop
  | none => ∀ k ∈ ks, ¬ P k
  | some r => r ∈ ks ∧ P r ∧ ∀ k ∈ ks, P k → cmp r k ≤ 0

/-- `r` is the greatest key of the set satisfying `P`. -/
def Greatest (P : K → Prop) : Option K → Prop
  | none => ∀ k ∈ ks, ¬ P k
  | some r => r ∈ ks ∧ P r ∧ ∀ k ∈ ks, P k → cmp k r ≤ 0

/-- Where an iterator positioned at `cur` (`none`: not valid) must be after an operation, on the set
`ks`.  `Next` and `Prev` require a valid iterator. -/
def IterSpec (cur : Option K) (op : SkipList.IterOp K) (r : Option K) : Prop :=
  match op with
  | .seek t => Least cmp ks (fun k => cmp k t ≥ 0) r
  | .seekToFirst => Least cmp ks (fun _ => True) r
  | .seekToLast => Greatest cmp ks (fun _ => True) r
  | .next => ∃ c, cur = some c ∧ Least cmp ks (fun k => cmp k c > 0) r
  | .prev => ∃ c, cur = some c ∧ Greatest cmp ks (fun k => cmp k c < 0) r

/-- The operation's precondition: `Next` and `Prev` require `Valid()`. -/
def IterPre (valid : Bool) (op : SkipList.IterOp K) : Prop :=
  match op with
  | .next => valid = true
  | .prev => valid = true
  | _ => True

end
end Lsmdb.Spec

namespace Lsmdb.Spec
open SkipList
section
variable {K : Type} (cmp : K → K → Int) (b : Build)

/-- The client loop `while (it.Valid()) { visit(it.key()); it.Next(); }`; out of fuel means it has not
ended. -/
def scanForward (m : Mem K) : Nat → Ptr → M (List K)
  | 0, _ => .error .diverges
  | fuel + 1, node =>
    if Valid node then do
      let k ← iterKey b m node
      let node ← iter cmp b m node .next
      return k :: (← scanForward m fuel node)
    else .ok []

/-- The client loop `while (it.Valid()) { visit(it.key()); it.Prev(); }`. -/
def scanBackward (m : Mem K) : Nat → Ptr → M (List K)
  | 0, _ => .error .diverges
  | fuel + 1, node =>
    if Valid node then do
      let k ← iterKey b m node
      let node ← iter cmp b m node .prev
      return k :: (← scanBackward m fuel node)
    else .ok []

/-- What a client sees of an iterator: nothing if it is not valid, else its key. -/
def position (m : Mem K) (node : Ptr) : M (Option K) :=
  if Valid node then do return some (← iterKey b m node) else .ok none

/-- Iterators a client can have on a list that is not being modified: a fresh one, or one obtained by a
legal operation. -/
inductive IterReach (m : Mem K) : Ptr → Prop
  | fresh : IterReach m none
  | op {node node' : Ptr} {o : IterOp K} : IterReach m node → IterPre (Valid node) o →
      iter cmp b m node o = .ok node' → IterReach m node'

/-- A reader using an iterator while the writer goes on.  `log` is everything the writer will ever store;
`N` is how many stores it has performed, `T` how many of them happen before the reader's next step.
Between operations time may pass and the reader may synchronise with the writer; during an operation
each load is legal for the stores performed by its end. -/
inductive Session (base : Mem K) (log : List (Ev K)) : Ptr → Nat → Nat → Prop
  | start {T N : Nat} : T ≤ N → N ≤ log.length → Session base log none T N
  | wait {node : Ptr} {T N T' N' : Nat} : Session base log node T N → N ≤ N' → N' ≤ log.length →
      T ≤ T' → T' ≤ N' → Session base log node T' N'
  | op {node node' : Ptr} {T T' N th : Nat} {ts : List Nat} {o : IterOp K} : Session base log node T N →
      IterPre (Valid node) o → th ≤ N →
      citer cmp b base (log.take N) th ts T node o = some (.ok (node', T')) →
      Session base log node' T' N

/-- A search by a reader that is still under way: it started at `p0` with view `T0`, has performed `n` loads, each with any legal
outcome, and is at `p` with view `T`. -/
inductive Searching (base : Mem K) (log : List (Ev K)) (q : Search K) (p0 : Pos) (T0 : Nat) : Nat → Pos → Nat → Prop
  | start : Searching base log q p0 T0 0 p0 T0
  | load {n : Nat} {p p' : Pos} {T T' t : Nat} {next : Ptr} : Searching base log q p0 T0 n p T → T ≤ t → t ≤ log.length →
      q.pre cmp b (ckey base log T) p = .ok () → cload base log T t p.x p.level = .ok (next, T') →
      q.body cmp (ckey base log T') p next = .ok (.go p') → Searching base log q p0 T0 (n + 1) p' T'

/-- What the reader sees of its iterator under its view. -/
def viewPosition (base : Mem K) (log : List (Ev K)) (T : Nat) (node : Ptr) : M (Option K) :=
  position b (memAt base log T) node

end
end Lsmdb.Spec
