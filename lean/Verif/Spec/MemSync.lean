import Verif.Spec.MemEnvConc
import Verif.Spec.HappensBefore

/-!
# The shared in-memory Env: synchronization
-/

namespace Lsmdb
namespace MemConc
open MemEnv
open CacheConc (Tid)

/-- The history before step `n`. -/
def hist (ev : Nat → Option Ev) : Nat → Hist
  | 0 => []
  | n + 1 => (ev n).toList ++ hist ev n

/-- The first `N` steps of an execution of any number of threads on a new Env, with clients that follow the rules. -/
structure Exec (N : Nat) : Type 1 where
  w : Nat → World
  ev : Nat → Option Ev
  start : w 0 = World.init
  step : ∀ i, i < N → Step (w i) (ev i) (w (i + 1))
  rules : ∀ i, i < N → ∀ t o, ev i = some (.call t o) → Permitted (hist ev i) o

/-- A step is made by the thread that moves; which mutexes are taken and released is read off the state. -/
def Exec.sync {N : Nat} (x : Exec N) : Sync Lock where
  thread i t := (x.w (i + 1)).pc t ≠ (x.w i).pc t
  locks i l := (x.w i).owner l = none ∧ (x.w (i + 1)).owner l ≠ none
  unlocks i l := (x.w i).owner l ≠ none ∧ (x.w (i + 1)).owner l = none
  starts _ _ := False

/-- What is shared: `file_map_` (memenv.cc:384), and `refs_`, and `blocks_` and `size_` of the `FileState` at an address
(memenv.cc:141, 144-145). -/
inductive Part where
  | map
  | refs (i : Nat)
  | content (i : Nat)

/-- New contents for a part of the memory. -/
inductive Change where
  | map (m : FileMap)
  | refs (i : Nat) (n : Int)
  | content (i : Nat) (c : Content)

/-- The part that is changed. -/
def Change.part : Change → Part
  | .map _ => .map
  | .refs i _ => .refs i
  | .content i _ => .content i

/-- The memory with the change; a deleted object is not changed. -/
def Change.apply : Change → Env → Env
  | .map m, e => { e with map := m }
  | .refs i n, e =>
    match e.files[i]? with
    | some (some f) => setFile e i { f with refs := n }
    | _ => e
  | .content i c, e =>
    match e.files[i]? with
    | some (some f) => setFile e i { f with blocks := c.blocks, size := c.size }
    | _ => e

/-- The object that the part belongs to exists. -/
def Part.In (e : Env) : Part → Prop
  | .map => True
  | .refs i => Live e i
  | .content i => Live e i

/-- A statement `f` neither reads nor writes the part `m`: with other contents of `m` it does the same, and leaves them as they are. -/
def Ignores {β : Type} (f : Env → M (Env × β)) (e : Env) (m : Part) : Prop :=
  ∀ c : Change, c.part = m → f (c.apply e) = (f e).map fun x => (c.apply x.1, x.2)

/-- In step `i` thread `t` executes a statement that reads or writes the part `m`. -/
def Exec.Accesses {N : Nat} (x : Exec N) (i : Nat) (t : Tid) (m : Part) : Prop :=
  x.sync.thread i t ∧ m.In (x.w i).env ∧
    ∃ (β : Type) (f : Env → M (Env × β)) (next : β → Code), (x.w i).pc t = .run (.act f next) ∧ ¬ Ignores f (x.w i).env m

/-- The call can make a file of the name. -/
def MakesName : Op → Bytes → Prop
  | .newWritable f, n => f = n
  | .newAppendable f, n => f = n
  | .renameFile _ b, n => b = n
  | _, _ => False

/-- The answer tells the client that there is a file of the name. -/
def ShowsName : Op → Res → Bytes → Prop
  | .fileExists f, r, n => f = n ∧ r = .bool true
  | .newSequential f, r, n => f = n ∧ ∃ h, r = .opened .ok h
  | .newRandomAccess f, r, n => f = n ∧ ∃ h, r = .opened .ok h
  | .getFileSize f, r, n => f = n ∧ ∃ size, r = .size .ok size
  | .removeFile f, r, n => f = n ∧ r = .status .ok
  | .renameFile a b, r, n => a = n ∧ b ≠ n ∧ r = .status .ok
  | .getChildren dir, r, n => ∃ l x, r = .list .ok l ∧ x ∈ l ∧ n = dir ++ [47] ++ x
  | _, _, _ => False

/-- The file object `h` refers, at some time, to the `FileState` `k`. -/
def Exec.IsOf {N : Nat} (x : Exec N) (h k : Nat) : Prop := ∃ m o, m ≤ N ∧ (x.w m).env.objs[h]? = some (some o) ∧ o.file = k

/-- The name stands, at some time, for the `FileState` `k`. -/
def Exec.IsNamed {N : Nat} (x : Exec N) (n : Bytes) (k : Nat) : Prop := ∃ m, m ≤ N ∧ mapFind (x.w m).env.map n = some (some k)

/-- The call, for a file object or `GetFileSize` for a name, is for the `FileState` `k`. -/
def Exec.IsFor {N : Nat} (x : Exec N) (o : Op) (k : Nat) : Prop :=
  (∀ h, target o = some h → x.IsOf h k) ∧ ∀ n, o = .getFileSize n → x.IsNamed n k

/-- The size that a file must have had for the answer. -/
def bytesSeen : Op → Res → Nat
  | .randRead _ off _, .data .ok (some d) => if d = [] then 0 else off + d.length
  | .seqRead _ _, .data .ok (some d) => d.length
  | .getFileSize _, .size .ok (some size) => size
  | _, _ => 0

/-- There are calls of `Append`, for file objects of the `FileState` `k`, that together have at least `s` bytes and have the property:
`c i` of the bytes are from the call in step `i`. -/
def Exec.Appended {N : Nat} (x : Exec N) (k s : Nat) (Q : Nat → Prop) : Prop :=
  ∃ (c : Nat → Nat) (n : Nat), n ≤ N ∧ s ≤ ((List.range n).map c).sum ∧
    ∀ i, c i ≠ 0 → Q i ∧ ∃ t h d, x.ev i = some (.call t (.append h d)) ∧ c i ≤ d.len ∧ x.IsOf h k

end MemConc
end Lsmdb
