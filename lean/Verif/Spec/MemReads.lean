import Verif.Spec.MemEnvConc
import Mathlib.Data.List.Perm.Subperm

/-!
# What the readers of a shared in-memory file see while it is written

The slices that were appended to the file are put in one order.  Every call that returned saw the file as it was after some number of
them.
-/

namespace Lsmdb
namespace MemConc
open MemEnv Spec
open CacheConc (Tid)

/-! ## The file objects of a name -/

/-- The name that a call opens. -/
def nameOf : Op → Option Bytes
  | .newSequential n => some n
  | .newRandomAccess n => some n
  | .newWritable n => some n
  | .newAppendable n => some n
  | _ => none

/-- The name that was given to the call that returned the file object. -/
def openedAs : Hist → Nat → Option Bytes
  | [], _ => none
  | .call _ _ :: H, h => openedAs H h
  | .ret t x :: H, h =>
    match x with
    | .opened _ (some h') => if h' = h then (pending H t).bind nameOf else openedAs H h
    | _ => openedAs H h

/-- The file object was opened by the name `n`. -/
def ofName (H : Hist) (n : Bytes) (h : Nat) : Bool := openedAs H h == some n

/-- The number of calls of `NewWritableFile` for the name. -/
def timesCreated (n : Bytes) : Hist → Nat
  | [] => 0
  | .call _ (.newWritable f) :: H => (if f = n then 1 else 0) + timesCreated n H
  | _ :: H => timesCreated n H

/-- The name is always that of the same file: it is created at most once, and no file is renamed to or from it. -/
structure OneFile (H : Hist) (n : Bytes) : Prop where
  once : timesCreated n H ≤ 1
  renamed : ∀ u b, Ev.call u (.renameFile n b) ∉ H
  replaced : ∀ u b, Ev.call u (.renameFile b n) ∉ H

/-! ## What calls see -/

/-- The history up to the call that thread `t` is in. -/
def began : Hist → Tid → Hist
  | [], _ => []
  | .call u _ :: H, t => if u = t then H else began H t
  | .ret u _ :: H, t => if u = t then [] else began H t

/-- The slices of the calls of `Append` for the file objects `A`, newest first. -/
def appendedTo (A : Nat → Bool) : Hist → List Slice
  | [] => []
  | .call _ (.append h d) :: H => if A h then d :: appendedTo A H else appendedTo A H
  | _ :: H => appendedTo A H

/-- Those of the calls that have returned. -/
def slicesDone (A : Nat → Bool) : Hist → List Slice
  | [] => []
  | .call _ _ :: H => slicesDone A H
  | .ret t _ :: H =>
    match pending H t with
    | some (.append h d) => if A h then d :: slicesDone A H else slicesDone A H
    | _ => slicesDone A H

/-- The contents of a file to which these slices were appended. -/
def content (ds : List Slice) : Bytes := (ds.map Slice.bytes).flatten

/-- In `H`, after `H0`, the call `o` of thread `t` returned `x`. -/
def Done (H H0 : Hist) (t : Tid) (o : Op) (x : Res) : Prop := (.ret t x :: H0) <:+ H ∧ pending H0 t = some o

/-- `x` is the right answer to `o` just after the first `j` of the slices `ds` were appended to the file with the name `n` and the file
objects `A`: if `o` is an `Append` to the file, then the last one of these is its own.  Nothing is said about calls for other files. -/
def Right (A : Nat → Bool) (n : Bytes) (ds : List Slice) (j : Nat) : Op → Res → Prop
  | .append h d, x => A h → x = .status .ok ∧ 0 < j ∧ ds[j - 1]? = some d
  | .randRead h off k, x => A h → FS.readAnswer (content (ds.take j)) off k x
  | .getFileSize f, x => f = n → x = .size (FS.missing f) none ∨ x = .size .ok (some (content (ds.take j)).length)
  | _, _ => True

/-- The call is an `Append` to the file. -/
def IsAppend (A : Nat → Bool) : Op → Prop
  | .append h _ => A h
  | _ => False

/-- The slices `ds` explain the history of the file with the name `n` and the file objects `A`: `m i` is the number of them that the call
saw that returned after the first `i` calls and returns. -/
structure Explains (A : Nat → Bool) (n : Bytes) (H : Hist) (ds : List Slice) (m : Nat → Nat) : Prop where
  /-- the answers are right -/
  right : ∀ {H0 t o x}, Done H H0 t o x → m H0.length ≤ ds.length ∧ Right A n ds (m H0.length) o x
  /-- the slices of all calls of `Append` that had returned before the call are seen -/
  past : ∀ {H0 t o x}, Done H H0 t o x → (slicesDone A (began H0 t)).Subperm (ds.take (m H0.length))
  /-- and no slices but those of calls of `Append` that began before the return -/
  future : ∀ {H0 t o x}, Done H H0 t o x → (ds.take (m H0.length)).Subperm (appendedTo A H0)
  /-- what one call saw is seen by every call that begins after its return; if this is an `Append`, then its slice comes later -/
  order : ∀ {H0 t o x H1 u o' x'}, Done H H0 t o x → Done H H1 u o' x' → (.ret t x :: H0) <:+ began H1 u →
    m H0.length ≤ m H1.length ∧ (IsAppend A o' → m H0.length < m H1.length)
  /-- different calls of `Append` have different places -/
  places : ∀ {H0 t o x H1 u o' x'}, Done H H0 t o x → Done H H1 u o' x' → IsAppend A o → IsAppend A o' → H0 ≠ H1 →
    m H0.length ≠ m H1.length

/-! ## Sequential files -/

/-- The bytes that the calls of `Read` of the `SequentialFile` have returned, in order. -/
def streamed : Hist → Nat → Bytes
  | [], _ => []
  | .call _ _ :: H, h => streamed H h
  | .ret t x :: H, h =>
    match pending H t, x with
    | some (.seqRead h' _), .data _ (some b) => if h' = h then streamed H h ++ b else streamed H h
    | _, _ => streamed H h

end MemConc
end Lsmdb
