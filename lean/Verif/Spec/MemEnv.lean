import Verif.Model.MemEnv
import Verif.Spec.Order

/-!
# What a user expects of an in-memory file system

Files are byte sequences with an identity; names refer to files; open file objects refer to files (not
to names).  Nothing here mentions blocks, reference counts, pointers or the map.
-/

namespace Lsmdb.Spec
open MemEnv (Op Res St Obj)

/-- The bytes of `c` in `[off, off+n)`, as far as they exist. -/
def sub (c : Bytes) (off n : Nat) : Bytes := (c.drop off).take n

/-- A file system as its user sees it. -/
structure FS where
  /-- the file a name refers to -/
  name : Bytes → Option Nat
  /-- the contents of a file -/
  data : Nat → Bytes
  /-- files created so far -/
  made : Nat
  /-- the open file objects: kind, file and (for a sequential one) position -/
  obj : Nat → Option Obj
  /-- file objects opened so far -/
  opened : Nat

namespace FS

/-- Nothing exists. -/
def init : FS := ⟨fun _ => none, fun _ => [], 0, fun _ => none, 0⟩

/-- A new file object. -/
def withObj (fs : FS) (o : Obj) : FS :=
  { fs with obj := upd fs.obj fs.opened (some o), opened := fs.opened + 1 }

/-- The file system after a call. -/
def next (fs : FS) : Op → FS
  | .newSequential n =>
    match fs.name n with
    | none => fs
    | some i => fs.withObj (.seq i 0)
  | .newRandomAccess n =>
    match fs.name n with
    | none => fs
    | some i => fs.withObj (.rand i)
  | .newWritable n =>
    match fs.name n with
    | none =>
      { fs with name := upd fs.name n (some fs.made), data := upd fs.data fs.made [],
                made := fs.made + 1 }.withObj (.wr fs.made)
    | some i => { fs with data := upd fs.data i [] }.withObj (.wr i)
  | .newAppendable n =>
    match fs.name n with
    | none =>
      { fs with name := upd fs.name n (some fs.made), data := upd fs.data fs.made [],
                made := fs.made + 1 }.withObj (.wr fs.made)
    | some i => fs.withObj (.wr i)
  | .removeFile n => { fs with name := upd fs.name n none }
  | .renameFile a b =>
    match fs.name a with
    | none => fs
    | some i => if a = b then fs else { fs with name := upd (upd fs.name b (some i)) a none }
  | .seqRead h n =>
    match fs.obj h with
    | some (.seq i pos) =>
      if pos ≤ (fs.data i).length then
        { fs with obj := upd fs.obj h (some (.seq i (pos + (sub (fs.data i) pos n).length))) }
      else fs
    | _ => fs
  | .seqSkip h n =>
    match fs.obj h with
    | some (.seq i pos) =>
      if pos ≤ (fs.data i).length then
        { fs with obj := upd fs.obj h (some (.seq i (min (pos + n) (fs.data i).length))) }
      else fs
    | _ => fs
  | .append h d =>
    match fs.obj h with
    | some (.wr i) => { fs with data := upd fs.data i (fs.data i ++ d.bytes) }
    | _ => fs
  | .delete h => { fs with obj := upd fs.obj h none }
  | .destroyEnv => { fs with name := fun _ => none }
  | _ => fs

/-- Error of an operation on a name that does not exist. -/
def missing (n : Bytes) : St := .err .ioError n "File not found".toUTF8.data.toList

/-- Error of a read beyond the end of the file. -/
def beyond : St := .err .ioError "Offset greater than file size".toUTF8.data.toList []

/-- Error of a skip beyond the end of the file. -/
def skipBeyond : St := .err .ioError "pos_ > file_->Slice()".toUTF8.data.toList []

/-- The answer of an open call. -/
def openAnswer (fs : FS) (n : Bytes) (r : Res) : Prop :=
  r = match fs.name n with
    | none => .opened (missing n) none
    | some _ => .opened .ok (some fs.opened)

/-- The answer of a read at an offset. -/
def readAnswer (c : Bytes) (off n : Nat) (r : Res) : Prop :=
  r = if off ≤ c.length then .data .ok (some (sub c off n)) else .data beyond none

/-- `r` is a right answer to the call. -/
def Answer (fs : FS) (o : Op) (r : Res) : Prop :=
  match o with
  | .newSequential n => openAnswer fs n r
  | .newRandomAccess n => openAnswer fs n r
  | .newWritable _ => r = .opened .ok (some fs.opened)
  | .newAppendable _ => r = .opened .ok (some fs.opened)
  | .fileExists n => r = .bool (fs.name n).isSome
  | .getChildren d =>
    ∃ l, r = .list .ok l ∧ l.Pairwise lexLt ∧ ∀ s, s ∈ l ↔ (fs.name (d ++ 47 :: s)).isSome
  | .removeFile n => r = if (fs.name n).isSome then .status .ok else .status (missing n)
  | .createDir _ => r = .status .ok
  | .removeDir _ => r = .status .ok
  | .getFileSize n =>
    r = match fs.name n with
      | none => .size (missing n) none
      | some i => .size .ok (some (fs.data i).length)
  | .renameFile a _ => r = if (fs.name a).isSome then .status .ok else .status (missing a)
  | .seqRead h n =>
    match fs.obj h with
    | some (.seq i pos) => readAnswer (fs.data i) pos n r
    | _ => False
  | .seqSkip h _ =>
    match fs.obj h with
    | some (.seq i pos) =>
      r = if pos ≤ (fs.data i).length then .status .ok else .status skipBeyond
    | _ => False
  | .randRead h off n =>
    match fs.obj h with
    | some (.rand i) => readAnswer (fs.data i) off n r
    | _ => False
  | .append _ _ => r = .status .ok
  | .close _ => r = .status .ok
  | .flush _ => r = .status .ok
  | .sync _ => r = .status .ok
  | .delete _ => r = .unit
  | .destroyEnv => r = .unit

/-- What the client must observe: use only file objects that are open and of the right kind; files
stay below 2^64 bytes; fewer than 2^31 - 2 file objects are ever opened (`refs_` is an `int`).
The last two lines of `open` calls exclude the two defects of C42 and C43. -/
def Allowed (fs : FS) : Op → Prop
  | .newSequential _ => fs.opened + 2 < 2 ^ 31
  | .newRandomAccess _ => fs.opened + 2 < 2 ^ 31
  | .newWritable _ => fs.opened + 2 < 2 ^ 31
  | .newAppendable n => fs.opened + 2 < 2 ^ 31 ∧ (fs.name n).isSome
  | .renameFile a b => a ≠ b ∨ fs.name a = none
  | .seqRead h _ => ∃ i pos, fs.obj h = some (.seq i pos)
  | .seqSkip h _ => ∃ i pos, fs.obj h = some (.seq i pos)
  | .randRead h _ _ => ∃ i, fs.obj h = some (.rand i)
  | .append h d => d.WF ∧ ∃ i, fs.obj h = some (.wr i) ∧ (fs.data i).length + d.len < 2 ^ 64
  | .close h => ∃ i, fs.obj h = some (.wr i)
  | .flush h => ∃ i, fs.obj h = some (.wr i)
  | .sync h => ∃ i, fs.obj h = some (.wr i)
  | .delete h => (fs.obj h).isSome
  | _ => True

/-- The file system after a history. -/
def after (fs : FS) : List Op → FS
  | [] => fs
  | o :: os => (fs.next o).after os

/-- The client keeps the rules throughout a history. -/
def AllowedAll (fs : FS) : List Op → Prop
  | [] => True
  | o :: os => fs.Allowed o ∧ (fs.next o).AllowedAll os

/-- All answers of a history are right. -/
def Answers (fs : FS) : List Op → List Res → Prop
  | [], [] => True
  | o :: os, r :: rs => fs.Answer o r ∧ (fs.next o).Answers os rs
  | _, _ => False

/-- A file is in use: it has a name or an open file object. -/
def InUse (fs : FS) (i : Nat) : Prop :=
  (∃ n, fs.name n = some i) ∨ (∃ h o, fs.obj h = some o ∧ o.file = i)

end FS

/-- What a client can do to one file. -/
inductive FileOp where
  | append (d : Slice)
  | truncate

/-- The contents a history leaves. -/
def contents (c : Bytes) : List FileOp → Bytes
  | [] => c
  | .append d :: os => contents (c ++ d.bytes) os
  | .truncate :: os => contents [] os

/-- The slices are valid and the file stays below 2^64 bytes. -/
def FileAllowed (c : Bytes) : List FileOp → Prop
  | [] => True
  | .append d :: os => d.WF ∧ (c ++ d.bytes).length < 2 ^ 64 ∧ FileAllowed (c ++ d.bytes) os
  | .truncate :: os => FileAllowed [] os

/-- Execute the history on the program's file object. -/
def fileRun (f : MemEnv.FileState) : List FileOp → M MemEnv.FileState
  | [] => .ok f
  | .append d :: os => do fileRun (← f.Append d) os
  | .truncate :: os => fileRun f.Truncate os

/-- A request to a sequential file. -/
inductive Req where
  | read (n : Nat)
  | skip (n : Nat)

/-- The call on file object `x` that makes the request. -/
def Req.op (x : Nat) : Req → Op
  | .read n => .seqRead x n
  | .skip n => .seqSkip x n

/-- How far the request asks to move. -/
def Req.amount : Req → Nat
  | .read n => n
  | .skip n => n

/-- Right answers of a sequential file with contents `c` standing at `pos`: a read returns the bytes
from the position on; read and skip both move the position by the requested amount, but not beyond the
end. -/
def seqAnswers (c : Bytes) (pos : Nat) : List Req → List Res
  | [] => []
  | q :: qs =>
    (match q with
      | .read n => .data .ok (some (sub c pos n))
      | .skip _ => .status .ok) :: seqAnswers c (min (pos + q.amount) c.length) qs

/-- The whole contents of a file, observed through the interface: open it for random access and read
from 0; `none` if the open call stores null. -/
def readWhole (e : MemEnv.Env) (n : Bytes) : M (Option Bytes) := do
  let (e, r) ← MemEnv.step e (.newRandomAccess n)
  match r with
  | .opened _ (some h) => do
    let (_, r) ← MemEnv.step e (.randRead h 0 (2 ^ 64))
    match r with
    | .data .ok d => return d
    | _ => return none
  | _ => return none

/-- A program state reached by a history in which the client kept the rules, with the file system it
should represent. -/
def Reached (e : MemEnv.Env) (fs : FS) : Prop :=
  ∃ hist rs, FS.init.AllowedAll hist ∧ MemEnv.run MemEnv.Env.init hist = .ok (e, rs) ∧
    fs = FS.init.after hist

end Lsmdb.Spec
