import Verif.Model.MemEnvOom
import Verif.Spec.MemEnv

/-!
# What a call of an in-memory file system may leave behind that throws because memory ran out

The user expects: nothing.  `FS.Failed` says what can be relied on instead.
-/

namespace Lsmdb.Spec
open MemEnv (Op Res St Obj Mem)

namespace FS

/-- A new, empty file without a name. -/
def made1 (fs : FS) : FS := { fs with data := upd fs.data fs.made [], made := fs.made + 1 }

/-- The calls that may throw without having any effect: those that open an existing file for reading or
appending or would have to create it; listing; and those that would have returned an error. -/
def MayThrow (fs : FS) : Op → Prop
  | .newSequential _ => True
  | .newRandomAccess _ => True
  | .newAppendable _ => True
  | .getChildren _ => True
  | .newWritable n => fs.name n = none
  | .removeFile n => fs.name n = none
  | .getFileSize n => fs.name n = none
  | .renameFile a _ => fs.name a = none
  | .seqRead h _ => ∃ i pos, fs.obj h = some (.seq i pos) ∧ (fs.data i).length < pos
  | .seqSkip h _ => ∃ i pos, fs.obj h = some (.seq i pos) ∧ (fs.data i).length < pos
  | .randRead h off _ => ∃ i, fs.obj h = some (.rand i) ∧ (fs.data i).length < off
  | _ => False

/-- The file system after a call that threw: a failed `NewWritableFile` may have created the file, empty, or
emptied it; a failed `RenameFile` may have removed the file that had the new name; a failed `Append` may have
appended a part from the front that ends at a multiple of 8192 bytes.  No other failed call has an effect, and
these have none on other files or on any open file object. -/
inductive Failed (fs : FS) : Op → FS → Prop
  /-- no effect -/
  | nothing (o : Op) : fs.MayThrow o → Failed fs o fs
  /-- storage was taken for a file that got no name -/
  | lost (n : Bytes) : fs.name n = none → Failed fs (.newWritable n) fs.made1
  /-- the file was created -/
  | created (n : Bytes) : fs.name n = none →
      Failed fs (.newWritable n) { fs.made1 with name := upd fs.name n (some fs.made) }
  /-- the existing file was emptied -/
  | emptied (n : Bytes) (i : Nat) : fs.name n = some i →
      Failed fs (.newWritable n) { fs with data := upd fs.data i [] }
  /-- the target of a rename was removed -/
  | removed (a b : Bytes) : (fs.name a).isSome → a ≠ b →
      Failed fs (.renameFile a b) { fs with name := upd fs.name b none }
  /-- a part was appended -/
  | partly (h : Nat) (d : Slice) (i k : Nat) : fs.obj h = some (.wr i) → k < d.len →
      ((fs.data i).length + k) % 8192 = 0 →
      Failed fs (.append h d) { fs with data := upd fs.data i (fs.data i ++ d.bytes.take k) }

/-- What a call may do: answer rightly, or throw. -/
def Outcome (fs : FS) (o : Op) : Option Res → FS → Prop
  | some r, fs' => fs.Answer o r ∧ fs' = fs.next o
  | none, fs' => fs.Failed o fs'

end FS

/-- The program state shows this file system to its user: reading any name as a whole gives its contents. -/
def Shows (e : MemEnv.Env) (fs : FS) : Prop :=
  fs.opened + 2 < 2 ^ 31 → ∀ n, readWhole e n = .ok ((fs.name n).map fs.data)

/-- Storage: a file in use has not been released; no file has been released twice. -/
def StorageSafe (e : MemEnv.Env) (fs : FS) : Prop :=
  ∀ i, (fs.InUse i → e.freed.count i = 0) ∧ e.freed.count i ≤ 1

/-- The history of calls, each with its own shortages of memory, goes well from this state: as long as the client
keeps the rules nothing faults, every call answers rightly or throws, it throws only when memory runs out, and at
every point the file system that results is the one the program shows. -/
def GoesWell (e : MemEnv.Env) (fs : FS) : List (Op × Mem) → Prop
  | [] => Shows e fs ∧ StorageSafe e fs
  | (o, m) :: rest => Shows e fs ∧ StorageSafe e fs ∧
      (fs.Allowed o → ∃ e' r fs', MemEnv.stepO m e o = .ok (e', r) ∧ fs.Outcome o r fs' ∧
        (m = Mem.plenty → r.isSome) ∧ GoesWell e' fs' rest)

end Lsmdb.Spec
