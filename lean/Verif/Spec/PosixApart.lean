import Verif.Spec.PosixReads

/-!
# Calls about other files (C95)
-/

namespace Lsmdb
namespace Posix
namespace Conc

open MemEnv (St)

/-- The paths a call names. -/
def pathsIn : POp → List Bytes
  | .newSequential n => [n]
  | .newRandomAccess n => [n]
  | .newWritable n => [n]
  | .newAppendable n => [n]
  | .newLogger n => [n]
  | .fileExists n => [n]
  | .getChildren n => [n]
  | .removeFile n => [n]
  | .createDir n => [n]
  | .removeDir n => [n]
  | .getFileSize n => [n]
  | .renameFile a b => [a, b]
  | .lockFile n => [n]
  | _ => []

/-- The call does not name the file, nor anything inside of it as if it were a directory.  (Calls on objects name nothing.) -/
def Elsewhere (name : Bytes) (op : POp) : Prop := ∀ n ∈ pathsIn op, cstr n ≠ cstr name ∧ ∀ d, Dirname n = .ok d → cstr d ≠ cstr name

/-- Calls that open a file for reading or ask about it. -/
def LooksOnly : POp → Prop
  | .newSequential _ => True
  | .newRandomAccess _ => True
  | .fileExists _ => True
  | .getChildren _ => True
  | .getFileSize _ => True
  | _ => False

/-- The file has this name and no other. -/
def OnlyName (k : Kernel) (name : Bytes) (ino : Nat) : Prop := ∀ p, k.lookup p = some ino ↔ p = cstr name

/-- What the object does later does not name the file either: a random-access file that opens its file whenever it reads is of another
file; the directory that a writable file syncs is not the file. -/
def ObjElsewhere (name : Bytes) : Obj → Prop
  | .rand f => f.has_permanent_fd = false → cstr f.filename ≠ cstr name
  | .wr f => cstr f.dirname ≠ cstr name
  | _ => True

/-- Other processes leave the file alone while it exists, with its name, and the descriptors and mappings of this process.  They may
do anything else: create, change and remove other files. -/
def Respects (name : Bytes) (ino : Nat) (x : Choice) : Prop :=
  ∀ k, (∀ n, k.inodes[ino]? = some n → (x.other k).inodes[ino]? = some n ∧ (OnlyName k name ino → OnlyName (x.other k) name ino)) ∧
    (x.other k).fds = k.fds ∧ (x.other k).maps = k.maps

/-- The same contents. -/
def SameData (a b : Option Inode) : Prop := ∀ n, a = some n → ∃ n', b = some n' ∧ n'.dir = n.dir ∧ n'.data = n.data ∧ ∀ d ∈ n'.old, d ∈ n.old

/-- A quiet moment at which the file has one name and only object `h` can change it. -/
structure Sole (c : Conf) (name : Bytes) (ino h : Nat) (o : Obj) : Prop where
  quiet : c.quiet
  has : c.has h o
  names : OnlyName c.w.k name ino
  node : ∃ n, c.w.k.inodes[ino]? = some n
  /-- the object has the only descriptor of the file -/
  fds : ∀ (i : Nat) q, c.w.k.ofd (i : Int) = some q → q.ino = ino → o.ownsFd i
  objs : ∀ h' o', c.has h' o' → ObjElsewhere name o'
  others : ∀ x ∈ c.w.choices, Respects name ino x

/-- A quiet moment at which the file has one name and nobody has it open for writing. -/
structure ReadOnly (c : Conf) (name : Bytes) (ino : Nat) (D : Bytes) : Prop where
  quiet : c.quiet
  names : OnlyName c.w.k name ino
  file : RegularFile c.w.k ino D
  fds : ∀ (i : Nat) q, c.w.k.ofd (i : Int) = some q → q.ino = ino → q.wr = false
  others : ∀ x ∈ c.w.choices, Respects name ino x

end Conc
end Posix
end Lsmdb
