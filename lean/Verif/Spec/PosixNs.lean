import Verif.Spec.PosixRead

/-!
# Specification of the POSIX file namespace: a map from paths to files and directories
-/

namespace Lsmdb
namespace Posix

open MemEnv (St)

/-- What a path names. -/
inductive Node where
  | dir
  | file (data : Bytes)
  deriving DecidableEq

/-- A file system: what each path names. -/
abbrev FsMap := Bytes → Option Node

/-- Change what a path names. -/
def FsMap.put (m : FsMap) (p : Bytes) (v : Option Node) : FsMap := fun q => if q = p then v else m q

/-- The file system in the kernel. -/
def fsOf (k : Kernel) : FsMap := fun p =>
  match k.lookup p with
  | none => none
  | some i =>
    match k.inodes[i]? with
    | none => none
    | some n => if n.dir then some .dir else some (.file n.data)

/-- Every name has an inode of its own (no hard links). -/
structure Tidy (k : Kernel) : Prop where
  node : ∀ p i, k.lookup p = some i → ∃ n, k.inodes[i]? = some n
  one : ∀ p q i, k.lookup p = some i → k.lookup q = some i → p = q

/-- Something is in the directory. -/
def FsMap.hasChild (m : FsMap) (d : Bytes) : Prop := ∃ p, m p ≠ none ∧ parentDir p = d

/-- What an operation on names does when the system has no reason of its own to fail: the new file system, or
`none` if the call has to fail (and to change nothing). -/
inductive NsOp where
  | removeFile (n : Bytes)
  | createDir (n : Bytes)
  | removeDir (n : Bytes)
  | renameFile (src target : Bytes)

/-- As a call of the client. -/
def NsOp.op : NsOp → POp
  | .removeFile n => .removeFile n
  | .createDir n => .createDir n
  | .removeDir n => .removeDir n
  | .renameFile a b => .renameFile a b

/-- RemoveFile removes a file; CreateDir makes a directory where nothing is; RemoveDir removes an empty
directory; RenameFile moves a file to a name that is free or names a file, which disappears (renaming a file to
its own name does nothing). -/
inductive NsSpec : NsOp → FsMap → FsMap → Prop
  | removeFile (m : FsMap) (n d : Bytes) (h : m n = some (.file d)) : NsSpec (.removeFile n) m (m.put n none)
  | createDir (m : FsMap) (n : Bytes) (h0 : n ≠ []) (h : m n = none) : NsSpec (.createDir n) m (m.put n (some .dir))
  | removeDir (m : FsMap) (n : Bytes) (h : m n = some .dir) (hc : ¬ m.hasChild n) : NsSpec (.removeDir n) m (m.put n none)
  | renameSelf (m : FsMap) (a d : Bytes) (h0 : a ≠ []) (h : m a = some (.file d)) : NsSpec (.renameFile a a) m m
  | rename (m : FsMap) (a b d : Bytes) (h0 : b ≠ []) (hab : a ≠ b) (h : m a = some (.file d)) (hb : m b ≠ some .dir) :
      NsSpec (.renameFile a b) m ((m.put b (m a)).put a none)

/-- No path contains a NUL byte. -/
def NsOp.NoNul : NsOp → Prop
  | .removeFile n => 0 ∉ n
  | .createDir n => 0 ∉ n
  | .removeDir n => 0 ∉ n
  | .renameFile a b => 0 ∉ a ∧ 0 ∉ b

end Posix
end Lsmdb
