import Verif.Spec.PosixInstall

/-!
# Names that survive a crash, in a program with many threads (C102)
-/

namespace Lsmdb
namespace Posix
namespace Conc

open MemEnv (St lit)

/-- The paths whose meaning a call may change. -/
def changing : POp → List Bytes
  | .newWritable n => [n]
  | .newAppendable n => [n]
  | .newLogger n => [n]
  | .lockFile n => [n]
  | .createDir n => [n]
  | .removeFile n => [n]
  | .removeDir n => [n]
  | .renameFile a b => [a, b]
  | _ => []

/-- Other processes do not change what the names mean, now or after a crash; directories stay directories; the descriptors and mappings of
this process are its own.  They may do anything else. -/
structure LeavesNames (Q : Bytes → Prop) (x : Choice) : Prop where
  names : ∀ k p, Q p → (x.other k).lookup p = k.lookup p
  pend : ∀ k p v, Q p → (p, v) ∈ (x.other k).pend → (p, v) ∈ k.pend
  dirs : ∀ (k : Kernel) (i : Nat) n, k.inodes[i]? = some n → n.dir = true → ∃ n', (x.other k).inodes[i]? = some n' ∧ n'.dir = true
  fds : Private x

/-- The path is a directory. -/
def IsDirectory (k : Kernel) (d : Bytes) : Prop := ∃ (i : Nat) (n : Inode), k.lookup d = some i ∧ k.inodes[i]? = some n ∧ n.dir = true

/-- A quiet moment; from now on other processes leave the directory and the names alone. -/
structure Resting (Q : Bytes → Prop) (d : Bytes) (c : Conf) : Prop where
  quiet : c.quiet
  dir : IsDirectory c.w.k d
  others : ∀ x ∈ c.w.choices, LeavesNames (fun p => p = d ∨ Q p) x

/-- No call may change what the names mean, nor the directory. -/
def Unchanging (Q : Bytes → Prop) (d : Bytes) (es : List Ev) : Prop :=
  ∀ t op, Ev.call t op ∈ es → ∀ n ∈ changing op, cstr n ≠ d ∧ ¬ Q (cstr n)

/-- The name of a manifest in a directory. -/
structure ManifestOf (d m : Bytes) : Prop where
  path : ∃ rest, m = d ++ 47 :: (lit "MANIFEST" ++ rest) ∧ 47 ∉ rest
  dir : d ≠ [] ∧ 0 ∉ d

/-- Opening a file for writing. -/
def Opens (m : Bytes) (op : POp) : Prop := op = .newWritable m ∨ op = .newAppendable m

/-- A file was opened for writing, with a name that makes it a manifest of the directory; `h` is the object. -/
def OpenManifest (strerror : Strerror) (full : Bool) (d : Bytes) (h : Nat) (start c : Conf) : Prop :=
  ∃ m op t ds c1 es, ManifestOf d m ∧ Opens m op ∧ CallIn strerror full t op (.opened .ok (some h)) start ds c1 ∧ Run strerror full c1 es c

/-- The path of a file in the directory. -/
def InDir (d p : Bytes) : Prop := ∃ x, p = d ++ 47 :: x ∧ 47 ∉ x

/-- No call may change what the path of the directory means. -/
def KeepsDir (d : Bytes) (es : List Ev) : Prop := ∀ t op, Ev.call t op ∈ es → ∀ n ∈ changing op, cstr n ≠ d

/-- Calls that may come when the file has been written: they read it, ask about it, and do whatever they want elsewhere. -/
def Untouched (name : Bytes) (es : List Ev) : Prop := ∀ t op, Ev.call t op ∈ es → KeepsTo (fun p => p = cstr name) op ∧ NotAway name op

end Conc
end Posix
end Lsmdb
