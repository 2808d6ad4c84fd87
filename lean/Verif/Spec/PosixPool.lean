import Verif.Spec.PosixLoad

/-!
# Files that are renamed over each other while threads read them (C99)
-/

namespace Lsmdb
namespace Posix
namespace Conc

open MemEnv (St)

section
variable (N : Bytes → Prop) (S : Nat → Option Bytes)

/-- The names `N` are names of the files `S` (a file and its contents) and of no others, and these files have no other names.  (Not
every name needs to exist, nor needs every file to have a name.) -/
def NamesOf (k : Kernel) : Prop := ∀ p i, k.lookup p = some i → (N p ↔ ∃ D, S i = some D)

/-- The files are regular files with these contents. -/
def FilesOf (k : Kernel) : Prop := ∀ i D, S i = some D → RegularFile k i D

/-- Calls that do not create anything under these names, and do not give these files other names, nor others these names.  They may
rename these files among each other, remove them, open them for reading, ask about them, and do anything elsewhere. -/
def KeepsTo : POp → Prop
  | .newWritable n => ¬ N (cstr n)
  | .newAppendable n => ¬ N (cstr n)
  | .newLogger n => ¬ N (cstr n)
  | .lockFile n => ¬ N (cstr n)
  | .createDir n => ¬ N (cstr n)
  | .renameFile a b => N (cstr a) ↔ N (cstr b)
  | _ => True

/-- Other processes do not change the files, nor give them other names, nor others these names, and leave the descriptors and mappings
of this process alone. -/
def Leaves (x : Choice) : Prop :=
  ∀ k, (∀ i D n, S i = some D → k.inodes[i]? = some n → (x.other k).inodes[i]? = some n) ∧
    (NamesOf N S k → FilesOf S k → NamesOf N S (x.other k)) ∧ (x.other k).fds = k.fds ∧ (x.other k).maps = k.maps

/-- A quiet moment at which nobody has one of the files open for writing. -/
structure Pool (c : Conf) : Prop where
  quiet : c.quiet
  names : NamesOf N S c.w.k
  files : FilesOf S c.w.k
  fds : ∀ (i : Nat) q, c.w.k.ofd (i : Int) = some q → (∃ D, S q.ino = some D) → q.wr = false
  others : ∀ x ∈ c.w.choices, Leaves N S x

end

/-- All calls keep to the rule. -/
def Orderly (N : Bytes → Prop) (es : List Ev) : Prop := ∀ t op, Ev.call t op ∈ es → KeepsTo N op

/-- Calls that do not take the name away. -/
def NotAway (name : Bytes) : POp → Prop
  | .removeFile n => cstr n ≠ cstr name
  | .renameFile a _ => cstr a ≠ cstr name
  | _ => True

/-- Nobody, in this process or in others, takes the name away. -/
structure Stays (N : Bytes → Prop) (S : Nat → Option Bytes) (name : Bytes) (c : Conf) (es : List Ev) : Prop where
  calls : ∀ t op, Ev.call t op ∈ es → NotAway name op
  others : ∀ x ∈ c.w.choices, ∀ k, NamesOf N S k → FilesOf S k → k.lookup (cstr name) ≠ none → (x.other k).lookup (cstr name) ≠ none

/-- The object has a descriptor of its own. -/
def hasFd : Obj → Prop
  | .rand f => f.has_permanent_fd = true
  | _ => False

/-- The object has a mapping. -/
def isMapped : Obj → Prop
  | .mmap _ => True
  | _ => False

end Conc
end Posix
end Lsmdb
