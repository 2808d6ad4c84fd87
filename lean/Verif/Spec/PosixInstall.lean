import Verif.Spec.PosixPool
import Verif.Spec.Replace

/-!
# Replacing a file in a program with many threads, and crashes (C101)
-/

namespace Lsmdb
namespace Posix
namespace Conc

open MemEnv (St)

/-- A crash cannot change the contents of the files: everything in them is on disk. -/
def OnDisk (S : Nat → Option Bytes) (k : Kernel) : Prop := ∀ i D, S i = some D → ∀ b, CouldBe k i b → b = D

/-- After a crash each of the names `N` is the name of one of the files, or of nothing; and those in `T` are names of files. -/
def NamesAfter (N T : Bytes → Prop) (S : Nat → Option Bytes) (k : Kernel) : Prop :=
  ∀ p v, N p → k.NameAfterCrash p v → (v = none ∧ ¬ T p) ∨ ∃ i D, v = some i ∧ S i = some D

/-- Other processes do not do anything with the names that a crash could turn into something else. -/
def LeavesAfter (N T : Bytes → Prop) (S : Nat → Option Bytes) (x : Choice) : Prop :=
  ∀ k, NamesOf N S k → FilesOf S k → NamesAfter N T S k → NamesAfter N T S (x.other k)

/-- Other processes do not change files that exist, leave the two names alone, give the files of these names no other names, and leave the
descriptors and mappings of this process alone.  They may create other files, rename them and remove them. -/
structure Bystander (tmp target : Bytes) (x : Choice) : Prop where
  files : ∀ (k : Kernel) (i : Nat) n, k.inodes[i]? = some n → (x.other k).inodes[i]? = some n
  names : ∀ k p, p = cstr tmp ∨ p = cstr target → (x.other k).lookup p = k.lookup p
  others : ∀ k p i, p ≠ cstr tmp → p ≠ cstr target → (x.other k).lookup p = some i →
    (∃ q, q ≠ cstr tmp ∧ q ≠ cstr target ∧ k.lookup q = some i) ∨ k.inodes.length ≤ i
  pend : ∀ k v, (cstr target, v) ∈ (x.other k).pend → (cstr target, v) ∈ k.pend
  fds : ∀ k, (x.other k).fds = k.fds ∧ (x.other k).maps = k.maps

/-- A quiet moment.  The target is a file that nobody writes, and that a crash leaves as it is; nobody uses the temporary name. -/
structure Installing (c : Conf) (tmp target : Bytes) (ino : Nat) (old : Bytes) (left : Bytes) : Prop where
  differ : cstr tmp ≠ cstr target
  ready : Ready c tmp left
  file : ReadOnly c target ino old
  name : ∀ v, c.w.k.NameAfterCrash (cstr target) v → v = some ino
  disk : ∀ b, CouldBe c.w.k ino b → b = old
  others : ∀ x ∈ c.w.choices, Bystander tmp target x

/-- Calls that do not name the temporary file, and use the target for reading at most. -/
def Aside (tmp target : Bytes) (es : List Ev) : Prop :=
  ∀ t op, Ev.call t op ∈ es → Elsewhere tmp op ∧ (Elsewhere target op ∨ LooksOnly op)

/-- Calls that may come when the temporary file has been written: they may rename it to the target, rename or remove it otherwise, and
read both; they do not create anything under the two names, nor rename or remove the target. -/
def Afterwards (tmp target : Bytes) (es : List Ev) : Prop :=
  ∀ t op, Ev.call t op ∈ es → KeepsTo (fun p => p = cstr tmp ∨ p = cstr target) op ∧ NotAway target op

end Conc
end Posix
end Lsmdb
