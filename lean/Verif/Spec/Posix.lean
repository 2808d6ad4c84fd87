import Verif.Model.PosixFile

/-!
# Specification vocabulary for the POSIX files
-/

namespace Lsmdb
namespace Posix

/-- What the other threads and processes do before the system call leaves this open file alone: they do
not write to the file and do not touch this descriptor.  They may do anything else. -/
def Alone (ino : Nat) (fd : Int) (c : Choice) : Prop :=
  ∀ k, (∀ n, k.inodes[ino]? = some n → (c.other k).inodes[ino]? = some n) ∧ (c.other k).ofd fd = k.ofd fd

/-- The stream a client has appended. -/
def appended : List WOp → Bytes
  | [] => []
  | .append d :: os => d.bytes ++ appended os
  | _ :: os => appended os

/-- The client only passes slices that point at existing bytes. -/
def ValidOps (ops : List WOp) : Prop := ∀ d, WOp.append d ∈ ops → d.WF

/-- A regular file `ino` with contents `base`, open for writing at its end. -/
def WritableAt (k : Kernel) (fd : Int) (ino : Nat) (base : Bytes) : Prop :=
  ∃ o n, k.ofd fd = some o ∧ o.ino = ino ∧ o.wr = true ∧ (o.app = true ∨ o.off = base.length) ∧
    k.inodes[ino]? = some n ∧ n.dir = false ∧ n.data = base

/-- System calls that did not fail, or were only interrupted. -/
def NoFailure (cs : List Choice) : Prop := ∀ c ∈ cs, c.fail = none ∨ c.fail = some EINTR

/-- What a reader of file `ino` sees. -/
def Contents (k : Kernel) (ino : Nat) : Option Bytes := (k.inodes[ino]?).map (·.data)

/-- `c` is a content a crash now can leave in file `ino`. -/
def CouldBe (k : Kernel) (ino : Nat) (c : Bytes) : Prop := ∃ n, k.inodes[ino]? = some n ∧ n.AfterCrash c

/-- `f` is a file object as the open call leaves it: nothing written yet, on file `ino` with contents
`base`, and nobody else will touch the file or the descriptor. -/
structure Opened (name : Bytes) (f : WFile) (ino : Nat) (base : Bytes) (w : World) : Prop where
  new : WFile.new name f.fd = .ok f
  file : WritableAt w.k f.fd ino base
  alone : ∀ c ∈ w.choices, Alone ino f.fd c

/-- Every status is OK. -/
def AllOk (ss : List MemEnv.St) : Prop := ∀ s ∈ ss, s = .ok

/-- The outcome leaves the world `w`: by returning, or by a crash on the way. -/
def Leaves {α : Type} (o : Out α) (w : World) : Prop := (∃ a, o = .done a w) ∨ o = .crash w

/-- The base name: what follows the last separator. -/
def baseOf (s : Bytes) : Bytes := (s.reverse.takeWhile (fun b => b ≠ 47)).reverse

/-- The name of a manifest file. -/
def ManifestName (s : Bytes) : Prop := MemEnv.lit "MANIFEST" <+: baseOf s

/-- In `l`, directory `dir` was opened and then synced successfully through that descriptor. -/
def DirSynced (dir : Bytes) (l : List Call) : Prop :=
  ∃ a b fd, l = a ++ Call.sync fd true :: b ∧ Call.open dir (some fd) ∈ a

/-- Not a `write`. -/
def NotWrite (x : Call) : Prop := ∀ fd d r, x ≠ .write fd d r

/-- Other threads and processes do not touch names, directories and this process's descriptors. -/
def QuietNames (c : Choice) : Prop :=
  ∀ k, (c.other k).names = k.names ∧ (c.other k).pend = k.pend ∧ (c.other k).fds = k.fds ∧
    ∀ i : Nat, ((c.other k).inodes[i]?).map (·.dir) = (k.inodes[i]?).map (·.dir)

end Posix
end Lsmdb
