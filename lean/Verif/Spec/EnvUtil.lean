import Verif.Model.EnvPosix
import Verif.Spec.PosixRead

/-!
# Specification vocabulary for WriteStringToFile and ReadFileToString on the POSIX Env
-/

namespace Lsmdb
namespace Posix

/-- Before the system call, other threads and processes do not change what `name` means, what existing files contain, and
the descriptors of this process.  (They may create, rename and remove other files, map memory, and so on.) -/
def Undisturbed (name : Bytes) (c : Choice) : Prop :=
  ∀ k, (c.other k).lookup (cstr name) = k.lookup (cstr name) ∧ (∀ (i : Nat) n, k.inodes[i]? = some n → (c.other k).inodes[i]? = some n) ∧
    (c.other k).fds = k.fds

/-- `name` is the name of a regular file with contents `D`. -/
def Holds (k : Kernel) (name D : Bytes) : Prop := cstr name ≠ [] ∧ ∃ ino, k.lookup (cstr name) = some ino ∧ RegularFile k ino D

/-- The only contents a crash can leave in the file `name` means now are `D`. -/
def Durable (k : Kernel) (name D : Bytes) : Prop := ∃ ino, k.lookup (cstr name) = some ino ∧ ∀ c, CouldBe k ino c ↔ c = D

/-- A system call that failed for good; an interrupted `write` did not. -/
def Call.Failed : Call → Prop
  | .open _ fd => fd = none
  | .close _ err => err ≠ none
  | .write _ _ r => ∃ e, r = .error e ∧ e ≠ EINTR
  | .sync _ ok => ok = false

end Posix
end Lsmdb
