import Verif.Spec.EnvUtil

/-!
# Specification vocabulary for replacing a file

The usual way to change a small file so that a crash leaves the old or the new contents: write a temporary file, sync it, rename it.
`ReplaceFile` is client code (it is not in the repository): it only uses the API.
-/

namespace Lsmdb
namespace Iface

open MemEnv (St lit)
open Posix

/-- What reading `name` can give after a crash now: `none`, there is no such file, or the contents. -/
def CrashReads (k : Kernel) (name : Bytes) : Option Bytes → Prop
  | none => k.NameAfterCrash (cstr name) none
  | some c => ∃ ino, k.NameAfterCrash (cstr name) (some ino) ∧ CouldBe k ino c

/-- The client: write the temporary file with `WriteStringToFile` or `WriteStringToFileSync`, then rename it. -/
def ReplaceFile {m : Type → Type} [Monad m] (write : Slice → Bytes → m St) (rename : Bytes → Bytes → m St)
    (data : Slice) (tmp target : Bytes) : m St := do
  let s ← write data tmp
  if s = .ok then rename tmp target else return s

/-- Other threads and processes leave the two names, their history and the contents of files alone. -/
def QuietPair (tmp target : Bytes) (c : Choice) : Prop :=
  Undisturbed tmp c ∧ Undisturbed target c ∧ ∀ k v, (cstr target, v) ∈ (c.other k).pend ↔ (cstr target, v) ∈ k.pend

/-- The temporary name is another name, does not mean the file the target means or might mean after a crash, and the target means
files that exist. -/
def Separate (k : Kernel) (tmp target : Bytes) : Prop :=
  cstr tmp ≠ cstr target ∧ ∀ ino, k.NameAfterCrash (cstr target) (some ino) → ino < k.inodes.length ∧ k.lookup (cstr tmp) ≠ some ino

end Iface
end Lsmdb
