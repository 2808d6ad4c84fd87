import Verif.Spec.PosixApart

/-!
# Creating a file in a program with many threads (C96)
-/

namespace Lsmdb
namespace Posix
namespace Conc

/-- There is no file of this name; names and descriptors are of files that exist. -/
structure Absent (k : Kernel) (name : Bytes) : Prop where
  name : k.lookup (cstr name) = none
  names : ∀ p i, k.lookup p = some i → i < k.inodes.length
  fds : ∀ i q, k.ofd i = some q → q.ino < k.inodes.length

/-- Other processes do not create the file (they may create others), and files do not vanish from under a descriptor. -/
def KeepsAbsent (name : Bytes) (x : Choice) : Prop :=
  ∀ k, Absent k name → Absent (x.other k) name ∧ k.inodes.length ≤ (x.other k).inodes.length

/-- Nobody uses the file, which holds `D` (nothing, if it does not exist). -/
inductive Unused (w : World) (name : Bytes) : Bytes → Prop
  | present (ino : Nat) (D : Bytes) (names : OnlyName w.k name ino) (file : RegularFile w.k ino D)
      (fds : ∀ (i : Nat) q, w.k.ofd (i : Int) = some q → q.ino ≠ ino) (others : ∀ x ∈ w.choices, Respects name ino x) : Unused w name D
  | absent (gone : Absent w.k name)
      (others : ∀ x ∈ w.choices, KeepsAbsent name x ∧ ∀ ino, w.k.inodes.length ≤ ino → Respects name ino x) : Unused w name []

/-- A quiet moment at which nobody uses the file or will because of an object there is. -/
structure Ready (c : Conf) (name D : Bytes) : Prop where
  quiet : c.quiet
  file : Unused c.w name D
  objs : ∀ h o, c.has h o → ObjElsewhere name o
  /-- the name is not the name of its own directory -/
  dir : ∀ d, Dirname name = .ok d → cstr d ≠ cstr name

/-- The calls that create a file. -/
inductive Creates (name D : Bytes) : POp → Bytes → Prop
  | writable : Creates name D (.newWritable name) []
  | appendable : Creates name D (.newAppendable name) D

/-- The thread has not returned. -/
def NotBack (t : Nat) (es : List Ev) : Prop := ∀ r, Ev.ret t r ∉ es

/-- Threads do things; thread `t` makes the call `op`; threads go on doing things; thread `t` gets the answer `r`.  `es` is what the
clients see of the other things, before the call and while it runs. -/
inductive CallIn (strerror : Strerror) (full : Bool) (t : Nat) (op : POp) (r : PRes) : Conf → List Ev → Conf → Prop
  | mk {c0 c1 c2 c3 c4 : Conf} {a b : List Ev} (before : Run strerror full c0 a c1) (call : Step strerror full c1 (some (.call t op)) c2)
      (meanwhile : Run strerror full c2 b c3) (busy : NotBack t b) (ret : Step strerror full c3 (some (.ret t r)) c4) :
      CallIn strerror full t op r c0 (a ++ b) c4

end Conc
end Posix
end Lsmdb
