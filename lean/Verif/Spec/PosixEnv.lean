import Verif.Model.PosixEnv
import Verif.Spec.Posix

/-!
# Specification vocabulary for the POSIX Env: who owns which system resource
-/

namespace Lsmdb
namespace Posix

/-- Descriptor `i` is open. -/
def Kernel.isOpen (k : Kernel) (i : Nat) : Prop := ∃ o, k.fds[i]? = some (some o)

/-- Mapping `m` exists. -/
def Kernel.isMapped (k : Kernel) (m : Nat) : Prop := ∃ x, k.maps[m]? = some (some x)

/-- Descriptor `i` belongs to the object. -/
def Obj.ownsFd : Obj → Nat → Prop
  | .seq f, i => f.fd = i
  | .rand f, i => f.has_permanent_fd = true ∧ f.fd = i
  | .mmap _, _ => False
  | .wr f, i => f.fd = i
  | .lock fd _, i => fd = i
  | .logger fd, i => fd = i

/-- Mapping `m` belongs to the object. -/
def Obj.ownsMap : Obj → Nat → Prop
  | .mmap f, m => f.mmap_base = m
  | _, _ => False

/-- Objects that occupy a slot of the mmap limiter. -/
def Obj.isMmap : Obj → Bool
  | .mmap _ => true
  | _ => false

/-- Objects that occupy a slot of the descriptor limiter. -/
def Obj.isPermanent : Obj → Bool
  | .rand f => f.has_permanent_fd
  | _ => false

/-- The object `h` is alive and is `o`. -/
def PEnv.has (e : PEnv) (h : Nat) (o : Obj) : Prop := e.objs[h]? = some (some o)

/-- The number of live objects with property `p`. -/
def PEnv.count (e : PEnv) (p : Obj → Bool) : Nat :=
  (e.objs.filter (fun o => match o with | some o => p o | none => false)).length

/-- Other threads of the process do not open or close descriptors or mappings meanwhile. -/
def KeepsFds (c : Choice) : Prop :=
  ∀ k, (∀ i, (c.other k).isOpen i ↔ k.isOpen i) ∧ (∀ m, (c.other k).isMapped m ↔ k.isMapped m)

/-- The values of an `int`. -/
def IsInt (x : Int) : Prop := -2147483648 ≤ x ∧ x ≤ 2147483647

/-- The client only appends slices that point at existing bytes. -/
def ValidPOps (ops : List POp) : Prop := ∀ h d, POp.write h (.append d) ∈ ops → d.WF

/-- The client uses object addresses it got and has not given back, for what they are. -/
def HandleOk (e : PEnv) : POp → Prop
  | .unlockFile h => ∃ fd n, e.has h (.lock fd n)
  | .seqRead h _ => ∃ f, e.has h (.seq f)
  | .seqSkip h _ => ∃ f, e.has h (.seq f)
  | .randRead h _ _ => (∃ f, e.has h (.rand f)) ∨ ∃ f, e.has h (.mmap f)
  | .write h _ => ∃ f, e.has h (.wr f)
  | .delete h => ∃ o, e.has h o ∧ ∀ fd n, o ≠ .lock fd n
  | _ => True

/-- The status reports system error `e` about `context`: NotFound exactly for `ENOENT`, IOError otherwise. -/
def ReportsErr (strerror : Strerror) (context : Bytes) (e : Errno) (st : MemEnv.St) : Prop :=
  ∃ code, st = .err code context (strerror e) ∧ (code = .notFound ↔ e = ENOENT) ∧ (code = .ioError ↔ e ≠ ENOENT)

/-- The status in a result. -/
def PRes.status? : PRes → Option MemEnv.St
  | .unit => none
  | .status s => some s
  | .opened s _ => some s
  | .bool _ => none
  | .data s _ => some s
  | .view s _ => some s
  | .size s _ => some s
  | .list s _ => some s

/-- The locks a client holds, as it knows from the answers: those that LockFile granted and UnlockFile did not
take back.  A lock is the address of its object with the name. -/
def heldStep (held : List (Nat × Bytes)) : POp × PRes → List (Nat × Bytes)
  | (.lockFile n, .opened .ok (some h)) => (h, n) :: held
  | (.unlockFile h, .status .ok) => held.filter (fun l => decide (l.1 ≠ h))
  | _ => held

/-- The locks held after a history with its answers. -/
def heldLocks (ops : List POp) (rs : List PRes) : List (Nat × Bytes) := (ops.zip rs).foldl heldStep []

end Posix
end Lsmdb
