import Verif.Model.PosixLock

/-!
# What the clients of `LockFile` can observe
-/

namespace Lsmdb
namespace PLock

/-- The locks that are held after one more event: granted and not given back.  A lock is given back when
`UnlockFile` is called, unless that fails. -/
def heldStep (l : List Handle) : Ev → List Handle
  | .lockOk _ h => h :: l
  | .callUnlock _ h => l.filter (· ≠ h)
  | .unlockFails _ h => h :: l
  | .exit p => l.filter (·.proc ≠ p)
  | _ => l

/-- The locks that are held. -/
def held (es : List Ev) : List Handle := es.foldl heldStep []

/-- Runs in which the clients unlock only what their process holds (env.h:145-146). -/
inductive Run : List Ev → Sys → Prop
  | nil : Run [] Sys.init
  | step {s s' : Sys} {es : List Ev} {e : Option Ev} (h : Run es s) (h' : Step s e s')
      (hu : ∀ t l, e = some (.callUnlock t l) → l ∈ held es ∧ l.proc = t.1) : Run (es ++ e.toList) s'

/-- The file a thread is busy with. -/
def Pc.file : Pc → Option Nat
  | .insert _ f | .dupClose _ f | .setlk _ f | .failClose _ f | .failRemove _ f | .leaveLock _ (some f) => some f.ino
  | .unlck l | .remove l | .close l | .leaveUnlock l _ => some l.fd.ino
  | _ => none

/-- Process `p` neither holds the file nor is in a call of `LockFile` or `UnlockFile` on it. -/
def Away (es : List Ev) (s : Sys) (p ino : Nat) : Prop :=
  (∀ h ∈ held es, h.proc = p → h.fd.ino ≠ ino) ∧ ∀ k, (s.pc (p, k)).file ≠ some ino

/-- The step opens, or closes in another way, only a file that the process is away from. -/
def CarefulStep (es : List Ev) (s s' : Sys) (e : Option Ev) : Prop :=
  (∀ (t : Nat × Nat) n f, s'.pc t = .insert n f → s.pc t ≠ .insert n f → Away es s t.1 f.ino) ∧
  ∀ p ino, e = some (.otherClose p ino) → Away es s p ino

/-- Runs in which no process calls `LockFile` for a file that it holds or is about to lock or unlock, nor closes
another descriptor of such a file. -/
inductive CarefulRun : List Ev → Sys → Prop
  | nil : CarefulRun [] Sys.init
  | step {s s' : Sys} {es : List Ev} {e : Option Ev} (h : CarefulRun es s) (h' : Step s e s')
      (hu : ∀ t l, e = some (.callUnlock t l) → l ∈ held es ∧ l.proc = t.1) (hc : CarefulStep es s s' e) :
      CarefulRun (es ++ e.toList) s'

end PLock
end Lsmdb
