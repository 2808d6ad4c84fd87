import Verif.Spec.EnvI
import Verif.Model.EnvPosix
import Verif.Props.PosixHeld
import Verif.Props.EnvMisc

/-!
# C79: the POSIX Env behind the interface `Env`

A client that holds an `Env*` gets, from each method, what `Props/Posix*` say of the calls of a history.
-/

namespace Lsmdb
namespace Iface

open MemEnv (St lit)
open Posix (Strerror PEnv POp PRes P World Out)

/-- The call of a history that a call through the interface is; `UnlockFile` takes the address of a lock. -/
def Call.pop : Call → Option POp
  | .newSequentialFile f _ => some (.newSequential f)
  | .newRandomAccessFile f _ => some (.newRandomAccess f)
  | .newWritableFile f _ => some (.newWritable f)
  | .newAppendableFile f _ => some (.newAppendable f)
  | .newLogger f _ => some (.newLogger f)
  | .fileExists f => some (.fileExists f)
  | .getChildren d _ => some (.getChildren d)
  | .removeFile f => some (.removeFile f)
  | .createDir d => some (.createDir d)
  | .removeDir d => some (.removeDir d)
  | .getFileSize f _ => some (.getFileSize f)
  | .renameFile src target => some (.renameFile src target)
  | .lockFile f _ => some (.lockFile f)
  | .unlockFile (.obj h) => some (.unlockFile h)
  | _ => none

/-- How an answer shows: a failed open stores null. -/
def pSees : PRes → Reply
  | .unit => .unit
  | .status s => .status s
  | .opened s h => .opened s (.of h)
  | .bool b => .bool b
  | .data s _ => .status s
  | .view s _ => .status s
  | .size s n => .size s n
  | .list s l => .list s l

/-- The outcome as it shows. -/
def showOut : Out (PEnv × PRes) → Out (Reply × PEnv)
  | .done (e, r) w => .done (pSees r, e) w
  | .crash w => .crash w
  | .fault f => .fault f

theorem showOut_bind {α : Type} (x : P α) (f : α → PEnv × PRes) (w : World) :
    showOut ((x >>= fun a => (pure (f a) : P _)) w) = (x >>= fun a => (pure (pSees (f a).2, (f a).1) : P _)) w := by
  simp only [Posix.bind_eq]
  cases x w <;> rfl

variable (strerror : Strerror) (full : Bool)

/-- C79: a call through the interface does and answers what the call of a history does and answers. -/
theorem C79_posix (pr : Process) (e : PEnv) (c : Call) (o : POp) (hc : c.pop = some o) (w : World) :
    ((PosixEnv strerror pr).call c).run e w = showOut (e.step strerror full o w) := by
  have sys : ∀ {β : Type} (x : P β) (g : β → Reply),
      ((onSys x : StateT PEnv P β) >>= fun b => pure (g b)).run e = x >>= fun a => pure (g a, e) := by
    intro β x g
    funext w
    show (((x >>= fun a => pure (a, e)) : P (β × PEnv)) >>= fun p => (pure (g p.1, p.2) : P (Reply × PEnv))) w = _
    simp only [Posix.bind_eq]
    cases x w <;> rfl
  have env : ∀ (F : PEnv → P (St × Option Nat × PEnv)),
      (((onEnv fun e => do
        let (s, h, e) ← F e
        return ((s, Ptr.of h), e) : StateT PEnv P (St × Ptr)) >>= fun b => pure (Reply.opened b.1 b.2)).run e) w =
      showOut ((do let (s, h, e) ← F e; return (e, PRes.opened s h) : P (PEnv × PRes)) w) := by
    intro F
    show (((F e >>= fun a => pure ((a.1, Ptr.of a.2.1), a.2.2)) : P ((St × Ptr) × PEnv)) >>=
      fun p => (pure (Reply.opened p.1.1 p.1.2, p.2) : P (Reply × PEnv))) w = _
    simp only [Posix.bind_eq]
    cases F e w <;> rfl
  cases c with
  | newSequentialFile f p => cases hc; exact env fun e => e.NewSequentialFile strerror f
  | newRandomAccessFile f p => cases hc; exact env fun e => e.NewRandomAccessFile strerror f
  | newWritableFile f p => cases hc; exact env fun e => e.NewWritableFile strerror f
  | newAppendableFile f p => cases hc; exact env fun e => e.NewAppendableFile strerror f
  | newLogger f p => cases hc; exact env fun e => e.NewLogger strerror f
  | lockFile f p => cases hc; exact env fun e => e.LockFile strerror f
  | unlockFile p =>
    cases p with
    | obj h =>
      cases hc
      show (((Posix.pureM (.ok h) >>= fun h => e.UnlockFile strerror h) : P (St × PEnv)) >>=
        fun p => (pure (Reply.status p.1, p.2) : P (Reply × PEnv))) w = showOut ((e.UnlockFile strerror h >>= fun a => pure (a.2, PRes.status a.1)) w)
      simp only [Posix.bind_eq, Posix.pureM]
      cases e.UnlockFile strerror h w <;> rfl
    | _ => exact nomatch hc
  | fileExists f =>
    cases hc
    exact (congrFun (sys _ (fun b => .bool b)) w).trans (showOut_bind _ (fun b => (e, .bool b)) w).symm
  | getChildren d l =>
    cases hc
    exact (congrFun (sys _ (fun b : St × List Bytes => .list b.1 b.2)) w).trans (showOut_bind _ (fun b : St × List Bytes => (e, .list b.1 b.2)) w).symm
  | removeFile f =>
    cases hc
    exact (congrFun (sys _ (fun b => .status b)) w).trans (showOut_bind _ (fun b => (e, .status b)) w).symm
  | createDir f =>
    cases hc
    exact (congrFun (sys _ (fun b => .status b)) w).trans (showOut_bind _ (fun b => (e, .status b)) w).symm
  | removeDir f =>
    cases hc
    exact (congrFun (sys _ (fun b => .status b)) w).trans (showOut_bind _ (fun b => (e, .status b)) w).symm
  | getFileSize f n =>
    cases hc
    exact (congrFun (sys _ (fun b : St × Nat => .size b.1 b.2)) w).trans (showOut_bind _ (fun b : St × Nat => (e, .size b.1 b.2)) w).symm
  | renameFile a b =>
    cases hc
    exact (congrFun (sys _ (fun b => .status b)) w).trans (showOut_bind _ (fun b => (e, .status b)) w).symm
  | _ => exact nomatch hc

/-- A call that succeeds: through the interface, file `/db/t` becomes `/db/u`. -/
example : (match ((PosixEnv (fun _ => []) user7).call (.renameFile (lit "/db/t") (lit "/db/u"))).run (PEnv.init 1 1)
      ⟨Posix.tableKernel, [Posix.calm], []⟩ with
    | .done (r, _) w => some (r, w.k.lookup (lit "/db/t"), w.k.lookup (lit "/db/u"))
    | _ => none) = some (.status .ok, none, some 2) := by decide +kernel

end Iface
end Lsmdb
