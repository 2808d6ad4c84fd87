import Verif.Model.EnvI

/-!
# `InMemoryEnv` as an `Env` (helpers/memenv/memenv.cc:222-384)

The file operations are those of `Model/MemEnv`; what `InMemoryEnv` does not override goes to its base `Env`
through `EnvWapper`.
-/

namespace Lsmdb
namespace Iface

open MemEnv (St lit)

/-- The state of an `InMemoryEnv` and its objects: files, `FileLock` objects (`false`: deleted), number of
`NoOpLogger` objects. -/
structure MemState where
  env : MemEnv.Env
  locks : List Bool
  loggers : Nat

/-- `InMemoryEnv(base_env)` (memenv.cc:224). -/
def MemState.init : MemState := ⟨MemEnv.Env.init, [], 0⟩

section
variable {m : Type → Type} [Monad m] [Faults m]

/-- A method that works on the files. -/
def onFiles {α : Type} (f : MemEnv.Env → M (α × MemEnv.Env)) : StateT MemState m α := fun s => do
  let (a, e) ← ofM (f s.env)
  return (a, { s with env := e })

/-- `class InMemoryEnv` (memenv.cc:222-384). -/
def InMemoryEnv (base_env : Env m) : Env (StateT MemState m) :=
  { EnvWapper (base_env.lift MemState) with
    NewSequentialFile := fun f _ => onFiles fun e => do
      let (s, h, e) ← MemEnv.NewSequentialFile e f
      return ((s, .of h), e)
    NewRandomAccessFile := fun f _ => onFiles fun e => do
      let (s, h, e) ← MemEnv.NewRandomAccessFile e f
      return ((s, .of h), e)
    NewWritableFile := fun f _ => onFiles fun e => do
      let (s, h, e) ← MemEnv.NewWritableFile e f
      return ((s, .of h), e)
    NewAppendableFile := fun f _ => onFiles fun e => do
      let (s, h, e) ← MemEnv.NewAppendableFile e f
      return ((s, .of h), e)
    FileExists := fun f => onFiles fun e => return (MemEnv.FileExists e f, e)
    GetChildren := fun dir _ => onFiles fun e => do
      let (s, l) ← MemEnv.GetChildren e dir
      return ((s, l), e)
    RemoveFile := fun f => onFiles fun e => MemEnv.RemoveFile e f
    CreateDir := fun _ => pure .ok
    RemoveDir := fun _ => pure .ok
    GetFileSize := fun f size => onFiles fun e => do
      let (s, v, e) ← MemEnv.GetFileSize e f
      return ((s, v.getD size), e)
    RenameFile := fun s t => onFiles fun e => MemEnv.RenameFile e s t
    LockFile := fun f _ => fun s =>
      let (st, l, locks) := MemEnv.LockFile s.locks f
      pure ((st, .obj l), { s with locks := locks })
    UnlockFile := fun l => fun s => do
      match l with
      | .null => return (.ok, s)
      | l =>
        let (st, locks) ← ofM (do MemEnv.UnlockFile s.locks (← l.deref))
        return (st, { s with locks := locks })
    GetTestDirectory := fun _ => pure (.ok, lit "/test")
    NewLogger := fun _ _ => fun s => pure ((.ok, .obj s.loggers), { s with loggers := s.loggers + 1 }) }

/-- The file objects of `InMemoryEnv` (memenv.cc:151-215). -/
def memFiles : Files (StateT MemState m) where
  seqRead p n := onFiles fun e => do
    let (s, d, e) ← MemEnv.seqRead e (← p.deref) n
    return ((s, d), e)
  append p d := onFiles fun e => do MemEnv.wrAppend e (← p.deref) d
  sync p := onFiles fun e => do return (← MemEnv.wrNop e (← p.deref), e)
  close p := onFiles fun e => do return (← MemEnv.wrNop e (← p.deref), e)
  delete p := match p with
    | .null => pure ()
    | p => onFiles fun e => do return ((), ← MemEnv.deleteObj e (← p.deref))

end

end Iface
end Lsmdb
