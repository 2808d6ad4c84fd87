import Verif.Model.EnvI

/-!
# Calls on an `Env`, one by one
-/

namespace Lsmdb
namespace Iface

open MemEnv (St lit)

/-- A call of a method of `Env`, with its arguments. -/
inductive Call where
  | newSequentialFile (f : Bytes) (result : Ptr)
  | newRandomAccessFile (f : Bytes) (result : Ptr)
  | newWritableFile (f : Bytes) (result : Ptr)
  | newAppendableFile (f : Bytes) (result : Ptr)
  | fileExists (f : Bytes)
  | getChildren (d : Bytes) (result : List Bytes)
  | removeFile (f : Bytes)
  | createDir (d : Bytes)
  | removeDir (d : Bytes)
  | getFileSize (f : Bytes) (size : Nat)
  | renameFile (src target : Bytes)
  | lockFile (f : Bytes) (lock : Ptr)
  | unlockFile (lock : Ptr)
  | schedule (func : Nat)
  | startThread (func : Nat)
  | getTestDirectory (path : Bytes)
  | newLogger (f : Bytes) (result : Ptr)
  | nowMicros
  | sleepForMicroseconds (micros : Int)
  deriving DecidableEq

/-- What the caller sees: the returned value and the variables the call was given pointers to. -/
inductive Reply where
  | unit
  | status (s : St)
  | opened (s : St) (result : Ptr)
  | bool (b : Bool)
  | list (s : St) (l : List Bytes)
  | size (s : St) (n : Nat)
  | path (s : St) (p : Bytes)
  | micros (n : Nat)
  deriving DecidableEq

/-- Make the call. -/
def Env.call {m : Type → Type} [Monad m] (e : Env m) : Call → m Reply
  | .newSequentialFile f r => do let (s, p) ← e.NewSequentialFile f r; return .opened s p
  | .newRandomAccessFile f r => do let (s, p) ← e.NewRandomAccessFile f r; return .opened s p
  | .newWritableFile f r => do let (s, p) ← e.NewWritableFile f r; return .opened s p
  | .newAppendableFile f r => do let (s, p) ← e.NewAppendableFile f r; return .opened s p
  | .fileExists f => do return .bool (← e.FileExists f)
  | .getChildren d r => do let (s, l) ← e.GetChildren d r; return .list s l
  | .removeFile f => do return .status (← e.RemoveFile f)
  | .createDir d => do return .status (← e.CreateDir d)
  | .removeDir d => do return .status (← e.RemoveDir d)
  | .getFileSize f n => do let (s, v) ← e.GetFileSize f n; return .size s v
  | .renameFile a b => do return .status (← e.RenameFile a b)
  | .lockFile f l => do let (s, p) ← e.LockFile f l; return .opened s p
  | .unlockFile l => do return .status (← e.UnlockFile l)
  | .schedule f => do e.Schedule f; return .unit
  | .startThread f => do e.StartThread f; return .unit
  | .getTestDirectory p => do let (s, d) ← e.GetTestDirectory p; return .path s d
  | .newLogger f r => do let (s, p) ← e.NewLogger f r; return .opened s p
  | .nowMicros => do return .micros (← e.NowMicros)
  | .sleepForMicroseconds n => do e.SleepForMicroseconds n; return .unit

/-- The file that a call creates, for the two calls that create a file to write to. -/
def Call.creates : Call → Option Bytes
  | .newWritableFile f _ => some f
  | .newAppendableFile f _ => some f
  | _ => none

/-- What the user of an `ErrorEnv` can do: call it, or set its flag. -/
inductive Act where
  | call (c : Call)
  | setError (b : Bool)

/-- The replies of an `ErrorEnv` when its flag is `flag`, and its flag afterwards and how many failures it has
faked: a description in terms of the target only. -/
def fakes {m : Type → Type} [Monad m] (target : Env m) : Bool → List Act → m (List Reply × Bool × Nat)
  | flag, [] => return ([], flag, 0)
  | _, .setError b :: as => fakes target b as
  | flag, .call c :: as =>
    match flag, c.creates with
    | true, some f => do
      let (rs, b, n) ← fakes target flag as
      return (.opened (.err .ioError f (lit "fake error")) .null :: rs, b, n + 1)
    | _, _ => do
      let r ← target.call c
      let (rs, b, n) ← fakes target flag as
      return (r :: rs, b, n)

/-- Run the acts on an `Env` with the members of an `ErrorEnv`. -/
def runActs {m : Type → Type} [Monad m] (env : Env (StateT ErrState m)) : List Act → StateT ErrState m (List Reply)
  | [] => return []
  | .setError b :: as => do
    modify (fun s => { s with writable_file_error := b })
    runActs env as
  | .call c :: as => do
    let r ← env.call c
    let rs ← runActs env as
    return r :: rs

/-- The calls that open a file. -/
def Call.isOpen : Call → Bool
  | .newSequentialFile _ _ | .newRandomAccessFile _ _ | .newWritableFile _ _ | .newAppendableFile _ _ => true
  | _ => false

/-- An `Env` none of whose methods can be used, for examples. -/
def brokenEnv : Env M where
  NewSequentialFile _ _ := .error .nullDeref
  NewRandomAccessFile _ _ := .error .nullDeref
  NewWritableFile _ _ := .error .nullDeref
  NewAppendableFile _ _ := .error .nullDeref
  FileExists _ := .error .nullDeref
  GetChildren _ _ := .error .nullDeref
  RemoveFile _ := .error .nullDeref
  CreateDir _ := .error .nullDeref
  RemoveDir _ := .error .nullDeref
  GetFileSize _ _ := .error .nullDeref
  RenameFile _ _ := .error .nullDeref
  LockFile _ _ := .error .nullDeref
  UnlockFile _ := .error .nullDeref
  Schedule _ := .error .nullDeref
  StartThread _ := .error .nullDeref
  GetTestDirectory _ := .error .nullDeref
  NewLogger _ _ := .error .nullDeref
  NowMicros := .error .nullDeref
  SleepForMicroseconds _ := .error .nullDeref

end Iface
end Lsmdb
