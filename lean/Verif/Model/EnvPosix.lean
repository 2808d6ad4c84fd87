import Verif.Model.EnvI
import Verif.Model.Logging
import Verif.Model.PosixEnv

/-!
# `PosixEnv` as an `Env` (util/env_posix.cc)
-/

namespace Lsmdb
namespace Iface

open MemEnv (St lit)
open Posix (P PEnv Strerror)

instance : Faults P := ⟨fun f _ => .fault f⟩

/-- What the methods need besides files: the results of `getenv("TEST_TMPDIR")` and `geteuid()`, the clock, and what
`Schedule` and `StartThread` do, which has a model of its own (`Model/Schedule`). -/
structure Process where
  TEST_TMPDIR : Option Bytes
  euid : Nat
  gettimeofday : P (Nat × Nat)
  schedule : Nat → P Unit
  startThread : Nat → P Unit
  sleep : Int → P Unit

/-- `"/tmp/lsmdbtest-%d"` with the user number as an `int`, in `char buf[100]` (env_posix.cc:685-692). -/
def defaultTestDir (euid : Nat) : Bytes :=
  let uid := Posix.wrap32 euid
  let text := lit "/tmp/lsmdbtest-" ++ (if uid < 0 then [45] else []) ++ Logging.decDigits uid.natAbs
  Logging.snprintfText 100 text

section
variable (strerror : Strerror) (full : Bool) (pr : Process)

/-- The directory `GetTestDirectory` chooses (env_posix.cc:681-693). -/
def testDir : Bytes :=
  match pr.TEST_TMPDIR with
  | some (c :: s) => c :: s
  | _ => defaultTestDir pr.euid

/-- `GetTestDirectory` (env_posix.cc:680-699). -/
def GetTestDirectory : P (St × Bytes) := do
  let result := testDir pr
  let _ ← Posix.CreateDir strerror result
  return (.ok, result)

/-- `NowMicros` (env_posix.cc:721-726). -/
def NowMicros : P Nat := do
  let (tv_sec, tv_usec) ← pr.gettimeofday
  return (tv_sec * 1000000 + tv_usec) % 2 ^ 64

/-- A method that changes the members. -/
def onEnv {α : Type} (f : PEnv → P (α × PEnv)) : StateT PEnv P α := f

/-- A method that does not. -/
def onSys {α : Type} (x : P α) : StateT PEnv P α := StateT.lift x

/-- `class PosixEnv` (env_posix.cc:492-764). -/
def PosixEnv : Env (StateT PEnv P) where
  NewSequentialFile f _ := onEnv fun e => do
    let (s, h, e) ← e.NewSequentialFile strerror f
    return ((s, .of h), e)
  NewRandomAccessFile f _ := onEnv fun e => do
    let (s, h, e) ← e.NewRandomAccessFile strerror f
    return ((s, .of h), e)
  NewWritableFile f _ := onEnv fun e => do
    let (s, h, e) ← e.NewWritableFile strerror f
    return ((s, .of h), e)
  NewAppendableFile f _ := onEnv fun e => do
    let (s, h, e) ← e.NewAppendableFile strerror f
    return ((s, .of h), e)
  FileExists f := onSys (Posix.FileExists f)
  GetChildren d _ := onSys (Posix.GetChildren strerror d)
  RemoveFile f := onSys (Posix.RemoveFile strerror f)
  CreateDir d := onSys (Posix.CreateDir strerror d)
  RemoveDir d := onSys (Posix.RemoveDir strerror d)
  GetFileSize f _ := onSys (Posix.GetFileSize strerror f)
  RenameFile s t := onSys (Posix.RenameFile strerror s t)
  LockFile f _ := onEnv fun e => do
    let (s, h, e) ← e.LockFile strerror f
    return ((s, .of h), e)
  UnlockFile l := onEnv fun e => do
    let h ← Posix.pureM l.deref
    e.UnlockFile strerror h
  Schedule f := onSys (pr.schedule f)
  StartThread f := onSys (pr.startThread f)
  GetTestDirectory _ := onSys (GetTestDirectory strerror pr)
  NewLogger f _ := onEnv fun e => do
    let (s, h, e) ← e.NewLogger strerror f
    return ((s, .of h), e)
  NowMicros := onSys (NowMicros pr)
  SleepForMicroseconds n := onSys (pr.sleep n)

/-- The file objects of `PosixEnv` (env_posix.cc:104-438). -/
def posixFiles : Files (StateT PEnv P) where
  seqRead p n := onEnv fun e => do
    let h ← Posix.pureM p.deref
    match ← Posix.pureM (e.get h) with
    | .seq f => do
      let r ← f.Read strerror n n
      return (r, e)
    | _ => Posix.pureM (.error .outOfBounds)
  append p d := write p (.append d)
  sync p := write p .sync
  close p := write p .close
  delete p := match p with
    | .null => pure ()
    | p => onEnv fun e => do
      let h ← Posix.pureM p.deref
      return ((), ← e.delete strerror h)
where
  /-- a call on a `PosixWritableFile` -/
  write (p : Ptr) (op : Posix.WOp) : StateT PEnv P St := onEnv fun e => do
    let h ← Posix.pureM p.deref
    match ← Posix.pureM (e.get h) with
    | .wr f => do
      let (s, f) ← f.step strerror full op
      return (s, { e with objs := e.objs.set h (some (.wr f)) })
    | _ => Posix.pureM (.error .outOfBounds)

end

end Iface
end Lsmdb
