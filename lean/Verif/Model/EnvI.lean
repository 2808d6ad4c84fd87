import Verif.Model.MemEnv

/-!
# The interface `Env` (include/lsmdb/env.h) and the code that works with any `Env` (util/env.cc)

A method runs in a monad `m`, which carries the state of the object and of the system, and undefined behaviour.
`InMemoryEnv` and `PosixEnv` are instances (`Model/EnvMem`, `Model/EnvPosix`).
-/

namespace Lsmdb
namespace Iface

open MemEnv (St lit)

/-- A monad with undefined behaviour. -/
class Faults (m : Type → Type) where
  fault : {α : Type} → Fault → m α

instance : Faults M := ⟨fun f => .error f⟩
instance {σ : Type} {m : Type → Type} [Faults m] : Faults (StateT σ m) := ⟨fun f _ => Faults.fault f⟩

/-- A piece of the model that may fault, in `m`. -/
def ofM {m : Type → Type} [Monad m] [Faults m] {α : Type} : M α → m α
  | .ok a => pure a
  | .error e => Faults.fault e

/-- A pointer variable. -/
inductive Ptr where
  | uninit
  | null
  | obj (h : Nat)
  deriving DecidableEq

/-- The pointer a call stores. -/
def Ptr.of : Option Nat → Ptr
  | none => .null
  | some h => .obj h

/-- The object behind a pointer. -/
def Ptr.deref : Ptr → M Nat
  | .uninit => .error .uninit
  | .null => .error .nullDeref
  | .obj h => .ok h

/-- The virtual functions of `class Env` (env.h:43-189).  An argument of type `T*` for a result becomes an argument
with the old value and a result with the new one.  A function with its argument, given to `Schedule` or
`StartThread`, is a number. -/
structure Env (m : Type → Type) where
  NewSequentialFile : Bytes → Ptr → m (St × Ptr)
  NewRandomAccessFile : Bytes → Ptr → m (St × Ptr)
  NewWritableFile : Bytes → Ptr → m (St × Ptr)
  NewAppendableFile : Bytes → Ptr → m (St × Ptr)
  FileExists : Bytes → m Bool
  GetChildren : Bytes → List Bytes → m (St × List Bytes)
  RemoveFile : Bytes → m St
  CreateDir : Bytes → m St
  RemoveDir : Bytes → m St
  GetFileSize : Bytes → Nat → m (St × Nat)
  RenameFile : Bytes → Bytes → m St
  LockFile : Bytes → Ptr → m (St × Ptr)
  UnlockFile : Ptr → m St
  Schedule : Nat → m Unit
  StartThread : Nat → m Unit
  GetTestDirectory : Bytes → m (St × Bytes)
  NewLogger : Bytes → Ptr → m (St × Ptr)
  NowMicros : m Nat
  SleepForMicroseconds : Int → m Unit

/-- The virtual functions of the file objects that util/env.cc uses (env.h:191-258); `none`: `*result` not
assigned. -/
structure Files (m : Type → Type) where
  seqRead : Ptr → Nat → m (St × Option Bytes)
  append : Ptr → Slice → m St
  sync : Ptr → m St
  close : Ptr → m St
  delete : Ptr → m Unit

section
variable {m : Type → Type} [Monad m] [Faults m]

/-- `Env::NewAppendableFile` (env.cc:23-25), which an `Env` that does not override it has. -/
def baseNewAppendableFile (filename : Bytes) (result : Ptr) : m (St × Ptr) :=
  return (.err .notSupported (lit "NewAppendableFile") filename, result)

/-- `DoWriteStringToFile` (env.cc:46-64). -/
def DoWriteStringToFile (env : Env m) (files : Files m) (data : Slice) (filename : Bytes) (should_sync : Bool) : m St := do
  let (s, file) ← env.NewWritableFile filename .uninit
  if s ≠ .ok then return s
  else do
    let s ← files.append file data
    let s ← if s = .ok ∧ should_sync then files.sync file else pure s
    let s ← if s = .ok then files.close file else pure s
    files.delete file
    if s ≠ .ok then do
      let _ ← env.RemoveFile filename
      return s
    else return s

/-- `WriteStringToFile` (env.cc:66-69). -/
def WriteStringToFile (env : Env m) (files : Files m) (data : Slice) (fname : Bytes) : m St :=
  DoWriteStringToFile env files data fname false

/-- `WriteStringToFileSync` (env.cc:71-74). -/
def WriteStringToFileSync (env : Env m) (files : Files m) (data : Slice) (fname : Bytes) : m St :=
  DoWriteStringToFile env files data fname true

/-- `kBufferSize` (env.cc:85). -/
def kBufferSize : Nat := 8192

/-- The loop of `ReadFileToString` (env.cc:87-95), at most `fuel` times.  `fragment` is empty before the call. -/
def readLoop (files : Files m) (sp_file : Ptr) : Nat → Bytes → m (St × Bytes)
  | 0, _ => Faults.fault .diverges
  | fuel + 1, data => do
    let (s, r) ← files.seqRead sp_file kBufferSize
    if s ≠ .ok then return (s, data)
    else
      let fragment := r.getD []
      let data := data ++ fragment
      if fragment = [] then return (s, data)
      else readLoop files sp_file fuel data

/-- Copying the value of a pointer variable. -/
def Ptr.value : Ptr → M Ptr
  | .uninit => .error .uninit
  | p => .ok p

/-- The destructor of `std::unique_ptr` (C++ library). -/
def destroyUnique (files : Files m) (p : Ptr) : m Unit :=
  if p = .null then pure () else files.delete p

/-- `ReadFileToString` (env.cc:77-97): status and `*data`. -/
def ReadFileToString (env : Env m) (files : Files m) (fuel : Nat) (filename : Bytes) : m (St × Bytes) := do
  let (s, file) ← env.NewSequentialFile filename .uninit
  let sp_file ← ofM file.value
  if s ≠ .ok then do
    destroyUnique files sp_file
    return (s, [])
  else do
    let (s, data) ← readLoop files sp_file fuel []
    destroyUnique files sp_file
    return (s, data)

/-- `Log` (env.cc:37-44): calls `Logv` of a logger that exists. -/
def Log (logv : Nat → Bytes → m Unit) (info_log : Ptr) (message : Bytes) : m Unit :=
  match info_log with
  | .null => pure ()
  | .uninit => Faults.fault .uninit
  | .obj h => logv h message

end

/-- `class EnvWapper` (env.h:279-343). -/
def EnvWapper {m : Type → Type} (target : Env m) : Env m where
  NewSequentialFile f r := target.NewSequentialFile f r
  NewRandomAccessFile f r := target.NewRandomAccessFile f r
  NewWritableFile f r := target.NewWritableFile f r
  NewAppendableFile f r := target.NewAppendableFile f r
  FileExists f := target.FileExists f
  GetChildren dir r := target.GetChildren dir r
  RemoveFile f := target.RemoveFile f
  CreateDir d := target.CreateDir d
  RemoveDir d := target.RemoveDir d
  GetFileSize f s := target.GetFileSize f s
  RenameFile s t := target.RenameFile s t
  LockFile f l := target.LockFile f l
  UnlockFile l := target.UnlockFile l
  Schedule f := target.Schedule f
  StartThread f := target.StartThread f
  GetTestDirectory path := target.GetTestDirectory path
  NewLogger fname result := target.NewLogger fname result
  NowMicros := target.NowMicros
  SleepForMicroseconds micros := target.SleepForMicroseconds micros

/-- The same `Env` where there is more state. -/
def Env.lift {m : Type → Type} [Monad m] (σ : Type) (e : Env m) : Env (StateT σ m) where
  NewSequentialFile f r := StateT.lift (e.NewSequentialFile f r)
  NewRandomAccessFile f r := StateT.lift (e.NewRandomAccessFile f r)
  NewWritableFile f r := StateT.lift (e.NewWritableFile f r)
  NewAppendableFile f r := StateT.lift (e.NewAppendableFile f r)
  FileExists f := StateT.lift (e.FileExists f)
  GetChildren dir r := StateT.lift (e.GetChildren dir r)
  RemoveFile f := StateT.lift (e.RemoveFile f)
  CreateDir d := StateT.lift (e.CreateDir d)
  RemoveDir d := StateT.lift (e.RemoveDir d)
  GetFileSize f s := StateT.lift (e.GetFileSize f s)
  RenameFile s t := StateT.lift (e.RenameFile s t)
  LockFile f l := StateT.lift (e.LockFile f l)
  UnlockFile l := StateT.lift (e.UnlockFile l)
  Schedule f := StateT.lift (e.Schedule f)
  StartThread f := StateT.lift (e.StartThread f)
  GetTestDirectory path := StateT.lift (e.GetTestDirectory path)
  NewLogger fname result := StateT.lift (e.NewLogger fname result)
  NowMicros := StateT.lift e.NowMicros
  SleepForMicroseconds micros := StateT.lift (e.SleepForMicroseconds micros)

/-! ## ErrorEnv -/

/-- The members of `test::ErrorEnv` (test_util.h:47-48). -/
structure ErrState where
  writable_file_error : Bool
  num_writable_file_errors : Int
  deriving DecidableEq

/-- `ErrorEnv()` (test_util.h:50-53). -/
def ErrState.init : ErrState := ⟨false, 0⟩

/-- `++num_writable_file_errors_; *result = nullptr; return Status::IOError(filename, "fake error");`
(test_util.h:58-60, 68-70); the counter is an `int`. -/
def fakeError {m : Type → Type} [Monad m] [Faults m] (filename : Bytes) : StateT ErrState m (St × Ptr) := do
  let s ← get
  if s.num_writable_file_errors + 1 > 2147483647 then Faults.fault .arith
  else do
    set { s with num_writable_file_errors := s.num_writable_file_errors + 1 }
    return (.err .ioError filename (lit "fake error"), .null)

/-- `class ErrorEnv : public EnvWapper` (test_util.h:45-74) on its target. -/
def ErrorEnv {m : Type → Type} [Monad m] [Faults m] (target : Env m) : Env (StateT ErrState m) :=
  { EnvWapper (target.lift ErrState) with
    NewWritableFile := fun filename result => do
      if (← get).writable_file_error then fakeError filename
      else (target.lift ErrState).NewWritableFile filename result
    NewAppendableFile := fun filename result => do
      if (← get).writable_file_error then fakeError filename
      else (target.lift ErrState).NewAppendableFile filename result }

end Iface
end Lsmdb
