import Verif.Model.PosixFile

/-!
# Model of `class PosixEnv` (`util/env_posix.cc`, lines 466-785)

File objects, locks and loggers live in a heap `objs`; an address is an index, a deleted object stays as
`none`.  Calls run one after another (the concurrent parts - `Limiter`, `LockFile`, `Schedule` - have
models of their own, in `Model/Limiter`, `Model/PosixLock`, `Model/Schedule`).
-/

namespace Lsmdb
namespace Posix

open MemEnv (St lit)

/-- Objects handed to the client: the file classes, `PosixFileLock` (env_posix.cc:452-464) and
`PosixLogger` (posix_logger.h:23-30, which owns the descriptor behind its `FILE*`). -/
inductive Obj where
  | seq (f : SeqFile)
  | rand (f : RandFile)
  | mmap (f : MmapFile)
  | wr (f : WFile)
  | lock (fd : Int) (filename : Bytes)
  | logger (fd : Int)

/-- `class PosixEnv` (env_posix.cc:492-764), data members used by the file operations. -/
structure PEnv where
  objs : List (Option Obj)
  locks : List Bytes
  mmap_limiter : Int
  fd_limiter : Int

/-- `PosixEnv()` (env_posix.cc:789-793). -/
def PEnv.init (mmap_limit fd_limit : Int) : PEnv := ⟨[], [], mmap_limit, fd_limit⟩

/-- `new`: the address and the new heap. -/
def PEnv.alloc (e : PEnv) (o : Obj) : Nat × PEnv := (e.objs.length, { e with objs := e.objs ++ [some o] })

section
variable (strerror : Strerror) (full : Bool)

/-- `NewSequentialFile` (env_posix.cc:502-512): status, `*result`. -/
def PEnv.NewSequentialFile (e : PEnv) (filename : Bytes) : P (St × Option Nat × PEnv) := do
  match ← sysOpen .rdonly filename with
  | .error err => return (PosixError strerror filename err, none, e)
  | .ok fd =>
    let (h, e) := e.alloc (.seq ⟨fd, filename⟩)
    return (.ok, some h, e)

/-- `GetFileSize` (env_posix.cc:616-624): status and `*size`. -/
def GetFileSize (filename : Bytes) : P (St × Nat) := do
  match ← sysStat filename with
  | .error err => return (PosixError strerror filename err, 0)
  | .ok n => return (.ok, n)

/-- `NewRandomAccessFile` (env_posix.cc:514-546). -/
def PEnv.NewRandomAccessFile (e : PEnv) (filename : Bytes) : P (St × Option Nat × PEnv) := do
  match ← sysOpen .rdonly filename with
  | .error err => return (PosixError strerror filename err, none, e)
  | .ok fd =>
    let (acquired, mmap_limiter) := Limiter.Acquire e.mmap_limiter
    let e := { e with mmap_limiter := mmap_limiter }
    if acquired then do
      let (status, file_size) ← GetFileSize strerror filename
      let (status, result, e) ← if status = .ok then do
          match ← sysMmap fd file_size with
          | .ok mmap_base =>
            let (h, e) := e.alloc (.mmap ⟨mmap_base, file_size, filename⟩)
            pure (status, some h, e)
          | .error err => pure (PosixError strerror filename err, none, e)
        else pure (status, none, e)
      let _ ← sysClose fd
      if status ≠ .ok then
        return (status, result, { e with mmap_limiter := Limiter.Release e.mmap_limiter })
      else return (status, result, e)
    else do
      let (f, fd_limiter) ← RandFile.new filename fd e.fd_limiter
      let (h, e) := { e with fd_limiter := fd_limiter }.alloc (.rand f)
      return (.ok, some h, e)

/-- `NewWritableFile` (env_posix.cc:548-560) and `NewAppendableFile` (env_posix.cc:562-574), which differ
in the flags only. -/
def PEnv.newWFile (e : PEnv) (m : Mode) (filename : Bytes) : P (St × Option Nat × PEnv) := do
  match ← sysOpen m filename with
  | .error err => return (PosixError strerror filename err, none, e)
  | .ok fd => do
    let f ← pureM (WFile.new filename fd)
    let (h, e) := e.alloc (.wr f)
    return (.ok, some h, e)

/-- `NewWritableFile` (env_posix.cc:548-560). -/
def PEnv.NewWritableFile (e : PEnv) (filename : Bytes) : P (St × Option Nat × PEnv) :=
  e.newWFile strerror .trunc filename

/-- `NewAppendableFile` (env_posix.cc:562-574). -/
def PEnv.NewAppendableFile (e : PEnv) (filename : Bytes) : P (St × Option Nat × PEnv) :=
  e.newWFile strerror .append filename

/-- `FileExists` (env_posix.cc:576-578). -/
def FileExists (filename : Bytes) : P Bool := do
  match ← sysAccess filename with
  | .ok _ => return true
  | .error _ => return false

/-- The loop of `GetChildren` (env_posix.cc:588-590). -/
def readdirLoop : Nat → List Bytes → List Bytes → P (List Bytes)
  | 0, _, _ => fun _ => .fault .diverges
  | fuel + 1, rest, result => do
    match ← sysReaddir rest with
    | none => return result
    | some d => readdirLoop fuel rest.tail (result ++ [d])

/-- The whole loop (env_posix.cc:588-590); every turn makes one call, so the fuel never runs out. -/
def readdirAll (entries : List Bytes) : P (List Bytes) := fun w => readdirLoop (w.choices.length + 1) entries [] w

/-- `GetChildren` (env_posix.cc:580-593): status and `*result`. -/
def GetChildren (directory_path : Bytes) : P (St × List Bytes) := do
  match ← sysOpendir directory_path with
  | .error err => return (PosixError strerror directory_path err, [])
  | .ok (fd, entries) => do
    let l ← readdirAll entries
    let _ ← sysClose fd
    return (.ok, l)

/-- `if (call != 0) return PosixError(context, errno); return Status::OK();` -/
def statusOf (context : Bytes) : Except Errno Unit → St
  | .ok _ => .ok
  | .error err => PosixError strerror context err

/-- `RemoveFile` (env_posix.cc:595-600). -/
def RemoveFile (filename : Bytes) : P St := do return statusOf strerror filename (← sysUnlink filename)

/-- `CreateDir` (env_posix.cc:602-607). -/
def CreateDir (dirname : Bytes) : P St := do return statusOf strerror dirname (← sysMkdir dirname)

/-- `RemoveDir` (env_posix.cc:609-614). -/
def RemoveDir (dirname : Bytes) : P St := do return statusOf strerror dirname (← sysRmdir dirname)

/-- `RenameFile` (env_posix.cc:626-631). -/
def RenameFile (src target : Bytes) : P St := do return statusOf strerror src (← sysRename src target)

/-- `PosixLockTable::Insert` (env_posix.cc:475-480). -/
def lockInsert (locks : List Bytes) (filename : Bytes) : Bool × List Bytes :=
  if filename ∈ locks then (false, locks) else (true, filename :: locks)

/-- `PosixLockTable::Remove` (env_posix.cc:481-485). -/
def lockRemove (locks : List Bytes) (filename : Bytes) : List Bytes :=
  locks.filter (fun n => decide (n ≠ filename))

/-- `LockFile` (env_posix.cc:633-655).  `LockOrUnlock` (440-449) is one `fcntl` call. -/
def PEnv.LockFile (e : PEnv) (filename : Bytes) : P (St × Option Nat × PEnv) := do
  match ← sysOpen .rdwr filename with
  | .error err => return (PosixError strerror filename err, none, e)
  | .ok fd =>
    let (succeeded, locks) := lockInsert e.locks filename
    let e := { e with locks := locks }
    if succeeded then do
      match ← sysOther with
      | .error lock_errno => do
        let _ ← sysClose fd
        return (PosixError strerror (lit "lock " ++ filename) lock_errno, none,
          { e with locks := lockRemove e.locks filename })
      | .ok _ =>
        let (h, e) := e.alloc (.lock fd filename)
        return (.ok, some h, e)
    else do
      let _ ← sysClose fd
      return (.err .ioError (lit "lock " ++ filename) (lit "already held by process"), none, e)

/-- Dereferencing an object. -/
def PEnv.get (e : PEnv) (h : Nat) : M Obj :=
  match e.objs[h]? with
  | none => .error .outOfBounds
  | some none => .error .useAfterFree
  | some (some o) => .ok o

/-- `UnlockFile` (env_posix.cc:657-669). -/
def PEnv.UnlockFile (e : PEnv) (h : Nat) : P (St × PEnv) := do
  match ← pureM (e.get h) with
  | .lock fd filename => do
    match ← sysOther with
    | .error err => return (PosixError strerror (lit "unlock " ++ filename) err, e)
    | .ok _ => do
      let e := { e with locks := lockRemove e.locks filename }
      let _ ← sysClose fd
      return (.ok, { e with objs := e.objs.set h none })
  | _ => pureM (.error .outOfBounds)

/-- `NewLogger` (env_posix.cc:701-719).  If `fdopen` fails, `errno` is read after `close`. -/
def PEnv.NewLogger (e : PEnv) (filename : Bytes) : P (St × Option Nat × PEnv) := do
  match ← sysOpen .append filename with
  | .error err => return (PosixError strerror filename err, none, e)
  | .ok fd => do
    match ← sysOther with
    | .error err => do
      let err ← match ← sysClose fd with
        | .error err => pure err
        | .ok _ => pure err
      return (PosixError strerror filename err, none, e)
    | .ok _ =>
      let (h, e) := e.alloc (.logger fd)
      return (.ok, some h, e)

/-- `delete` of a file object or logger (destructors: env_posix.cc:109, 160-166, 223-226, 255-260;
posix_logger.h:30).  A `PosixFileLock` is deleted by `UnlockFile` only. -/
def PEnv.delete (e : PEnv) (h : Nat) : P PEnv := do
  let o ← pureM (e.get h)
  let e ← match o with
    | .seq f => do let _ ← sysClose f.fd; pure e
    | .rand f => do let l ← f.destroy e.fd_limiter; pure { e with fd_limiter := l }
    | .mmap f => do let l ← f.destroy e.mmap_limiter; pure { e with mmap_limiter := l }
    | .wr f => do f.destroy strerror; pure e
    | .logger fd => do let _ ← sysClose fd; pure e
    | .lock _ _ => pureM (.error .outOfBounds)
  return { e with objs := e.objs.set h none }

/-! ## Client histories -/

/-- What a client can do.  `h` names an object returned by an open call. -/
inductive POp where
  | newSequential (name : Bytes)
  | newRandomAccess (name : Bytes)
  | newWritable (name : Bytes)
  | newAppendable (name : Bytes)
  | newLogger (name : Bytes)
  | fileExists (name : Bytes)
  | getChildren (dir : Bytes)
  | removeFile (name : Bytes)
  | createDir (name : Bytes)
  | removeDir (name : Bytes)
  | getFileSize (name : Bytes)
  | renameFile (src target : Bytes)
  | lockFile (name : Bytes)
  | unlockFile (h : Nat)
  | seqRead (h n : Nat)
  | seqSkip (h n : Nat)
  | randRead (h offset n : Nat)
  | write (h : Nat) (op : WOp)
  | delete (h : Nat)

/-- What the client sees. -/
inductive PRes where
  | unit
  | status (s : St)
  | opened (s : St) (h : Option Nat)
  | bool (b : Bool)
  | data (s : St) (d : Option Bytes)
  | view (s : St) (v : MmapSlice)
  | size (s : St) (n : Nat)
  | list (s : St) (l : List Bytes)
  deriving DecidableEq

/-- One call.  The client gives a scratch buffer of `n` bytes. -/
def PEnv.step (e : PEnv) : POp → P (PEnv × PRes)
  | .newSequential n => do let (s, h, e) ← e.NewSequentialFile strerror n; return (e, .opened s h)
  | .newRandomAccess n => do let (s, h, e) ← e.NewRandomAccessFile strerror n; return (e, .opened s h)
  | .newWritable n => do let (s, h, e) ← e.NewWritableFile strerror n; return (e, .opened s h)
  | .newAppendable n => do let (s, h, e) ← e.NewAppendableFile strerror n; return (e, .opened s h)
  | .newLogger n => do let (s, h, e) ← e.NewLogger strerror n; return (e, .opened s h)
  | .fileExists n => do return (e, .bool (← FileExists n))
  | .getChildren d => do let (s, l) ← GetChildren strerror d; return (e, .list s l)
  | .removeFile n => do return (e, .status (← RemoveFile strerror n))
  | .createDir n => do return (e, .status (← CreateDir strerror n))
  | .removeDir n => do return (e, .status (← RemoveDir strerror n))
  | .getFileSize n => do let (s, v) ← GetFileSize strerror n; return (e, .size s v)
  | .renameFile a b => do return (e, .status (← RenameFile strerror a b))
  | .lockFile n => do let (s, h, e) ← e.LockFile strerror n; return (e, .opened s h)
  | .unlockFile h => do let (s, e) ← e.UnlockFile strerror h; return (e, .status s)
  | .seqRead h n => do
    match ← pureM (e.get h) with
    | .seq f => do let (s, d) ← f.Read strerror n n; return (e, .data s d)
    | _ => pureM (.error .outOfBounds)
  | .seqSkip h n => do
    match ← pureM (e.get h) with
    | .seq f => do return (e, .status (← f.Skip strerror n))
    | _ => pureM (.error .outOfBounds)
  | .randRead h offset n => do
    match ← pureM (e.get h) with
    | .rand f => do let (s, d) ← f.Read strerror offset n n; return (e, .data s d)
    | .mmap f => let (s, v) := f.Read strerror offset n; return (e, .view s v)
    | _ => pureM (.error .outOfBounds)
  | .write h op => do
    match ← pureM (e.get h) with
    | .wr f => do
      let (s, f) ← f.step strerror full op
      return ({ e with objs := e.objs.set h (some (.wr f)) }, .status s)
    | _ => pureM (.error .outOfBounds)
  | .delete h => do return (← e.delete strerror h, .unit)

/-- A history of calls. -/
def PEnv.run (e : PEnv) : List POp → P (PEnv × List PRes)
  | [] => pure (e, [])
  | o :: os => do
    let (e, r) ← e.step strerror full o
    let (e, rs) ← PEnv.run e os
    return (e, r :: rs)

end

end Posix
end Lsmdb
