import Verif.Model.PosixEnv

/-!
# `util/env_posix.cc` when memory runs out

Every call is given the outcome of the allocations it may make (`PMem`); an allocation that fails throws
`std::bad_alloc` out of the call, at the point where it is made, and what was reached stays.  The code catches
nothing and most resources (descriptors, mappings, limiter slots, the mutex of the lock table) are not held by
objects with destructors.  The Env is that of `Model/PosixEnv`: calls run one after another.

Simplifications: the allocations that make one object (the object, the copy of the name in it, its directory)
count as one, as do those of an error `Status` (the strings put together for it, its message); the allocations
that `fdopen` and `opendir` make are their failures.
-/

namespace Lsmdb
namespace Posix

open MemEnv (St lit)

/-- Which of the allocations a call may make succeed: an error `Status` (env_posix.cc:59-65, 641, 648; status.cc:20),
`new` of a file, lock or logger object (env_posix.cc:510, 524, 534, 558, 572, 653, 716), the node of the set
`locked_files_` (env_posix.cc:477), the `i`-th name of a list of children (env_posix.cc:589). -/
structure PMem where
  message : Bool
  object : Bool
  node : Bool
  child : Nat → Bool

/-- Memory does not run out. -/
def PMem.plenty : PMem := ⟨true, true, true, fun _ => true⟩

/-- Making a `Status`: none if it is an error and there is no memory for it (env_posix.cc:59-65; status.cc:15-32). -/
def raise (mem : PMem) (s : St) : Option St :=
  match s with
  | .ok => some .ok
  | .err c a b => if mem.message then some (.err c a b) else none

/-! ## PosixWritableFile: `none` instead of a status is an exception -/

/-- `FlushBuffer` (env_posix.cc:325-329): an exception of `WriteUnbuffered` passes by `pos_ = 0`. -/
def WFile.FlushBufferO (strerror : Strerror) (mem : PMem) (f : WFile) : P (Option St × WFile) := do
  let d ← pureM (f.buf.load f.pos)
  let status ← f.WriteUnbuffered strerror d
  match raise mem status with
  | none => return (none, f)
  | some s => return (some s, { f with pos := 0 })

/-- The rest of `Append` after the flush (env_posix.cc:277-288). -/
def WFile.appendRestO (strerror : Strerror) (mem : PMem) (f : WFile) (write_data : Bytes) (write_size : Nat) :
    P (Option St × WFile) :=
  if write_size < kWritableFileBufferSize then do
    let buf ← pureM (f.buf.store 0 write_data)
    return (some .ok, { f with buf := buf, pos := write_size })
  else do
    let status ← f.WriteUnbuffered strerror write_data
    return (raise mem status, f)

/-- `Append` (env_posix.cc:262-289). -/
def WFile.AppendO (strerror : Strerror) (mem : PMem) (f : WFile) (data : Slice) : P (Option St × WFile) := do
  let write_size := data.len
  let bytes ← pureM data.toString
  let copy_size := min write_size (kWritableFileBufferSize - f.pos)
  let buf ← pureM (f.buf.store f.pos (bytes.take copy_size))
  let write_data := bytes.drop copy_size
  let write_size := write_size - copy_size
  let f := { f with buf := buf, pos := f.pos + copy_size }
  if write_size = 0 then return (some .ok, f)
  else do
    let (status, f) ← f.FlushBufferO strerror mem
    match status with
    | none => return (none, f)
    | some status =>
      if status ≠ .ok then return (some status, f)
      else f.appendRestO strerror mem write_data write_size

/-- `Close` (env_posix.cc:291-301): an exception passes by `::close` or by `fd_ = -1`. -/
def WFile.CloseO (strerror : Strerror) (mem : PMem) (f : WFile) : P (Option St × WFile) := do
  let (status, f) ← f.FlushBufferO strerror mem
  match status with
  | none => return (none, f)
  | some status => do
    let close_result ← sysClose f.fd
    match close_result with
    | .error e =>
      if status = .ok then
        match raise mem (PosixError strerror f.filename e) with
        | none => return (none, f)
        | some s => return (some s, { f with fd := -1 })
      else return (some status, { f with fd := -1 })
    | .ok _ => return (some status, { f with fd := -1 })

/-- `SyncDirIfManifest` (env_posix.cc:346-360): an exception of `SyncFd` passes by `::close(fd)`. -/
def WFile.SyncDirIfManifestO (strerror : Strerror) (mem : PMem) (fullfsync : Bool) (f : WFile) : P (Option St) := do
  if f.is_manifest then do
    match ← sysOpen .rdonly f.dirname with
    | .error e => return raise mem (PosixError strerror f.dirname e)
    | .ok fd => do
      let status ← SyncFd strerror fullfsync fd f.dirname
      match raise mem status with
      | none => return none
      | some s => do
        let _ ← sysClose fd
        return some s
  else return some .ok

/-- `Sync` (env_posix.cc:305-322). -/
def WFile.SyncO (strerror : Strerror) (mem : PMem) (fullfsync : Bool) (f : WFile) : P (Option St × WFile) := do
  let status ← f.SyncDirIfManifestO strerror mem fullfsync
  match status with
  | none => return (none, f)
  | some status =>
    if status ≠ .ok then return (some status, f)
    else do
      let (status, f) ← f.FlushBufferO strerror mem
      match status with
      | none => return (none, f)
      | some status =>
        if status ≠ .ok then return (some status, f)
        else do
          let status ← SyncFd strerror fullfsync f.fd f.filename
          return (raise mem status, f)

/-- One call on a writable file. -/
def WFile.stepO (strerror : Strerror) (mem : PMem) (fullfsync : Bool) (f : WFile) : WOp → P (Option St × WFile)
  | .append d => f.AppendO strerror mem d
  | .flush => f.FlushBufferO strerror mem
  | .sync => f.SyncO strerror mem fullfsync
  | .close => f.CloseO strerror mem

/-- `~PosixWritableFile` (env_posix.cc:255-260): `false` if `Close` threw, which ends the process since a
destructor lets no exception out. -/
def WFile.destroyO (strerror : Strerror) (mem : PMem) (f : WFile) : P Bool := do
  if f.fd ≥ 0 then do
    let (status, _) ← f.CloseO strerror mem
    return status.isSome
  else return true

/-! ## Readable files -/

/-- `PosixRandomAccessFile::Read` (env_posix.cc:168-193): an exception passes by `::close(fd)`. -/
def RandFile.ReadO (strerror : Strerror) (mem : PMem) (f : RandFile) (offset n cap : Nat) : P (Option (St × Option Bytes)) := do
  let fd ← if f.has_permanent_fd then pure (Except.ok f.fd) else sysOpen .rdonly f.filename
  match fd with
  | .error e => return (raise mem (PosixError strerror f.filename e)).map (fun s => (s, none))
  | .ok fd => do
    pureM (cassert (decide (fd ≠ -1)))
    let r ← sysPread fd n (toOff offset)
    let res ← match r with
      | .error e => pure (PosixError strerror f.filename e, some [])
      | .ok d => if d.length ≤ cap then pure (St.ok, some d) else pureM (.error .outOfBounds)
    match raise mem res.1 with
    | none => return none
    | some _ =>
      if f.has_permanent_fd then return some res
      else do
        pureM (cassert (decide (fd ≠ f.fd)))
        let _ ← sysClose fd
        return some res

/-! ## PosixEnv -/

/-- The Env and the mutex of its lock table: `locked` means that it was left locked (env_posix.cc:475-490). -/
structure OEnv where
  env : PEnv
  locked : Bool

/-- What becomes of a call: it returns, throws, waits for ever, or the process ends. -/
inductive Ans where
  | res (r : PRes)
  | threw
  | hangs
  | ended
  deriving DecidableEq

/-- Return a status, unless there is no memory for it. -/
def OEnv.answer (E : OEnv) (mem : PMem) (s : St) (r : PRes) : OEnv × Ans :=
  match raise mem s with
  | none => (E, .threw)
  | some _ => (E, .res r)

/-- `*result = new ...; return Status::OK();` -/
def OEnv.hand (E : OEnv) (mem : PMem) (o : Obj) : OEnv × Ans :=
  if mem.object then ({ E with env := (E.env.alloc o).2 }, .res (.opened .ok (some (E.env.alloc o).1)))
  else (E, .threw)

section
variable (strerror : Strerror) (full : Bool)

/-- `NewSequentialFile` (env_posix.cc:502-512). -/
def OEnv.NewSequentialFile (E : OEnv) (mem : PMem) (filename : Bytes) : P (OEnv × Ans) := do
  match ← sysOpen .rdonly filename with
  | .error err => return E.answer mem (PosixError strerror filename err) (.opened (PosixError strerror filename err) none)
  | .ok fd => return E.hand mem (.seq ⟨fd, filename⟩)

/-- The memory mapping of `NewRandomAccessFile` (env_posix.cc:528-540); `none`: threw. -/
def OEnv.mapFile (E : OEnv) (mem : PMem) (fd : Int) (filename : Bytes) : P (OEnv × Option (St × Option Nat)) := do
  let (status, file_size) ← GetFileSize strerror filename
  match raise mem status with
  | none => return (E, none)
  | some status =>
    if status = .ok then do
      match ← sysMmap fd file_size with
      | .ok mmap_base =>
        if mem.object then
          let (h, e) := E.env.alloc (.mmap ⟨mmap_base, file_size, filename⟩)
          return ({ E with env := e }, some (.ok, some h))
        else return (E, none)
      | .error err => return (E, (raise mem (PosixError strerror filename err)).map (fun s => (s, none)))
    else return (E, some (status, none))

/-- `NewRandomAccessFile` (env_posix.cc:514-546): an exception after the slot of the limiter was taken passes by
`::close(fd)` and `mmap_limiter_.Release()`. -/
def OEnv.NewRandomAccessFile (E : OEnv) (mem : PMem) (filename : Bytes) : P (OEnv × Ans) := do
  match ← sysOpen .rdonly filename with
  | .error err => return E.answer mem (PosixError strerror filename err) (.opened (PosixError strerror filename err) none)
  | .ok fd =>
    let (acquired, mmap_limiter) := Limiter.Acquire E.env.mmap_limiter
    let E := { E with env := { E.env with mmap_limiter := mmap_limiter } }
    if acquired then do
      let (E, r) ← E.mapFile strerror mem fd filename
      match r with
      | none => return (E, .threw)
      | some (status, result) => do
        let _ ← sysClose fd
        if status ≠ .ok then
          return ({ E with env := { E.env with mmap_limiter := Limiter.Release E.env.mmap_limiter } },
            .res (.opened status result))
        else return (E, .res (.opened status result))
    else if mem.object then do
      let (f, fd_limiter) ← RandFile.new filename fd E.env.fd_limiter
      let (h, e) := { E.env with fd_limiter := fd_limiter }.alloc (.rand f)
      return ({ E with env := e }, .res (.opened .ok (some h)))
    else return (E, .threw)

/-- `NewWritableFile` (env_posix.cc:548-560) and `NewAppendableFile` (env_posix.cc:562-574). -/
def OEnv.newWFile (E : OEnv) (mem : PMem) (m : Mode) (filename : Bytes) : P (OEnv × Ans) := do
  match ← sysOpen m filename with
  | .error err => return E.answer mem (PosixError strerror filename err) (.opened (PosixError strerror filename err) none)
  | .ok fd => do
    let f ← pureM (WFile.new filename fd)
    return E.hand mem (.wr f)

/-- The loop of `GetChildren` (env_posix.cc:588-590); `none`: threw. -/
def readdirLoopO (mem : PMem) : Nat → List Bytes → List Bytes → P (Option (List Bytes))
  | 0, _, _ => fun _ => .fault .diverges
  | fuel + 1, rest, result => do
    match ← sysReaddir rest with
    | none => return some result
    | some d => if mem.child result.length then readdirLoopO mem fuel rest.tail (result ++ [d]) else return none

/-- `GetChildren` (env_posix.cc:580-593): an exception passes by `::closedir(dir)`. -/
def OEnv.GetChildren (E : OEnv) (mem : PMem) (directory_path : Bytes) : P (OEnv × Ans) := do
  match ← sysOpendir directory_path with
  | .error err => return E.answer mem (PosixError strerror directory_path err) (.list (PosixError strerror directory_path err) [])
  | .ok (fd, entries) => do
    let l ← (fun w => readdirLoopO mem (w.choices.length + 1) entries [] w : P (Option (List Bytes)))
    match l with
    | none => return (E, .threw)
    | some l => do
      let _ ← sysClose fd
      return (E, .res (.list .ok l))

/-- `LockFile` (env_posix.cc:633-655).  `PosixLockTable::Insert` (475-480) makes a node only for a new name; an
exception passes by `mutex_.Unlock()`. -/
def OEnv.LockFile (E : OEnv) (mem : PMem) (filename : Bytes) : P (OEnv × Ans) := do
  match ← sysOpen .rdwr filename with
  | .error err => return E.answer mem (PosixError strerror filename err) (.opened (PosixError strerror filename err) none)
  | .ok fd =>
    if E.locked then return (E, .hangs)
    else if (lockInsert E.env.locks filename).1 then
      if mem.node then do
        let E := { E with env := { E.env with locks := (lockInsert E.env.locks filename).2 } }
        match ← sysOther with
        | .error lock_errno => do
          let _ ← sysClose fd
          let E := { E with env := { E.env with locks := lockRemove E.env.locks filename } }
          return E.answer mem (PosixError strerror (lit "lock " ++ filename) lock_errno)
            (.opened (PosixError strerror (lit "lock " ++ filename) lock_errno) none)
        | .ok _ => return E.hand mem (.lock fd filename)
      else return ({ E with locked := true }, .threw)
    else do
      let _ ← sysClose fd
      return E.answer mem (.err .ioError (lit "lock " ++ filename) (lit "already held by process"))
        (.opened (.err .ioError (lit "lock " ++ filename) (lit "already held by process")) none)

/-- `UnlockFile` (env_posix.cc:657-669). -/
def OEnv.UnlockFile (E : OEnv) (mem : PMem) (h : Nat) : P (OEnv × Ans) := do
  match ← pureM (E.env.get h) with
  | .lock fd filename => do
    match ← sysOther with
    | .error err =>
      return E.answer mem (PosixError strerror (lit "unlock " ++ filename) err)
        (.status (PosixError strerror (lit "unlock " ++ filename) err))
    | .ok _ =>
      if E.locked then return (E, .hangs)
      else do
        let e := { E.env with locks := lockRemove E.env.locks filename }
        let _ ← sysClose fd
        return ({ E with env := { e with objs := e.objs.set h none } }, .res (.status .ok))
  | _ => pureM (.error .outOfBounds)

/-- `NewLogger` (env_posix.cc:701-719). -/
def OEnv.NewLogger (E : OEnv) (mem : PMem) (filename : Bytes) : P (OEnv × Ans) := do
  match ← sysOpen .append filename with
  | .error err => return E.answer mem (PosixError strerror filename err) (.opened (PosixError strerror filename err) none)
  | .ok fd => do
    match ← sysOther with
    | .error err => do
      let err ← match ← sysClose fd with
        | .error err => pure err
        | .ok _ => pure err
      return E.answer mem (PosixError strerror filename err) (.opened (PosixError strerror filename err) none)
    | .ok _ => return E.hand mem (.logger fd)

/-- `delete` of an object (as `PEnv.delete`). -/
def OEnv.delete (E : OEnv) (mem : PMem) (h : Nat) : P (OEnv × Ans) := do
  match ← pureM (E.env.get h) with
  | .wr f => do
    if ← f.destroyO strerror mem then
      return ({ E with env := { E.env with objs := E.env.objs.set h none } }, .res .unit)
    else return (E, .ended)
  | _ => do
    let e ← E.env.delete strerror h
    return ({ E with env := e }, .res .unit)

/-- A call that makes a `Status` last: `r` is what it answers. -/
def OEnv.last (E : OEnv) (mem : PMem) (s : St) (r : PRes) : P (OEnv × Ans) := return E.answer mem s r

/-- One call (as `PEnv.step`). -/
def OEnv.step (E : OEnv) (mem : PMem) : POp → P (OEnv × Ans)
  | .newSequential n => E.NewSequentialFile strerror mem n
  | .newRandomAccess n => E.NewRandomAccessFile strerror mem n
  | .newWritable n => E.newWFile strerror mem .trunc n
  | .newAppendable n => E.newWFile strerror mem .append n
  | .newLogger n => E.NewLogger strerror mem n
  | .fileExists n => do return (E, .res (.bool (← FileExists n)))
  | .getChildren d => E.GetChildren strerror mem d
  | .removeFile n => do let s ← RemoveFile strerror n; E.last mem s (.status s)
  | .createDir n => do let s ← CreateDir strerror n; E.last mem s (.status s)
  | .removeDir n => do let s ← RemoveDir strerror n; E.last mem s (.status s)
  | .getFileSize n => do let (s, v) ← GetFileSize strerror n; E.last mem s (.size s v)
  | .renameFile a b => do let s ← RenameFile strerror a b; E.last mem s (.status s)
  | .lockFile n => E.LockFile strerror mem n
  | .unlockFile h => E.UnlockFile strerror mem h
  | .seqRead h n => do
    match ← pureM (E.env.get h) with
    | .seq f => do let (s, d) ← f.Read strerror n n; E.last mem s (.data s d)
    | _ => pureM (.error .outOfBounds)
  | .seqSkip h n => do
    match ← pureM (E.env.get h) with
    | .seq f => do let s ← f.Skip strerror n; E.last mem s (.status s)
    | _ => pureM (.error .outOfBounds)
  | .randRead h offset n => do
    match ← pureM (E.env.get h) with
    | .rand f => do
      match ← f.ReadO strerror mem offset n n with
      | none => return (E, .threw)
      | some (s, d) => return (E, .res (.data s d))
    | .mmap f => let (s, v) := f.Read strerror offset n; E.last mem s (.view s v)
    | _ => pureM (.error .outOfBounds)
  | .write h op => do
    match ← pureM (E.env.get h) with
    | .wr f => do
      let (s, f) ← f.stepO strerror mem full op
      let E := { E with env := { E.env with objs := E.env.objs.set h (some (.wr f)) } }
      match s with
      | none => return (E, .threw)
      | some s => return (E, .res (.status s))
    | _ => pureM (.error .outOfBounds)
  | .delete h => E.delete strerror mem h

/-- A history of calls; it stops at a call that waits for ever and when the process ends. -/
def OEnv.run (E : OEnv) : List (PMem × POp) → P (OEnv × List Ans)
  | [] => pure (E, [])
  | (mem, o) :: os => do
    let (E, a) ← E.step strerror full mem o
    match a with
    | .hangs => return (E, [.hangs])
    | .ended => return (E, [.ended])
    | a => do
      let (E, rs) ← OEnv.run E os
      return (E, a :: rs)

end

end Posix
end Lsmdb
