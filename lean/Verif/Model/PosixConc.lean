import Verif.Model.PosixEnv

/-!
# `util/env_posix.cc` with threads: the file operations of one `PosixEnv` used by many threads

Every call is a program that makes one system call, one atomic operation on a limiter or one operation on the lock
table after another; threads are interleaved between these.  `Prog.run` runs a program alone; that this is the call of
`Model/PosixEnv` is proved (`C92_sequential`).

The lock table is a `std::set` under a mutex (env_posix.cc:471-490): `Insert` and `Remove` are one step each.  The
operations on a limiter are read-modify-writes of one atomic integer (env_posix.cc:79-97): one step each.
-/

namespace Lsmdb
namespace Posix

open MemEnv (St lit)

/-- The two limiters of the Env (env_posix.cc:762-763). -/
inductive Lim where
  | mmap
  | fd
  deriving DecidableEq

/-- What the calls do to the world one at a time: system calls (as in `Model/Kernel`), `fetch_sub`/`fetch_add` of a limiter
(env_posix.cc:80-90), `Insert`/`Remove` of the lock table (env_posix.cc:475-485). -/
inductive Cmd where
  | open (m : Mode) (path : Bytes)
  | close (fd : Int)
  | read (fd : Int) (n : Nat)
  | pread (fd : Int) (n : Nat) (offset : Int)
  | lseek (fd : Int) (offset : Int)
  | write (fd : Int) (d : Bytes)
  | sync (fd : Int)
  | stat (path : Bytes)
  | access (path : Bytes)
  | unlink (path : Bytes)
  | mkdir (path : Bytes)
  | rmdir (path : Bytes)
  | rename (src target : Bytes)
  | mmap (fd : Int) (len : Nat)
  | munmap (m : Nat)
  | other (fd : Int)
  | opendir (path : Bytes)
  | readdir (fd : Int) (rest : List Bytes)
  | fetchSub (l : Lim)
  | fetchAdd (l : Lim)
  | insert (filename : Bytes)
  | remove (filename : Bytes)

/-- What they answer. -/
def Cmd.Resp : Cmd → Type
  | .open _ _ => Except Errno Int
  | .close _ => Except Errno Unit
  | .read _ _ => Except Errno Bytes
  | .pread _ _ _ => Except Errno Bytes
  | .lseek _ _ => Except Errno Nat
  | .write _ _ => Except Errno Nat
  | .sync _ => Except Errno Unit
  | .stat _ => Except Errno Nat
  | .access _ => Except Errno Unit
  | .unlink _ => Except Errno Unit
  | .mkdir _ => Except Errno Unit
  | .rmdir _ => Except Errno Unit
  | .rename _ _ => Except Errno Unit
  | .mmap _ _ => Except Errno Nat
  | .munmap _ => Except Errno Unit
  | .other _ => Except Errno Unit
  | .opendir _ => Except Errno (Int × List Bytes)
  | .readdir _ _ => Option Bytes
  | .fetchSub _ => Int
  | .fetchAdd _ => Int
  | .insert _ => Bool
  | .remove _ => Unit

/-- The members of the Env that calls share (env_posix.cc:761-763). -/
structure Shared where
  locks : List Bytes
  mmap_limiter : Int
  fd_limiter : Int

/-- A limiter. -/
def Shared.lim (s : Shared) : Lim → Int
  | .mmap => s.mmap_limiter
  | .fd => s.fd_limiter

/-- A limiter gets a value. -/
def Shared.setLim (s : Shared) (l : Lim) (v : Int) : Shared :=
  match l with
  | .mmap => { s with mmap_limiter := v }
  | .fd => { s with fd_limiter := v }

/-- A system call: the members of the Env stay. -/
def keep {α : Type} (s : Shared) (x : P α) : P (α × Shared) := fun w =>
  match x w with
  | .done a w => .done (a, s) w
  | .crash w => .crash w
  | .fault f => .fault f

/-- The effect of one step. -/
def Cmd.exec (s : Shared) : (c : Cmd) → P (c.Resp × Shared)
  | .open m path => keep s (sysOpen m path)
  | .close fd => keep s (sysClose fd)
  | .read fd n => keep s (sysRead fd n)
  | .pread fd n offset => keep s (sysPread fd n offset)
  | .lseek fd offset => keep s (sysLseekCur fd offset)
  | .write fd d => keep s (sysWrite fd d)
  | .sync fd => keep s (sysSync fd)
  | .stat path => keep s (sysStat path)
  | .access path => keep s (sysAccess path)
  | .unlink path => keep s (sysUnlink path)
  | .mkdir path => keep s (sysMkdir path)
  | .rmdir path => keep s (sysRmdir path)
  | .rename src target => keep s (sysRename src target)
  | .mmap fd len => keep s (sysMmap fd len)
  | .munmap m => keep s (sysMunmap m)
  | .other _ => keep s sysOther
  | .opendir path => keep s (sysOpendir path)
  | .readdir _ rest => keep s (sysReaddir rest)
  | .fetchSub l => pure (s.lim l, s.setLim l (wrap32 (s.lim l - 1)))
  | .fetchAdd l => pure (s.lim l, s.setLim l (wrap32 (s.lim l + 1)))
  | .insert n => pure ((lockInsert s.locks n).1, { s with locks := (lockInsert s.locks n).2 })
  | .remove n => pure ((), { s with locks := lockRemove s.locks n })

/-- The rest of a call: it returns, takes a step and goes on depending on the answer, has undefined behaviour, or is in a
loop for longer than anybody looks (`fuel` ran out). -/
inductive Prog (α : Type) where
  | ret (a : α)
  | call (c : Cmd) (k : c.Resp → Prog α)
  | fault (f : Fault)
  | spin

/-- One thing after the other. -/
def Prog.bind {α β : Type} : Prog α → (α → Prog β) → Prog β
  | .ret a, f => f a
  | .call c k, f => .call c (fun r => (k r).bind f)
  | .fault e, _ => .fault e
  | .spin, _ => .spin

instance : Monad Prog where
  pure := Prog.ret
  bind := Prog.bind

/-- One step. -/
def Cmd.go (c : Cmd) : Prog c.Resp := .call c .ret

/-- Code without steps. -/
def Prog.ofM {α : Type} : M α → Prog α
  | .ok a => .ret a
  | .error f => .fault f

/-- Run alone. -/
def Prog.run {α : Type} : Prog α → Shared → P (α × Shared)
  | .ret a, s => fun w => .done (a, s) w
  | .call c k, s => fun w =>
    match c.exec s w with
    | .done (r, s) w => (k r).run s w
    | .crash w => .crash w
    | .fault f => .fault f
  | .fault f, _ => fun _ => .fault f
  | .spin, _ => fun _ => .fault .diverges

namespace Conc

/-! ## Limiters -/

/-- `Limiter::Acquire` (env_posix.cc:79-86). -/
def Acquire (l : Lim) : Prog Bool := do
  let old_acquires_allowed : Int ← Cmd.go (.fetchSub l)
  if old_acquires_allowed > 0 then return true
  else do
    let _ ← Cmd.go (.fetchAdd l)
    return false

/-- `Limiter::Release` (env_posix.cc:90). -/
def Release (l : Lim) : Prog Unit := do
  let _ ← Cmd.go (.fetchAdd l)
  return ()

section
variable (strerror : Strerror) (full : Bool) (fuel : Nat)

/-! ## Files -/

/-- The loop of `PosixSequentialFile::Read` (env_posix.cc:113-125). -/
def seqReadLoop (f : SeqFile) (n cap : Nat) : Nat → Prog (St × Option Bytes)
  | 0 => .spin
  | fuel + 1 => do
    let r : Except Errno Bytes ← Cmd.go (.read f.fd n)
    match r with
    | .error e =>
      if e = EINTR then seqReadLoop f n cap fuel
      else return (PosixError strerror f.filename e, none)
    | .ok d =>
      if d.length ≤ cap then return (.ok, some d)
      else .fault .outOfBounds

/-- `PosixSequentialFile::Read` (env_posix.cc:111-127). -/
def seqRead (f : SeqFile) (n cap : Nat) : Prog (St × Option Bytes) := seqReadLoop strerror f n cap fuel

/-- `PosixSequentialFile::Skip` (env_posix.cc:129-134). -/
def seqSkip (f : SeqFile) (n : Nat) : Prog St := do
  let r : Except Errno Nat ← Cmd.go (.lseek f.fd (toOff n))
  match r with
  | .error e => return PosixError strerror f.filename e
  | .ok _ => return .ok

/-- `PosixRandomAccessFile(filename, fd, fd_limiter)` (env_posix.cc:150-159). -/
def newRandFile (filename : Bytes) (fd : Int) : Prog RandFile := do
  let has_permanent_fd ← Acquire .fd
  let fd_ := if has_permanent_fd then fd else -1
  if has_permanent_fd then return ⟨has_permanent_fd, fd_, filename⟩
  else do
    Prog.ofM (cassert (decide (fd_ = -1)))
    let _ ← Cmd.go (.close fd)
    return ⟨has_permanent_fd, fd_, filename⟩

/-- `~PosixRandomAccessFile` (env_posix.cc:160-166). -/
def randDestroy (f : RandFile) : Prog Unit := do
  if f.has_permanent_fd then do
    Prog.ofM (cassert (decide (f.fd ≠ -1)))
    let _ ← Cmd.go (.close f.fd)
    Release .fd
  else return ()

/-- The descriptor `PosixRandomAccessFile::Read` reads from (env_posix.cc:171-178). -/
def randFd (f : RandFile) : Prog (Except Errno Int) :=
  if f.has_permanent_fd then .ret (.ok f.fd) else Cmd.go (.open .rdonly f.filename)

/-- What `PosixRandomAccessFile::Read` makes of the result of `pread` (env_posix.cc:184-187). -/
def randRes (f : RandFile) (cap : Nat) : Except Errno Bytes → Prog (St × Option Bytes)
  | .error e => .ret (PosixError strerror f.filename e, some [])
  | .ok d => if d.length ≤ cap then .ret (St.ok, some d) else .fault .outOfBounds

/-- `PosixRandomAccessFile::Read` (env_posix.cc:168-193). -/
def randRead (f : RandFile) (offset n cap : Nat) : Prog (St × Option Bytes) := do
  let fd ← randFd f
  match fd with
  | .error e => return (PosixError strerror f.filename e, none)
  | .ok fd => do
    Prog.ofM (cassert (decide (fd ≠ -1)))
    let r : Except Errno Bytes ← Cmd.go (.pread fd n (toOff offset))
    let res ← randRes strerror f cap r
    if f.has_permanent_fd then return res
    else do
      Prog.ofM (cassert (decide (fd ≠ f.fd)))
      let _ ← Cmd.go (.close fd)
      return res

/-- `~PosixMmapReadableFile` (env_posix.cc:223-226). -/
def mmapDestroy (f : MmapFile) : Prog Unit := do
  let _ ← Cmd.go (.munmap f.mmap_base)
  Release .mmap

/-- The loop of `WriteUnbuffered` (env_posix.cc:331-344). -/
def writeLoop (fd : Int) (filename : Bytes) : Nat → Bytes → Prog St
  | 0, _ => .spin
  | fuel + 1, data =>
    if data.length > 0 then do
      let r : Except Errno Nat ← Cmd.go (.write fd data)
      match r with
      | .error e =>
        if e = EINTR then writeLoop fd filename fuel data
        else return PosixError strerror filename e
      | .ok n => writeLoop fd filename fuel (data.drop n)
    else return .ok

/-- `PosixWritableFile::WriteUnbuffered` (env_posix.cc:331-344). -/
def WriteUnbuffered (f : WFile) (data : Bytes) : Prog St := writeLoop strerror f.fd f.filename fuel data

/-- `PosixWritableFile::FlushBuffer` (env_posix.cc:325-329). -/
def FlushBuffer (f : WFile) : Prog (St × WFile) := do
  let d ← Prog.ofM (f.buf.load f.pos)
  let status ← WriteUnbuffered strerror fuel f d
  return (status, { f with pos := 0 })

/-- The end of `PosixWritableFile::Append` (env_posix.cc:277-288). -/
def appendRest (f : WFile) (write_data : Bytes) (write_size : Nat) : Prog (St × WFile) :=
  if write_size < kWritableFileBufferSize then do
    let buf ← Prog.ofM (f.buf.store 0 write_data)
    return (.ok, { f with buf := buf, pos := write_size })
  else do
    let status ← WriteUnbuffered strerror fuel f write_data
    return (status, f)

/-- `PosixWritableFile::Append` (env_posix.cc:262-289). -/
def Append (f : WFile) (data : Slice) : Prog (St × WFile) := do
  let write_size := data.len
  let bytes ← Prog.ofM data.toString
  let copy_size := min write_size (kWritableFileBufferSize - f.pos)
  let buf ← Prog.ofM (f.buf.store f.pos (bytes.take copy_size))
  let write_data := bytes.drop copy_size
  let write_size := write_size - copy_size
  let f := { f with buf := buf, pos := f.pos + copy_size }
  if write_size = 0 then return (.ok, f)
  else do
    let (status, f) ← FlushBuffer strerror fuel f
    if status ≠ .ok then return (status, f)
    else appendRest strerror fuel f write_data write_size

/-- `PosixWritableFile::Close` (env_posix.cc:291-301). -/
def Close (f : WFile) : Prog (St × WFile) := do
  let (status, f) ← FlushBuffer strerror fuel f
  let close_result : Except Errno Unit ← Cmd.go (.close f.fd)
  let status := match close_result with
    | .error e => if status = .ok then PosixError strerror f.filename e else status
    | .ok _ => status
  return (status, { f with fd := -1 })

/-- `F_FULLFSYNC` (env_posix.cc:369-374). -/
def fullSync (fd : Int) : Prog (Except Errno Unit) := if full then Cmd.go (.sync fd) else .ret (.error EINVAL)

/-- `PosixWritableFile::SyncFd` (env_posix.cc:368-389). -/
def SyncFd (fd : Int) (fd_path : Bytes) : Prog St := do
  let r ← fullSync full fd
  match r with
  | .ok _ => return .ok
  | .error _ => do
    let r : Except Errno Unit ← Cmd.go (.sync fd)
    match r with
    | .ok _ => return .ok
    | .error e => return PosixError strerror fd_path e

/-- `PosixWritableFile::SyncDirIfManifest` (env_posix.cc:346-360). -/
def SyncDirIfManifest (f : WFile) : Prog St :=
  if f.is_manifest then do
    let r : Except Errno Int ← Cmd.go (.open .rdonly f.dirname)
    match r with
    | .error e => return PosixError strerror f.dirname e
    | .ok fd => do
      let status ← SyncFd strerror full fd f.dirname
      let _ ← Cmd.go (.close fd)
      return status
  else return .ok

/-- `PosixWritableFile::Sync` (env_posix.cc:305-322). -/
def Sync (f : WFile) : Prog (St × WFile) := do
  let status ← SyncDirIfManifest strerror full f
  if status ≠ .ok then return (status, f)
  else do
    let (status, f) ← FlushBuffer strerror fuel f
    if status ≠ .ok then return (status, f)
    else do
      let status ← SyncFd strerror full f.fd f.filename
      return (status, f)

/-- One call on a writable file. -/
def wstep (f : WFile) : WOp → Prog (St × WFile)
  | .append d => Append strerror fuel f d
  | .flush => FlushBuffer strerror fuel f
  | .sync => Sync strerror full fuel f
  | .close => Close strerror fuel f

/-- `~PosixWritableFile` (env_posix.cc:255-260). -/
def wDestroy (f : WFile) : Prog Unit := do
  if f.fd ≥ 0 then do
    let _ ← Close strerror fuel f
    return ()
  else return ()

/-! ## PosixEnv -/

/-- What a call hands over when it returns: a new object (with status OK), or an answer and what became of the object it was
made on. -/
inductive Fin where
  | new (o : Obj)
  | back (o : Option Obj) (r : PRes)

/-- An answer of a call that has no object. -/
def Fin.ans (r : PRes) : Fin := .back none r

/-- An open call that failed. -/
def Fin.failed (s : St) : Fin := .back none (.opened s none)

/-- `NewSequentialFile` (env_posix.cc:502-512). -/
def NewSequentialFile (filename : Bytes) : Prog Fin := do
  let r : Except Errno Int ← Cmd.go (.open .rdonly filename)
  match r with
  | .error err => return .failed (PosixError strerror filename err)
  | .ok fd => return .new (.seq ⟨fd, filename⟩)

/-- `GetFileSize` (env_posix.cc:616-624). -/
def GetFileSize (filename : Bytes) : Prog (St × Nat) := do
  let r : Except Errno Nat ← Cmd.go (.stat filename)
  match r with
  | .error err => return (PosixError strerror filename err, 0)
  | .ok n => return (.ok, n)

/-- The mapping of `NewRandomAccessFile` (env_posix.cc:528-540). -/
def mapFile (fd : Int) (filename : Bytes) : Prog (St × Option Obj) := do
  let (status, file_size) ← GetFileSize strerror filename
  if status = .ok then do
    let r : Except Errno Nat ← Cmd.go (.mmap fd file_size)
    match r with
    | .ok mmap_base => return (.ok, some (.mmap ⟨mmap_base, file_size, filename⟩))
    | .error err => return (PosixError strerror filename err, none)
  else return (status, none)

/-- `NewRandomAccessFile` (env_posix.cc:514-546). -/
def NewRandomAccessFile (filename : Bytes) : Prog Fin := do
  let r : Except Errno Int ← Cmd.go (.open .rdonly filename)
  match r with
  | .error err => return .failed (PosixError strerror filename err)
  | .ok fd => do
    let acquired ← Acquire .mmap
    if acquired then do
      let (status, result) ← mapFile strerror fd filename
      let _ ← Cmd.go (.close fd)
      match result with
      | some o => return .new o
      | none => do
        Release .mmap
        return .failed status
    else do
      let f ← newRandFile filename fd
      return .new (.rand f)

/-- `NewWritableFile` (env_posix.cc:548-560) and `NewAppendableFile` (env_posix.cc:562-574). -/
def newWFile (m : Mode) (filename : Bytes) : Prog Fin := do
  let r : Except Errno Int ← Cmd.go (.open m filename)
  match r with
  | .error err => return .failed (PosixError strerror filename err)
  | .ok fd => do
    let f ← Prog.ofM (WFile.new filename fd)
    return .new (.wr f)

/-- `FileExists` (env_posix.cc:576-578). -/
def FileExists (filename : Bytes) : Prog Bool := do
  let r : Except Errno Unit ← Cmd.go (.access filename)
  match r with
  | .ok _ => return true
  | .error _ => return false

/-- The loop of `GetChildren` (env_posix.cc:588-590). -/
def readdirLoop (fd : Int) : Nat → List Bytes → List Bytes → Prog (List Bytes)
  | 0, _, _ => .spin
  | fuel + 1, rest, result => do
    let r : Option Bytes ← Cmd.go (.readdir fd rest)
    match r with
    | none => return result
    | some d => readdirLoop fd fuel rest.tail (result ++ [d])

/-- `GetChildren` (env_posix.cc:580-593). -/
def GetChildren (directory_path : Bytes) : Prog (St × List Bytes) := do
  let r : Except Errno (Int × List Bytes) ← Cmd.go (.opendir directory_path)
  match r with
  | .error err => return (PosixError strerror directory_path err, [])
  | .ok (fd, entries) => do
    let l ← readdirLoop fd fuel entries []
    let _ ← Cmd.go (.close fd)
    return (.ok, l)

/-- `RemoveFile` (env_posix.cc:595-600). -/
def RemoveFile (filename : Bytes) : Prog St := do
  let r : Except Errno Unit ← Cmd.go (.unlink filename)
  return statusOf strerror filename r

/-- `CreateDir` (env_posix.cc:602-607). -/
def CreateDir (dirname : Bytes) : Prog St := do
  let r : Except Errno Unit ← Cmd.go (.mkdir dirname)
  return statusOf strerror dirname r

/-- `RemoveDir` (env_posix.cc:609-614). -/
def RemoveDir (dirname : Bytes) : Prog St := do
  let r : Except Errno Unit ← Cmd.go (.rmdir dirname)
  return statusOf strerror dirname r

/-- `RenameFile` (env_posix.cc:626-631). -/
def RenameFile (src target : Bytes) : Prog St := do
  let r : Except Errno Unit ← Cmd.go (.rename src target)
  return statusOf strerror src r

/-- `LockFile` (env_posix.cc:633-655). -/
def LockFile (filename : Bytes) : Prog Fin := do
  let r : Except Errno Int ← Cmd.go (.open .rdwr filename)
  match r with
  | .error err => return .failed (PosixError strerror filename err)
  | .ok fd => do
    let succeeded : Bool ← Cmd.go (.insert filename)
    if succeeded then do
      let r : Except Errno Unit ← Cmd.go (.other fd)
      match r with
      | .error lock_errno => do
        let _ ← Cmd.go (.close fd)
        let _ ← Cmd.go (.remove filename)
        return .failed (PosixError strerror (lit "lock " ++ filename) lock_errno)
      | .ok _ => return .new (.lock fd filename)
    else do
      let _ ← Cmd.go (.close fd)
      return .failed (.err .ioError (lit "lock " ++ filename) (lit "already held by process"))

/-- `UnlockFile` (env_posix.cc:657-669) of the lock with this descriptor and name. -/
def UnlockFile (fd : Int) (filename : Bytes) : Prog Fin := do
  let r : Except Errno Unit ← Cmd.go (.other fd)
  match r with
  | .error err => return .back (some (.lock fd filename)) (.status (PosixError strerror (lit "unlock " ++ filename) err))
  | .ok _ => do
    let _ ← Cmd.go (.remove filename)
    let _ ← Cmd.go (.close fd)
    return .back none (.status .ok)

/-- `NewLogger` (env_posix.cc:701-719). -/
def NewLogger (filename : Bytes) : Prog Fin := do
  let r : Except Errno Int ← Cmd.go (.open .append filename)
  match r with
  | .error err => return .failed (PosixError strerror filename err)
  | .ok fd => do
    let r : Except Errno Unit ← Cmd.go (.other fd)
    match r with
    | .error err => do
      let r : Except Errno Unit ← Cmd.go (.close fd)
      match r with
      | .error err => return .failed (PosixError strerror filename err)
      | .ok _ => return .failed (PosixError strerror filename err)
    | .ok _ => return .new (.logger fd)

/-- `delete` of an object (destructors: env_posix.cc:109, 160-166, 223-226, 255-260; posix_logger.h:30). -/
def destroy : Obj → Prog Unit
  | .seq f => do let _ ← Cmd.go (.close f.fd)
  | .rand f => randDestroy f
  | .mmap f => mmapDestroy f
  | .wr f => wDestroy strerror fuel f
  | .logger fd => do let _ ← Cmd.go (.close fd)
  | .lock _ _ => .fault .outOfBounds

/-- A call on the object `o` (if it has one). -/
def body : POp → Option Obj → Prog Fin
  | .newSequential n, _ => NewSequentialFile strerror n
  | .newRandomAccess n, _ => NewRandomAccessFile strerror n
  | .newWritable n, _ => newWFile strerror .trunc n
  | .newAppendable n, _ => newWFile strerror .append n
  | .newLogger n, _ => NewLogger strerror n
  | .fileExists n, _ => do return .ans (.bool (← FileExists n))
  | .getChildren d, _ => do let (s, l) ← GetChildren strerror fuel d; return .ans (.list s l)
  | .removeFile n, _ => do return .ans (.status (← RemoveFile strerror n))
  | .createDir n, _ => do return .ans (.status (← CreateDir strerror n))
  | .removeDir n, _ => do return .ans (.status (← RemoveDir strerror n))
  | .getFileSize n, _ => do let (s, v) ← GetFileSize strerror n; return .ans (.size s v)
  | .renameFile a b, _ => do return .ans (.status (← RenameFile strerror a b))
  | .lockFile n, _ => LockFile strerror n
  | .unlockFile _, some (.lock fd n) => UnlockFile strerror fd n
  | .seqRead _ n, some (.seq f) => do
    let (s, d) ← seqRead strerror fuel f n n
    return .back (some (.seq f)) (.data s d)
  | .seqSkip _ n, some (.seq f) => do
    let s ← seqSkip strerror f n
    return .back (some (.seq f)) (.status s)
  | .randRead _ offset n, some (.rand f) => do
    let (s, d) ← randRead strerror f offset n n
    return .ans (.data s d)
  | .randRead _ offset n, some (.mmap f) => let (s, v) := f.Read strerror offset n; return .ans (.view s v)
  | .write _ op, some (.wr f) => do
    let (s, f) ← wstep strerror full fuel f op
    return .back (some (.wr f)) (.status s)
  | .delete _, some o => do
    destroy strerror fuel o
    return .back none .unit
  | _, _ => .fault .outOfBounds

end

/-! ## Threads -/

/-- The object a call is made on. -/
def handle : POp → Option Nat
  | .unlockFile h => some h
  | .seqRead h _ => some h
  | .seqSkip h _ => some h
  | .randRead h _ _ => some h
  | .write h _ => some h
  | .delete h => some h
  | _ => none

/-- Calls that other threads may make at the same time on the same object (`RandomAccessFile::Read`: env.h:72, 218). -/
def isShared : POp → Bool
  | .randRead _ _ _ => true
  | _ => false

/-- What a running call uses: no object, an object that is its own meanwhile, an object that others may read too. -/
inductive Home where
  | none
  | own (h : Nat)
  | reads (h : Nat)
  deriving DecidableEq

/-- A thread: outside of the Env, or in a call. -/
inductive Thread where
  | idle
  | run (home : Home) (p : Prog Fin)

/-- The process: the world, the Env, the objects of the clients that no call has for itself, the threads. -/
structure Conf where
  w : World
  sh : Shared
  objs : List (Option Obj)
  th : List Thread

/-- At the start: an Env with these limits, `n` threads (env_posix.cc:789-793). -/
def Conf.init (w : World) (L1 L2 : Int) (n : Nat) : Conf := ⟨w, ⟨[], L1, L2⟩, [], List.replicate n .idle⟩

/-- What a thread uses. -/
def Thread.home : Thread → Home
  | .idle => .none
  | .run h _ => h

/-- A client may make the call: it has the object, the object is of the right kind, and unless the call is one that may
overlap others nobody else uses the object (`handles` it still has are in `objs` unless a call has it for itself). -/
def Conf.Allowed (c : Conf) (op : POp) : Prop :=
  (∀ h d, op = .write h (.append d) → d.WF) ∧
  match op with
  | .unlockFile h => ∃ fd n, c.objs[h]? = some (some (.lock fd n))
  | .seqRead h _ => ∃ f, c.objs[h]? = some (some (.seq f))
  | .seqSkip h _ => ∃ f, c.objs[h]? = some (some (.seq f))
  | .randRead h _ _ => (∃ f, c.objs[h]? = some (some (.rand f))) ∨ ∃ f, c.objs[h]? = some (some (.mmap f))
  | .write h _ => ∃ f, c.objs[h]? = some (some (.wr f))
  | .delete h => (∃ o, c.objs[h]? = some (some o) ∧ ∀ fd n, o ≠ .lock fd n) ∧ ∀ t ∈ c.th, t.home ≠ .reads h
  | _ => True

/-- The object of a call, and where the call has it from. -/
def Conf.objOf (c : Conf) (op : POp) : Option Obj := (handle op).bind (fun h => (c.objs[h]?).join)

/-- Where the object of a call is from. -/
def homeOf (op : POp) : Home :=
  match handle op with
  | none => .none
  | some h => if isShared op then .reads h else .own h

/-- A thread makes a call. -/
def Conf.begin (strerror : Strerror) (full : Bool) (fuel : Nat) (c : Conf) (t : Nat) (op : POp) : Conf :=
  { c with
    objs := match homeOf op with
      | .own h => c.objs.set h none
      | _ => c.objs
    th := c.th.set t (.run (homeOf op) (body strerror full fuel op (c.objOf op))) }

/-- A thread returns; the answer. -/
def Conf.finish (c : Conf) (t : Nat) (home : Home) : Fin → Conf × PRes
  | .new o => ({ c with objs := c.objs ++ [some o], th := c.th.set t .idle }, .opened .ok (some c.objs.length))
  | .back o r =>
    ({ c with
       objs := match home with
         | .own h => c.objs.set h o
         | _ => c.objs
       th := c.th.set t .idle }, r)

/-- What the clients see. -/
inductive Ev where
  | call (t : Nat) (op : POp)
  | ret (t : Nat) (r : PRes)

/-- One step of one thread. -/
inductive Step (strerror : Strerror) (full : Bool) : Conf → Option Ev → Conf → Prop
  | call (c : Conf) (t : Nat) (op : POp) (fuel : Nat) (h : c.th[t]? = some .idle) (ha : c.Allowed op) :
      Step strerror full c (some (.call t op)) (c.begin strerror full fuel t op)
  | move (c : Conf) (t : Nat) (home : Home) (cmd : Cmd) (k : cmd.Resp → Prog Fin) (r : cmd.Resp) (sh : Shared) (w : World)
      (h : c.th[t]? = some (.run home (.call cmd k))) (he : cmd.exec c.sh c.w = .done (r, sh) w) :
      Step strerror full c none { c with w := w, sh := sh, th := c.th.set t (.run home (k r)) }
  | ret (c : Conf) (t : Nat) (home : Home) (a : Fin) (h : c.th[t]? = some (.run home (.ret a))) :
      Step strerror full c (some (.ret t (c.finish t home a).2)) (c.finish t home a).1

/-- Runs, with the calls and returns in them in order. -/
inductive Run (strerror : Strerror) (full : Bool) : Conf → List Ev → Conf → Prop
  | nil (c : Conf) : Run strerror full c [] c
  | step {c c' c'' : Conf} {es : List Ev} {e : Option Ev} (h : Run strerror full c es c') (h' : Step strerror full c' e c'') :
      Run strerror full c (es ++ e.toList) c''

end Conc
end Posix
end Lsmdb
