import Verif.Model.Kernel
import Verif.Model.MemEnv

/-!
# Model of the file classes of `util/env_posix.cc` (lines 39-464)

The code runs over the system calls of `Model/Kernel`.  `std::strerror` is the parameter `strerror`.
Statuses are `MemEnv.St`.
-/

namespace Lsmdb
namespace Posix

open MemEnv (St lit)

/-- A system call failure can be an error number; `errno` is thread-local and read directly after the
failing call, so the model returns it with the failure. -/
abbrev Strerror := Errno → Bytes

/-- `PosixError` (env_posix.cc:59-65). -/
def PosixError (strerror : Strerror) (context : Bytes) (error_number : Errno) : St :=
  if error_number = ENOENT then .err .notFound context (strerror error_number)
  else .err .ioError context (strerror error_number)

/-! ## Limiter, one call at a time -/

/-- The value of an `int` after wrap-around (`std::atomic<int>` arithmetic wraps). -/
def wrap32 (x : Int) : Int := (x + 2147483648) % 4294967296 - 2147483648

/-- `Limiter::Acquire` (env_posix.cc:79-86) not overlapping another call: result and new
`acquires_allowed_`. -/
def Limiter.Acquire (acquires_allowed : Int) : Bool × Int :=
  let old_acquires_allowed := acquires_allowed
  let acquires_allowed := wrap32 (acquires_allowed - 1)
  if old_acquires_allowed > 0 then (true, acquires_allowed)
  else (false, wrap32 (acquires_allowed + 1))

/-- `Limiter::Release` (env_posix.cc:90). -/
def Limiter.Release (acquires_allowed : Int) : Int := wrap32 (acquires_allowed + 1)

/-! ## PosixSequentialFile -/

/-- `class PosixSequentialFile` (env_posix.cc:104-139). -/
structure SeqFile where
  fd : Int
  filename : Bytes
  deriving DecidableEq

/-- The loop of `PosixSequentialFile::Read` (env_posix.cc:113-125). -/
def seqReadLoop (strerror : Strerror) (f : SeqFile) (n cap : Nat) : Nat → P (St × Option Bytes)
  | 0 => fun _ => .fault .diverges
  | fuel + 1 => do
    match ← sysRead f.fd n with
    | .error e =>
      if e = EINTR then seqReadLoop strerror f n cap fuel
      else return (PosixError strerror f.filename e, none)
    | .ok d =>
      if d.length ≤ cap then return (.ok, some d)
      else pureM (.error .outOfBounds)

/-- `PosixSequentialFile::Read` (env_posix.cc:111-127): status and new `*result` (`none`: not assigned).
`cap` is the size of the object `scrach` points to.  The loop makes one system call per iteration, so it
cannot make more iterations than there are system calls before the crash. -/
def SeqFile.Read (strerror : Strerror) (f : SeqFile) (n cap : Nat) : P (St × Option Bytes) :=
  fun w => seqReadLoop strerror f n cap (w.choices.length + 1) w

/-- Conversion of a `uint64_t` to `off_t` (64 bits, two's complement). -/
def toOff (n : Nat) : Int := if n % 2 ^ 64 < 2 ^ 63 then (n % 2 ^ 64 : Nat) else (n % 2 ^ 64 : Nat) - 2 ^ 64

/-- `PosixSequentialFile::Skip` (env_posix.cc:129-134). -/
def SeqFile.Skip (strerror : Strerror) (f : SeqFile) (n : Nat) : P St := do
  match ← sysLseekCur f.fd (toOff n) with
  | .error e => return PosixError strerror f.filename e
  | .ok _ => return .ok

/-! ## PosixRandomAccessFile -/

/-- `class PosixRandomAccessFile` (env_posix.cc:146-200). -/
structure RandFile where
  has_permanent_fd : Bool
  fd : Int
  filename : Bytes
  deriving DecidableEq

/-- `PosixRandomAccessFile(filename, fd, fd_limiter)` (env_posix.cc:150-159): the object and the new
counter of the limiter. -/
def RandFile.new (filename : Bytes) (fd : Int) (fd_limiter : Int) : P (RandFile × Int) := do
  let (has_permanent_fd, fd_limiter) := Limiter.Acquire fd_limiter
  let fd_ := if has_permanent_fd then fd else -1
  if has_permanent_fd then return (⟨has_permanent_fd, fd_, filename⟩, fd_limiter)
  else do
    pureM (cassert (decide (fd_ = -1)))
    let _ ← sysClose fd
    return (⟨has_permanent_fd, fd_, filename⟩, fd_limiter)

/-- `~PosixRandomAccessFile` (env_posix.cc:160-166). -/
def RandFile.destroy (f : RandFile) (fd_limiter : Int) : P Int := do
  if f.has_permanent_fd then do
    pureM (cassert (decide (f.fd ≠ -1)))
    let _ ← sysClose f.fd
    return Limiter.Release fd_limiter
  else return fd_limiter

/-- `PosixRandomAccessFile::Read` (env_posix.cc:168-193). -/
def RandFile.Read (strerror : Strerror) (f : RandFile) (offset n cap : Nat) : P (St × Option Bytes) := do
  let fd ← if f.has_permanent_fd then pure (Except.ok f.fd) else sysOpen .rdonly f.filename
  match fd with
  | .error e => return (PosixError strerror f.filename e, none)
  | .ok fd => do
    pureM (cassert (decide (fd ≠ -1)))
    let r ← sysPread fd n (toOff offset)
    let res ← match r with
      | .error e => pure (PosixError strerror f.filename e, some [])
      | .ok d => if d.length ≤ cap then pure (St.ok, some d) else pureM (.error .outOfBounds)
    if f.has_permanent_fd then return res
    else do
      pureM (cassert (decide (fd ≠ f.fd)))
      let _ ← sysClose fd
      return res

/-! ## PosixMmapReadableFile -/

/-- `class PosixMmapReadableFile` (env_posix.cc:207-244); `mmap_base_` is the mapping it was given. -/
structure MmapFile where
  mmap_base : Nat
  length : Nat
  filename : Bytes
  deriving DecidableEq

/-- `*result` of `PosixMmapReadableFile::Read`: no bytes, or `n` bytes at `mmap_base_ + offset`. -/
inductive MmapSlice where
  | empty
  | view (base offset n : Nat)
  deriving DecidableEq

/-- `PosixMmapReadableFile::Read` (env_posix.cc:228-237), `uint64_t` arithmetic. -/
def MmapFile.Read (strerror : Strerror) (f : MmapFile) (offset n : Nat) : St × MmapSlice :=
  if (offset + n) % 2 ^ 64 > f.length then (PosixError strerror f.filename EINVAL, .empty)
  else (.ok, .view f.mmap_base offset n)

/-- `~PosixMmapReadableFile` (env_posix.cc:223-226). -/
def MmapFile.destroy (f : MmapFile) (mmap_limiter : Int) : P Int := do
  let _ ← sysMunmap f.mmap_base
  return Limiter.Release mmap_limiter

/-! ## PosixWritableFile -/

/-- `kWritableFileBufferSize` (env_posix.cc:57). -/
def kWritableFileBufferSize : Nat := 65536

/-- `char buf_[kWritableFileBufferSize]` (env_posix.cc:431): cells are `none` until written. -/
abbrev WBuf := Nat → Option UInt8

/-- `memcpy` of `d` to `buf_ + off`. -/
def WBuf.store (b : WBuf) (off : Nat) (d : Bytes) : M WBuf :=
  if off + d.length ≤ kWritableFileBufferSize then
    .ok (fun i => if off ≤ i ∧ i < off + d.length then d[i - off]? else b i)
  else .error .outOfBounds

/-- The bytes `buf_[0, n - 1]`, as `write` is about to read them. -/
def WBuf.load (b : WBuf) : Nat → M Bytes
  | 0 => .ok []
  | n + 1 => do
    let d ← WBuf.load b n
    if n < kWritableFileBufferSize then
      match b n with
      | some x => return d ++ [x]
      | none => .error .uninit
    else .error .outOfBounds

/-- `class PosixWritableFile` (env_posix.cc:246-438). -/
structure WFile where
  buf : WBuf
  pos : Nat
  fd : Int
  is_manifest : Bool
  filename : Bytes
  dirname : Bytes

/-- `std::string::rfind('/')` (C++ library): index of the last separator. -/
def rfindSlash (filename : Bytes) : Option Nat :=
  let after := (filename.reverse.takeWhile (fun b => b ≠ 47)).length
  if after = filename.length then none else some (filename.length - after - 1)

/-- `find('/', pos) == npos` (C++ library). -/
def noSlashFrom (filename : Bytes) (pos : Nat) : Bool := (filename.drop pos).all (fun b => b ≠ 47)

/-- `PosixWritableFile::Dirname` (env_posix.cc:394-404). -/
def Dirname (filename : Bytes) : M Bytes := do
  match rfindSlash filename with
  | none => return lit "."
  | some separator_pos =>
    cassert (noSlashFrom filename (separator_pos + 1))
    return filename.take separator_pos

/-- `PosixWritableFile::Basename` (env_posix.cc:411-423). -/
def Basename (filename : Bytes) : M Slice := do
  match rfindSlash filename with
  | none => return Slice.ofBytes filename
  | some separator_pos =>
    cassert (noSlashFrom filename (separator_pos + 1))
    return ⟨filename, separator_pos + 1, filename.length - separator_pos - 1⟩

/-- `PosixWritableFile::IsManifest` (env_posix.cc:426-428). -/
def IsManifest (filename : Bytes) : M Bool := do
  Slice.startsWith (← Basename filename) (Slice.ofBytes (lit "MANIFEST"))

/-- `PosixWritableFile(filename, fd)` (env_posix.cc:248-253): members in declaration order. -/
def WFile.new (filename : Bytes) (fd : Int) : M WFile := do
  let is_manifest ← IsManifest filename
  let dirname ← Dirname filename
  return ⟨fun _ => none, 0, fd, is_manifest, filename, dirname⟩

/-- The loop of `WriteUnbuffered` (env_posix.cc:331-344). -/
def writeLoop (strerror : Strerror) (fd : Int) (filename : Bytes) : Nat → Bytes → P St
  | 0, _ => fun _ => .fault .diverges
  | fuel + 1, data =>
    if data.length > 0 then do
      match ← sysWrite fd data with
      | .error e =>
        if e = EINTR then writeLoop strerror fd filename fuel data
        else return PosixError strerror filename e
      | .ok n => writeLoop strerror fd filename fuel (data.drop n)
    else return .ok

/-- `PosixWritableFile::WriteUnbuffered` (env_posix.cc:331-344).  Each iteration makes a system call, so
there are not more of them than system calls before the crash. -/
def WFile.WriteUnbuffered (strerror : Strerror) (f : WFile) (data : Bytes) : P St :=
  fun w => writeLoop strerror f.fd f.filename (w.choices.length + 2) data w

/-- `PosixWritableFile::FlushBuffer` (env_posix.cc:325-329). -/
def WFile.FlushBuffer (strerror : Strerror) (f : WFile) : P (St × WFile) := do
  let d ← pureM (f.buf.load f.pos)
  let status ← f.WriteUnbuffered strerror d
  return (status, { f with pos := 0 })

/-- `PosixWritableFile::Append` (env_posix.cc:262-289). -/
def WFile.Append (strerror : Strerror) (f : WFile) (data : Slice) : P (St × WFile) := do
  let write_size := data.len
  let bytes ← pureM data.toString
  let copy_size := min write_size (kWritableFileBufferSize - f.pos)
  let buf ← pureM (f.buf.store f.pos (bytes.take copy_size))
  let write_data := bytes.drop copy_size
  let write_size := write_size - copy_size
  let f := { f with buf := buf, pos := f.pos + copy_size }
  if write_size = 0 then return (.ok, f)
  else do
    let (status, f) ← f.FlushBuffer strerror
    if status ≠ .ok then return (status, f)
    else if write_size < kWritableFileBufferSize then do
      let buf ← pureM (f.buf.store 0 write_data)
      return (.ok, { f with buf := buf, pos := write_size })
    else do
      let status ← f.WriteUnbuffered strerror write_data
      return (status, f)

/-- `PosixWritableFile::Close` (env_posix.cc:291-301). -/
def WFile.Close (strerror : Strerror) (f : WFile) : P (St × WFile) := do
  let (status, f) ← f.FlushBuffer strerror
  let close_result ← sysClose f.fd
  let status := match close_result with
    | .error e => if status = .ok then PosixError strerror f.filename e else status
    | .ok _ => status
  return (status, { f with fd := -1 })

/-- `PosixWritableFile::Flush` (env_posix.cc:303). -/
def WFile.Flush (strerror : Strerror) (f : WFile) : P (St × WFile) := f.FlushBuffer strerror

/-- `PosixWritableFile::SyncFd` (env_posix.cc:368-389).  `fullfsync` is the build setting
`HAVE_FULLFSYNC`; `fdatasync` and `fsync` are the same call of the model. -/
def SyncFd (strerror : Strerror) (fullfsync : Bool) (fd : Int) (fd_path : Bytes) : P St := do
  let full ← if fullfsync then sysSync fd else pure (.error EINVAL)
  match full with
  | .ok _ => return .ok
  | .error _ =>
    match ← sysSync fd with
    | .ok _ => return .ok
    | .error e => return PosixError strerror fd_path e

/-- `PosixWritableFile::SyncDirIfManifest` (env_posix.cc:346-360). -/
def WFile.SyncDirIfManifest (strerror : Strerror) (fullfsync : Bool) (f : WFile) : P St := do
  if f.is_manifest then do
    match ← sysOpen .rdonly f.dirname with
    | .error e => return PosixError strerror f.dirname e
    | .ok fd => do
      let status ← SyncFd strerror fullfsync fd f.dirname
      let _ ← sysClose fd
      return status
  else return .ok

/-- `PosixWritableFile::Sync` (env_posix.cc:305-322). -/
def WFile.Sync (strerror : Strerror) (fullfsync : Bool) (f : WFile) : P (St × WFile) := do
  let status ← f.SyncDirIfManifest strerror fullfsync
  if status ≠ .ok then return (status, f)
  else do
    let (status, f) ← f.FlushBuffer strerror
    if status ≠ .ok then return (status, f)
    else do
      let status ← SyncFd strerror fullfsync f.fd f.filename
      return (status, f)

/-- `~PosixWritableFile` (env_posix.cc:255-260). -/
def WFile.destroy (strerror : Strerror) (f : WFile) : P Unit := do
  if f.fd ≥ 0 then do
    let _ ← f.Close strerror
    return ()
  else return ()

/-! ## A client of one writable file -/

/-- The calls on a `WritableFile`. -/
inductive WOp where
  | append (data : Slice)
  | flush
  | sync
  | close

/-- One call. -/
def WFile.step (strerror : Strerror) (fullfsync : Bool) (f : WFile) : WOp → P (St × WFile)
  | .append d => f.Append strerror d
  | .flush => f.Flush strerror
  | .sync => f.Sync strerror fullfsync
  | .close => f.Close strerror

/-- A history of calls: the statuses returned. -/
def WFile.run (strerror : Strerror) (fullfsync : Bool) : WFile → List WOp → P (List St × WFile)
  | f, [] => pure ([], f)
  | f, o :: os => do
    let (s, f) ← f.step strerror fullfsync o
    let (ss, f) ← WFile.run strerror fullfsync f os
    return (s :: ss, f)

end Posix
end Lsmdb
