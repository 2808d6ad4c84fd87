import Verif.Model.PosixEnv

/-!
# Model of `LockFile` and `UnlockFile` with many processes and threads (util/env_posix.cc:440-490, 633-669)

Thread `(p, k)` is thread `k` of process `p`.  A step is one system call, one operation on the lock table (which
its mutex makes atomic), or the entry into or the return from a call.  The kernel's `fcntl` locks belong to a
process and a file; a process loses its lock on a file when it closes *any* descriptor of that file (POSIX).

Simplifications.  Which file `open` finds under a name is left open (`ino` is arbitrary at every call), which
covers links, relative paths, removed and renamed files, and names with NUL bytes.  Descriptors are never
reused; that the code closes each exactly once is C54.  Error codes are left out.
-/

namespace Lsmdb
namespace PLock

/-- An open descriptor and the file behind it. -/
structure Fd where
  num : Nat
  ino : Nat
  deriving DecidableEq

/-- `PosixFileLock` (env_posix.cc:452-464) and the process that made it. -/
structure Handle where
  proc : Nat
  name : Bytes
  fd : Fd
  deriving DecidableEq

/-- Where a thread is. -/
inductive Pc where
  | idle
  /-- in `LockFile`, before line 636 -/
  | open (n : Bytes)
  /-- before line 641 -/
  | insert (n : Bytes) (f : Fd)
  /-- before line 642 -/
  | dupClose (n : Bytes) (f : Fd)
  /-- before line 646 -/
  | setlk (n : Bytes) (f : Fd)
  /-- before line 648 -/
  | failClose (n : Bytes) (f : Fd)
  /-- before line 649 -/
  | failRemove (n : Bytes) (f : Fd)
  /-- about to return from `LockFile`, with OK if there is a descriptor -/
  | leaveLock (n : Bytes) (r : Option Fd)
  /-- in `UnlockFile`, before line 662 -/
  | unlck (h : Handle)
  /-- before line 665 -/
  | remove (h : Handle)
  /-- before line 666 -/
  | close (h : Handle)
  /-- about to return from `UnlockFile` -/
  | leaveUnlock (h : Handle) (ok : Bool)
  deriving DecidableEq

/-- What the clients see. -/
inductive Ev where
  | callLock (t : Nat × Nat) (n : Bytes)
  | lockFails (t : Nat × Nat) (n : Bytes)
  | lockOk (t : Nat × Nat) (h : Handle)
  | callUnlock (t : Nat × Nat) (h : Handle)
  | unlockOk (t : Nat × Nat) (h : Handle)
  | unlockFails (t : Nat × Nat) (h : Handle)
  /-- the process ends -/
  | exit (p : Nat)
  /-- the process closes a descriptor of this file that it got in another way, for example with
  NewSequentialFile -/
  | otherClose (p : Nat) (ino : Nat)

/-- The kernel's locks (owner by file), each process's `locked_files_` (env_posix.cc:489), the threads, and the
next descriptor. -/
structure Sys where
  locks : Nat → Option Nat
  table : Nat → Bytes → Bool
  pc : Nat × Nat → Pc
  fresh : Nat

/-- A thread moves on. -/
def Sys.at (s : Sys) (t : Nat × Nat) (p : Pc) : Sys := { s with pc := fun u => if u = t then p else s.pc u }

/-- Insert into or remove from the lock table of a process (env_posix.cc:475-485). -/
def Sys.setTable (s : Sys) (p : Nat) (n : Bytes) (b : Bool) : Sys :=
  { s with table := fun q m => if q = p ∧ m = n then b else s.table q m }

/-- The kernel sets or drops the lock of a file. -/
def Sys.setLock (s : Sys) (ino : Nat) (o : Option Nat) : Sys :=
  { s with locks := fun i => if i = ino then o else s.locks i }

/-- Process `p` gives up its lock on the file, if it has it: `fcntl(F_UNLCK)`, or `close` of any descriptor. -/
def Sys.drop (s : Sys) (p ino : Nat) : Sys := if s.locks ino = some p then s.setLock ino none else s

/-- Nothing is locked. -/
def Sys.init : Sys := ⟨fun _ => none, fun _ _ => false, fun _ => .idle, 0⟩

/-- One step. -/
inductive Step : Sys → Option Ev → Sys → Prop
  /-- a client calls `LockFile` -/
  | callLock (s : Sys) (t : Nat × Nat) (n : Bytes) (h : s.pc t = .idle) : Step s (some (.callLock t n)) (s.at t (.open n))
  /-- `int fd = ::open(filename.c_str(), O_RDWR | O_CREAT | kOpenBaseFlags, 0644);` (636) -/
  | openOk (s : Sys) (t : Nat × Nat) (n : Bytes) (ino : Nat) (h : s.pc t = .open n) :
      Step s none ({ s with fresh := s.fresh + 1 }.at t (.insert n ⟨s.fresh, ino⟩))
  /-- `if (fd < 0) return PosixError(filename, errno);` (637-639) -/
  | openFails (s : Sys) (t : Nat × Nat) (n : Bytes) (h : s.pc t = .open n) : Step s none (s.at t (.leaveLock n none))
  /-- `locks_.Insert(filename)` (641, 475-480) -/
  | insert (s : Sys) (t : Nat × Nat) (n : Bytes) (f : Fd) (h : s.pc t = .insert n f) :
      Step s none ((s.setTable t.1 n true).at t (if s.table t.1 n then .dupClose n f else .setlk n f))
  /-- `::close(fd); return Status::IOError(...);` (642-643) -/
  | dupClose (s : Sys) (t : Nat × Nat) (n : Bytes) (f : Fd) (h : s.pc t = .dupClose n f) :
      Step s none ((s.drop t.1 f.ino).at t (.leaveLock n none))
  /-- `LockOrUnlock(fd, true)` (646, 440-449): possible when no other process has the lock -/
  | setlkOk (s : Sys) (t : Nat × Nat) (n : Bytes) (f : Fd) (h : s.pc t = .setlk n f) (hf : s.locks f.ino = none ∨ s.locks f.ino = some t.1) :
      Step s none ((s.setLock f.ino (some t.1)).at t (.leaveLock n (some f)))
  /-- `LockOrUnlock(fd, true)` (646): fails when another process has the lock, and for other reasons -/
  | setlkFails (s : Sys) (t : Nat × Nat) (n : Bytes) (f : Fd) (h : s.pc t = .setlk n f) : Step s none (s.at t (.failClose n f))
  /-- `::close(fd);` (648) -/
  | failClose (s : Sys) (t : Nat × Nat) (n : Bytes) (f : Fd) (h : s.pc t = .failClose n f) :
      Step s none ((s.drop t.1 f.ino).at t (.failRemove n f))
  /-- `locks_.Remove(filename); return PosixError(...);` (649-650) -/
  | failRemove (s : Sys) (t : Nat × Nat) (n : Bytes) (f : Fd) (h : s.pc t = .failRemove n f) :
      Step s none ((s.setTable t.1 n false).at t (.leaveLock n none))
  /-- `LockFile` fails -/
  | lockFails (s : Sys) (t : Nat × Nat) (n : Bytes) (h : s.pc t = .leaveLock n none) : Step s (some (.lockFails t n)) (s.at t .idle)
  /-- `*lock = new PosixFileLock(fd, filename); return Status::OK();` (653-654) -/
  | lockOk (s : Sys) (t : Nat × Nat) (n : Bytes) (f : Fd) (h : s.pc t = .leaveLock n (some f)) :
      Step s (some (.lockOk t ⟨t.1, n, f⟩)) (s.at t .idle)
  /-- a client calls `UnlockFile` -/
  | callUnlock (s : Sys) (t : Nat × Nat) (l : Handle) (h : s.pc t = .idle) : Step s (some (.callUnlock t l)) (s.at t (.unlck l))
  /-- `LockOrUnlock(posix_file_lock->fd(), false)` (662) -/
  | unlckOk (s : Sys) (t : Nat × Nat) (l : Handle) (h : s.pc t = .unlck l) : Step s none ((s.drop t.1 l.fd.ino).at t (.remove l))
  /-- `return PosixError(...);` (663) -/
  | unlckFails (s : Sys) (t : Nat × Nat) (l : Handle) (h : s.pc t = .unlck l) : Step s none (s.at t (.leaveUnlock l false))
  /-- `locks_.Remove(posix_file_lock->filename());` (665) -/
  | remove (s : Sys) (t : Nat × Nat) (l : Handle) (h : s.pc t = .remove l) :
      Step s none ((s.setTable t.1 l.name false).at t (.close l))
  /-- `::close(posix_file_lock->fd());` (666) -/
  | close (s : Sys) (t : Nat × Nat) (l : Handle) (h : s.pc t = .close l) :
      Step s none ((s.drop t.1 l.fd.ino).at t (.leaveUnlock l true))
  /-- `UnlockFile` returns -/
  | unlockOk (s : Sys) (t : Nat × Nat) (l : Handle) (h : s.pc t = .leaveUnlock l true) : Step s (some (.unlockOk t l)) (s.at t .idle)
  /-- `UnlockFile` fails -/
  | unlockFails (s : Sys) (t : Nat × Nat) (l : Handle) (h : s.pc t = .leaveUnlock l false) :
      Step s (some (.unlockFails t l)) (s.at t .idle)
  /-- a process ends: its threads, its table, its descriptors and its locks are gone -/
  | exit (s : Sys) (p : Nat) :
      Step s (some (.exit p))
        { s with
          locks := fun i => if s.locks i = some p then none else s.locks i
          table := fun q n => if q = p then false else s.table q n
          pc := fun t => if t.1 = p then .idle else s.pc t }
  /-- some other code of the process closes a descriptor of the file -/
  | otherClose (s : Sys) (p ino : Nat) : Step s (some (.otherClose p ino)) (s.drop p ino)

end PLock
end Lsmdb
