import Verif.Model.Status

/-!
# The operating system as seen by `util/env_posix.cc`

This file is not code of the repository: it is the model of the POSIX system calls the code makes, and
part of the trusted base.  A `World` is what the system and the calling thread hold: the kernel state,
the calls made so far by the thread, and `choices`, which decides every system call still to come: what
the other threads and processes do to the kernel before it (`other`), whether it fails and with which
`errno` (`fail`), and how many bytes a `read` or `write` transfers at most (`count`).  Theorems quantify
over all choices.  When the choices run out, the machine (or process) crashes at that system call; since
user memory does not matter after a crash, every crash point of the program is covered by some length of
`choices`.

Simplifications: a directory tree is flattened to a map from path to inode, and two paths name the same
directory only if they are equal; permissions, missing parent directories, full disks and all other
reasons to fail are covered by `fail`; `close` releases the descriptor even if it fails (Linux).
-/

namespace Lsmdb
namespace Posix

/-- `errno` values (Linux). -/
abbrev Errno := Nat
def ENOENT : Errno := 2
def EINTR : Errno := 4
def EIO : Errno := 5
def EBADF : Errno := 9
def EEXIST : Errno := 17
def ENOTDIR : Errno := 20
def EISDIR : Errno := 21
def EINVAL : Errno := 22
def ENOTEMPTY : Errno := 39
def EOVERFLOW : Errno := 75

/-- A file or directory.  `data` is what `read` sees; `old` are the contents the file had since the last
successful `fsync`/`fdatasync`, with those in the middle of a `write`: a crash can leave any of them. -/
structure Inode where
  dir : Bool
  data : Bytes
  old : List Bytes
  deriving DecidableEq

/-- An open file description. -/
structure Ofd where
  ino : Nat
  off : Nat
  app : Bool
  rd : Bool
  wr : Bool
  deriving DecidableEq

/-- The state of the system, as far as one process can see.  `pend` are the earlier meanings of names
that were not made durable by syncing the directory: a crash can leave any of them. -/
structure Kernel where
  names : List (Bytes × Nat)
  pend : List (Bytes × Option Nat)
  inodes : List Inode
  fds : List (Option Ofd)
  maps : List (Option (Nat × Nat))
  deriving DecidableEq

/-- System calls that matter for ordering properties, with their results (`none`/`false`: failed). -/
inductive Call where
  | open (path : Bytes) (fd : Option Int)
  | close (fd : Int) (err : Option Errno)
  | write (fd : Int) (data : Bytes) (n : Except Errno Nat)
  | sync (fd : Int) (ok : Bool)
  deriving DecidableEq

/-- The value of a system call that did not fail. -/
def val {α : Type} : Except Errno α → Option α
  | .ok a => some a
  | .error _ => none

/-- The error of a system call that failed. -/
def errOf {α : Type} : Except Errno α → Option Errno
  | .ok _ => none
  | .error e => some e

/-- The system call did not fail. -/
def fine {α : Type} : Except Errno α → Bool
  | .ok _ => true
  | .error _ => false

/-- What the rest of the world decides about one system call. -/
structure Choice where
  other : Kernel → Kernel := id
  fail : Option Errno := none
  count : Nat := 0

structure World where
  k : Kernel
  choices : List Choice
  calls : List Call

/-- Outcome of a piece of code that makes system calls: it returns, or the machine crashes on the way,
or the program has undefined behaviour. -/
inductive Out (α : Type) where
  | done (a : α) (w : World)
  | crash (w : World)
  | fault (f : Fault)

/-- Code that makes system calls. -/
def P (α : Type) := World → Out α

instance : Monad P where
  pure a := fun w => .done a w
  bind x f := fun w =>
    match x w with
    | .done a w => f a w
    | .crash w => .crash w
    | .fault e => .fault e

/-- Code that makes no system call but may fault. -/
def pureM {α : Type} (x : M α) : P α := fun w =>
  match x with
  | .ok a => .done a w
  | .error e => .fault e

/-- One system call; `call` is what is recorded of it. -/
def sys {α : Type} (call : α → List Call) (f : Choice → Kernel → α × Kernel) : P α := fun w =>
  match w.choices with
  | [] => .crash w
  | c :: cs =>
    let r := f c (c.other w.k)
    .done r.1 ⟨r.2, cs, w.calls ++ call r.1⟩

/-- Calls that are not recorded. -/
def quiet {α : Type} (_ : α) : List Call := []

/-- `std::string::c_str()` seen as a C string: up to the first NUL. -/
def cstr (s : Bytes) : Bytes := s.takeWhile (fun b => b ≠ 0)

/-- Association lists. -/
def aFind {β : Type} : List (Bytes × β) → Bytes → Option β
  | [], _ => none
  | (k, v) :: r, n => if k = n then some v else aFind r n

def aErase {β : Type} (l : List (Bytes × β)) (n : Bytes) : List (Bytes × β) :=
  l.filter (fun e => decide (e.1 ≠ n))

namespace Kernel

/-- The inode a path names. -/
def lookup (k : Kernel) (p : Bytes) : Option Nat := aFind k.names p

/-- Change the meaning of a name. -/
def setName (k : Kernel) (p : Bytes) (v : Option Nat) : Kernel :=
  { k with names := (match v with | none => [] | some i => [(p, i)]) ++ aErase k.names p
           pend := (p, k.lookup p) :: k.pend }

/-- Lowest unused descriptor. -/
def freeFd : List (Option Ofd) → Nat
  | [] => 0
  | none :: _ => 0
  | some _ :: r => freeFd r + 1

/-- Install an open file description at a descriptor. -/
def putFd (l : List (Option Ofd)) (fd : Nat) (o : Ofd) : List (Option Ofd) :=
  if fd < l.length then l.set fd (some o) else l ++ [some o]

/-- The open file description of a descriptor. -/
def ofd (k : Kernel) (fd : Int) : Option Ofd :=
  if fd < 0 then none else (k.fds[fd.toNat]?).join

/-- The inode a descriptor is open on. -/
def inodeOf (k : Kernel) (fd : Int) : Option Nat := (k.ofd fd).map (·.ino)

/-- The contents of an inode. -/
def data (k : Kernel) (i : Nat) : Bytes := ((k.inodes[i]?).map (·.data)).getD []

end Kernel

/-- `open(2)` modes used by the code: `O_RDONLY`, `O_TRUNC|O_WRONLY|O_CREAT`, `O_APPEND|O_WRONLY|O_CREAT`,
`O_RDWR|O_CREAT`. -/
inductive Mode where
  | rdonly
  | trunc
  | append
  | rdwr
  deriving DecidableEq

/-- `O_CREAT`. -/
def Mode.creat : Mode → Bool
  | .rdonly => false
  | _ => true

/-- A new open file description on inode `i`. -/
def Mode.ofd (m : Mode) (i : Nat) : Ofd :=
  match m with
  | .rdonly => ⟨i, 0, false, true, false⟩
  | .trunc => ⟨i, 0, false, false, true⟩
  | .append => ⟨i, 0, true, false, true⟩
  | .rdwr => ⟨i, 0, false, true, true⟩

/-- `O_TRUNC`. -/
def truncInode (n : Inode) : Inode := { n with data := [], old := n.data :: n.old }

/-- `open(path, mode)` on the kernel. -/
def kopen (m : Mode) (p : Bytes) (k : Kernel) : Except Errno Int × Kernel :=
  if p = [] then (.error ENOENT, k)
  else
    let fd := Kernel.freeFd k.fds
    match k.lookup p with
    | none =>
      if m.creat then
        let i := k.inodes.length
        let k := k.setName p (some i)
        (.ok fd, { k with inodes := k.inodes ++ [⟨false, [], []⟩], fds := Kernel.putFd k.fds fd (m.ofd i) })
      else (.error ENOENT, k)
    | some i =>
      match k.inodes[i]? with
      | none => (.error EIO, k)
      | some n =>
        if n.dir ∧ m ≠ .rdonly then (.error EISDIR, k)
        else
          let k := if m = .trunc then { k with inodes := k.inodes.set i (truncInode n) } else k
          (.ok fd, { k with fds := Kernel.putFd k.fds fd (m.ofd i) })

/-- `open(2)`. -/
def sysOpen (m : Mode) (path : Bytes) : P (Except Errno Int) :=
  sys (fun r => [.open path (val r)]) fun c k =>
    match c.fail with
    | some e => (.error e, k)
    | none => kopen m (cstr path) k

/-- `close(2)`.  `EBADF` is reserved for descriptors that are not open: other failures are `EINTR` or
`EIO`-like, so a chosen failure `EBADF` counts as `EIO`. -/
def sysClose (fd : Int) : P (Except Errno Unit) :=
  sys (fun r => [.close fd (errOf r)]) fun c k =>
    match k.ofd fd with
    | none => (.error EBADF, k)
    | some _ =>
      let k := { k with fds := k.fds.set fd.toNat none }
      match c.fail with
      | some e => (.error (if e = EBADF then EIO else e), k)
      | none => (.ok (), k)

/-- `read(2)` on the kernel; at most `count` bytes, but at least one unless at the end of the file. -/
def kread (fd : Int) (n count : Nat) (k : Kernel) : Except Errno Bytes × Kernel :=
  match k.ofd fd with
  | none => (.error EBADF, k)
  | some o =>
    if o.rd then
      match k.inodes[o.ino]? with
      | none => (.error EIO, k)
      | some i =>
        if i.dir then (.error EISDIR, k)
        else
          let got := ((i.data.drop o.off).take n).take (max 1 count)
          (.ok got, { k with fds := k.fds.set fd.toNat (some { o with off := o.off + got.length }) })
    else (.error EBADF, k)

/-- `read(2)`. -/
def sysRead (fd : Int) (n : Nat) : P (Except Errno Bytes) :=
  sys quiet fun c k =>
    match c.fail with
    | some e => (.error e, k)
    | none => kread fd n c.count k

/-- `pread(2)`: `offset` is an `off_t`. -/
def sysPread (fd : Int) (n : Nat) (offset : Int) : P (Except Errno Bytes) :=
  sys quiet fun c k =>
    match c.fail with
    | some e => (.error e, k)
    | none =>
      match k.ofd fd with
      | none => (.error EBADF, k)
      | some o =>
        if offset < 0 then (.error EINVAL, k)
        else if o.rd then
          match k.inodes[o.ino]? with
          | none => (.error EIO, k)
          | some i =>
            if i.dir then (.error EISDIR, k)
            else (.ok (((i.data.drop offset.toNat).take n).take (max 1 c.count)), k)
        else (.error EBADF, k)

/-- `lseek(fd, offset, SEEK_CUR)`. -/
def sysLseekCur (fd : Int) (offset : Int) : P (Except Errno Nat) :=
  sys quiet fun c k =>
    match c.fail with
    | some e => (.error e, k)
    | none =>
      match k.ofd fd with
      | none => (.error EBADF, k)
      | some o =>
        let p := (o.off : Int) + offset
        if p < 0 then (.error EINVAL, k)
        else if p ≥ 2 ^ 63 then (.error EOVERFLOW, k)
        else (.ok p.toNat, { k with fds := k.fds.set fd.toNat (some { o with off := p.toNat }) })

/-- File contents after writing `d` at `off`; a gap is filled with zeros. -/
def overwrite (data : Bytes) (off : Nat) (d : Bytes) : Bytes :=
  data.take off ++ List.replicate (off - data.length) 0 ++ d ++ data.drop (off + d.length)

/-- An inode after `write` of `d` at `off`. -/
def writeInode (n : Inode) (off : Nat) (d : Bytes) : Inode :=
  { n with data := overwrite n.data off d
           old := n.data :: ((List.range d.length).map (fun j => overwrite n.data off (d.take j)) ++ n.old) }

/-- `write(2)` on the kernel: at most `count` bytes. -/
def kwrite (fd : Int) (d : Bytes) (count : Nat) (k : Kernel) : Except Errno Nat × Kernel :=
  match k.ofd fd with
  | none => (.error EBADF, k)
  | some o =>
    if o.wr then
      match k.inodes[o.ino]? with
      | none => (.error EIO, k)
      | some i =>
        let d := d.take count
        let off := if o.app then i.data.length else o.off
        (.ok d.length,
          { k with inodes := k.inodes.set o.ino (writeInode i off d)
                   fds := k.fds.set fd.toNat (some { o with off := off + d.length }) })
    else (.error EBADF, k)

/-- `write(2)`. -/
def sysWrite (fd : Int) (d : Bytes) : P (Except Errno Nat) :=
  sys (fun r => [.write fd d r]) fun c k =>
    match c.fail with
    | some e => (.error e, k)
    | none => kwrite fd d c.count k

/-- The directory that contains the file a path names. -/
def parentDir (p : Bytes) : Bytes :=
  let base := (p.reverse.takeWhile (fun b => b ≠ 47)).reverse
  if base.length = p.length then [46]
  else if base.length + 1 = p.length then [47]
  else p.take (p.length - base.length - 1)

/-- `fsync`/`fdatasync` on the kernel: the contents of a file become durable; for a directory, the names
in it. -/
def ksync (fd : Int) (k : Kernel) : Except Errno Unit × Kernel :=
  match k.inodeOf fd with
  | none => (.error EBADF, k)
  | some i =>
    match k.inodes[i]? with
    | none => (.error EIO, k)
    | some n =>
      if n.dir then
        (.ok (), { k with pend := k.pend.filter (fun e => decide (k.lookup (parentDir e.1) ≠ some i)) })
      else (.ok (), { k with inodes := k.inodes.set i { n with old := [] } })

/-- `fsync(2)`, `fdatasync(2)`, `fcntl(fd, F_FULLFSYNC)`. -/
def sysSync (fd : Int) : P (Except Errno Unit) :=
  sys (fun r => [.sync fd (fine r)]) fun c k =>
    match c.fail with
    | some e => (.error e, k)
    | none => ksync fd k

/-- `stat(2)`: the size. -/
def sysStat (path : Bytes) : P (Except Errno Nat) :=
  sys quiet fun c k =>
    match c.fail with
    | some e => (.error e, k)
    | none =>
      match k.lookup (cstr path) with
      | none => (.error ENOENT, k)
      | some i => (.ok (k.data i).length, k)

/-- `access(path, F_OK)`. -/
def sysAccess (path : Bytes) : P (Except Errno Unit) :=
  sys quiet fun c k =>
    match c.fail with
    | some e => (.error e, k)
    | none =>
      match k.lookup (cstr path) with
      | none => (.error ENOENT, k)
      | some _ => (.ok (), k)

/-- `unlink(2)`. -/
def sysUnlink (path : Bytes) : P (Except Errno Unit) :=
  sys quiet fun c k =>
    match c.fail with
    | some e => (.error e, k)
    | none =>
      match k.lookup (cstr path) with
      | none => (.error ENOENT, k)
      | some i =>
        if ((k.inodes[i]?).map (·.dir)).getD false then (.error EISDIR, k)
        else (.ok (), k.setName (cstr path) none)

/-- `mkdir(2)`. -/
def sysMkdir (path : Bytes) : P (Except Errno Unit) :=
  sys quiet fun c k =>
    match c.fail with
    | some e => (.error e, k)
    | none =>
      if cstr path = [] then (.error ENOENT, k)
      else
        match k.lookup (cstr path) with
        | some _ => (.error EEXIST, k)
        | none =>
          let i := k.inodes.length
          let k := k.setName (cstr path) (some i)
          (.ok (), { k with inodes := k.inodes ++ [⟨true, [], []⟩] })

/-- `rmdir(2)`. -/
def sysRmdir (path : Bytes) : P (Except Errno Unit) :=
  sys quiet fun c k =>
    match c.fail with
    | some e => (.error e, k)
    | none =>
      match k.lookup (cstr path) with
      | none => (.error ENOENT, k)
      | some i =>
        if ((k.inodes[i]?).map (·.dir)).getD false then
          if k.names.any (fun e => decide (parentDir e.1 = cstr path)) then (.error ENOTEMPTY, k)
          else (.ok (), k.setName (cstr path) none)
        else (.error ENOTDIR, k)

/-- `rename(2)`.  Simplification: of directories it always fails. -/
def sysRename (src target : Bytes) : P (Except Errno Unit) :=
  sys quiet fun c k =>
    match c.fail with
    | some e => (.error e, k)
    | none =>
      match k.lookup (cstr src) with
      | none => (.error ENOENT, k)
      | some i =>
        if cstr target = [] then (.error ENOENT, k)
        else if ((k.inodes[i]?).map (·.dir)).getD false then (.error EISDIR, k)
        else
          match k.lookup (cstr target) with
          | none => (.ok (), (k.setName (cstr target) (some i)).setName (cstr src) none)
          | some j =>
            if i = j then (.ok (), k)
            else if ((k.inodes[j]?).map (·.dir)).getD false then (.error EISDIR, k)
            else (.ok (), (k.setName (cstr target) (some i)).setName (cstr src) none)

/-- `mmap(nullptr, len, PROT_READ, MAP_SHARED, fd, 0)`: a new mapping, named by its index. -/
def sysMmap (fd : Int) (len : Nat) : P (Except Errno Nat) :=
  sys quiet fun c k =>
    match c.fail with
    | some e => (.error e, k)
    | none =>
      if len = 0 then (.error EINVAL, k)
      else
        match k.inodeOf fd with
        | none => (.error EBADF, k)
        | some i => (.ok k.maps.length, { k with maps := k.maps ++ [some (i, len)] })

/-- `munmap(2)` of a whole mapping. -/
def sysMunmap (m : Nat) : P (Except Errno Unit) :=
  sys quiet fun _ k =>
    match (k.maps[m]?).join with
    | none => (.error EINVAL, k)
    | some _ => (.ok (), { k with maps := k.maps.set m none })

/-- A call whose only effect on the state modelled here is to succeed or fail (`fcntl(F_SETLK)`,
`fdopen`). -/
def sysOther : P (Except Errno Unit) :=
  sys quiet fun c k =>
    match c.fail with
    | some e => (.error e, k)
    | none => (.ok (), k)

/-- The names in a directory, as `readdir` finds them. -/
def dirEntries (k : Kernel) (dir : Bytes) : List Bytes :=
  [46] :: [46, 46] :: (k.names.filter (fun e => decide (parentDir e.1 = dir))).map
    (fun e => (e.1.reverse.takeWhile (fun b => b ≠ 47)).reverse)

/-- `opendir(3)`: the descriptor and the entries the stream will produce. -/
def sysOpendir (path : Bytes) : P (Except Errno (Int × List Bytes)) :=
  sys (fun r => [.open path ((val r).map (·.1))]) fun c k =>
    match c.fail with
    | some e => (.error e, k)
    | none =>
      match k.lookup (cstr path) with
      | none => (.error ENOENT, k)
      | some i =>
        if ((k.inodes[i]?).map (·.dir)).getD false then
          let r := kopen .rdonly (cstr path) k
          match r.1 with
          | .error e => (.error e, r.2)
          | .ok fd => (.ok (fd, dirEntries k (cstr path)), r.2)
        else (.error ENOTDIR, k)

/-- `readdir(3)`: the next entry, or null at the end and on an error (which only `errno` tells). -/
def sysReaddir (rest : List Bytes) : P (Option Bytes) :=
  sys quiet fun c k =>
    match c.fail with
    | some _ => (none, k)
    | none => (rest.head?, k)

/-! ## Crashes -/

/-- Contents a crash can leave in a file. -/
def Inode.AfterCrash (n : Inode) (c : Bytes) : Prop := c = n.data ∨ c ∈ n.old

/-- What a name can mean after a crash. -/
def Kernel.NameAfterCrash (k : Kernel) (p : Bytes) (v : Option Nat) : Prop :=
  v = k.lookup p ∨ (p, v) ∈ k.pend

instance (n : Inode) (c : Bytes) : Decidable (n.AfterCrash c) := inferInstanceAs (Decidable (_ ∨ _))
instance (k : Kernel) (p : Bytes) (v : Option Nat) : Decidable (k.NameAfterCrash p v) :=
  inferInstanceAs (Decidable (_ ∨ _))

end Posix
end Lsmdb
