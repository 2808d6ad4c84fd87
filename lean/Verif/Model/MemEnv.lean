import Verif.Model.Status

/-!
# Model of `helpers/memenv/memenv.cc`

`FileState` objects and file objects (`SequentialFileImpl`, `RandomAccessFileImpl`, `WritableFileImpl`)
live in two heaps; an address is an index, addresses are not reused and a deleted object stays as
`none`, so that use after free and double free are visible.  `file_map_` is a sorted association list
whose values are pointers, possibly null.  Every `FileState` method holds `refs_mutex_` or
`blocks_mutex_` throughout, and every `InMemoryEnv` method holds `mutex_` throughout, so each is one
atomic step, with the exception of `SequentialFileImpl::Skip`, which calls `Size()` twice: its two
halves are separate definitions (C66).  Simplification: sizes and offsets are `Nat`; `size_` counts
bytes that exist, so it does not wrap; offsets given by the client may be anything.  `new` does not
fail (Model/MemEnvOom has it fail).  Assertions are enabled.
-/

namespace Lsmdb
namespace MemEnv

/-- `enum { kBlockSize = 8 * 1024 }` (memenv.cc:138). -/
def kBlockSize : Nat := 8 * 1024

/-- `class FileState` (memenv.cc:24-149).  A block is the array `new char[kBlockSize]`; its cells are
`none` until written. -/
structure FileState where
  refs : Int
  blocks : List Status.Buf
  size : Nat
  deriving DecidableEq

/-- `FileState()` (memenv.cc:28). -/
def FileState.new : FileState := ⟨0, [], 0⟩

/-- Result of an operation that returns a `Status`: OK, or an error with its code and two messages. -/
inductive St where
  | ok
  | err (c : Status.Code) (msg msg2 : Bytes)
  deriving DecidableEq

/-- The text of a string literal. -/
def lit (s : String) : Bytes := s.toUTF8.data.toList

/-- `FileState::Size` (memenv.cc:54-57). -/
def FileState.Size (f : FileState) : Nat := f.size

/-- `FileState::Truncate` (memenv.cc:59-66). -/
def FileState.Truncate (f : FileState) : FileState := { f with blocks := [], size := 0 }

/-- The copy loop of `FileState::Read` (memenv.cc:90-101); returns the bytes stored from `dst` on.
Copying a cell that was never written is a fault (the client would be handed garbage).  Called with fuel
`n + 1`. -/
def readLoop (f : FileState) : Nat → Nat → Nat → Nat → M Bytes
  | fuel, block, block_offset, bytes_to_copy =>
    if bytes_to_copy > 0 then
      match fuel with
      | 0 => .error .diverges
      | fuel + 1 => do
        let avail := kBlockSize - block_offset
        let avail := if avail > bytes_to_copy then bytes_to_copy else avail
        match f.blocks[block]? with
        | none => .error .outOfBounds
        | some b =>
          let c ← Status.cells b block_offset avail
          let v ← Status.values c
          let rest ← readLoop f fuel (block + 1) 0 (bytes_to_copy - avail)
          return v ++ rest
    else .ok []

/-- `FileState::Read` (memenv.cc:68-105): status and new `*result` (`none`: not assigned). -/
def FileState.Read (f : FileState) (offset n : Nat) : M (St × Option Bytes) := do
  if offset > f.size then
    return (.err .ioError (lit "Offset greater than file size") [], none)
  else
    let available := f.size - offset
    let n := if n > available then available else n
    if n = 0 then return (.ok, some [])
    else
      cassert (decide (offset / kBlockSize ≤ 2 ^ 64 - 1))
      let block := offset / kBlockSize
      let block_offset := offset % kBlockSize
      let d ← readLoop f (n + 1) block block_offset n
      return (.ok, some d)

/-- The loop of `FileState::Append` (memenv.cc:112-132).  Called with fuel `src_len + 1`. -/
def appendLoop (data : Slice) : Nat → FileState → Nat → Nat → M FileState
  | fuel, f, src, src_len =>
    if src_len > 0 then
      match fuel with
      | 0 => .error .diverges
      | fuel + 1 => do
        let offset := f.size % kBlockSize
        let (blocks, avail) :=
          if offset ≠ 0 then (f.blocks, kBlockSize - offset)
          else (f.blocks ++ [List.replicate kBlockSize none], kBlockSize)
        let avail := if avail > src_len then src_len else avail
        match blocks.getLast? with
        | none => .error .outOfBounds
        | some last =>
          let c ← Status.sliceCells ⟨data.buf, src, avail⟩ avail
          let last ← Status.store last offset c
          appendLoop data fuel { f with blocks := blocks.dropLast ++ [last], size := f.size + avail }
            (src + avail) (src_len - avail)
    else .ok f

/-- `FileState::Append` (memenv.cc:107-135). -/
def FileState.Append (f : FileState) (data : Slice) : M FileState :=
  appendLoop data (data.len + 1) f data.off data.len

/-! ## File objects and the environment -/

/-- The file objects: `SequentialFileImpl` with `file_`, `pos_` (memenv.cc:151-182),
`RandomAccessFileImpl` (memenv.cc:184-197), `WritableFileImpl` (memenv.cc:199-215). -/
inductive Obj where
  | seq (file : Nat) (pos : Nat)
  | rand (file : Nat)
  | wr (file : Nat)
  deriving DecidableEq

/-- `file_`. -/
def Obj.file : Obj → Nat
  | .seq f _ => f
  | .rand f => f
  | .wr f => f

/-- `std::map<std::string, FileState*>` (memenv.cc:381): sorted by key, no key twice; a value may be
null. -/
abbrev FileMap := List (Bytes × Option Nat)

/-- `std::string::operator<` (C++ library): `char_traits<char>` compares bytes as unsigned. -/
def strLt : Bytes → Bytes → Bool
  | _, [] => false
  | [], _ :: _ => true
  | x :: a, y :: b => if x < y then true else if y < x then false else strLt a b

/-- `find` (C++ library). -/
def mapFind : FileMap → Bytes → Option (Option Nat)
  | [], _ => none
  | (k, v) :: r, n => if k = n then some v else mapFind r n

/-- Assignment to `m[n]` (C++ library): inserts at the sorted position if absent. -/
def mapSet : FileMap → Bytes → Option Nat → FileMap
  | [], n, v => [(n, v)]
  | (k, w) :: r, n, v =>
    if strLt k n then (k, w) :: mapSet r n v
    else if k = n then (n, v) :: r
    else (n, v) :: (k, w) :: r

/-- Reading `m[n]` (C++ library): inserts null if absent. -/
def mapIndex (m : FileMap) (n : Bytes) : Option Nat × FileMap :=
  match mapFind m n with
  | some v => (v, m)
  | none => (none, mapSet m n none)

/-- `erase(n)` (C++ library). -/
def mapErase (m : FileMap) (n : Bytes) : FileMap := m.filter (fun e => decide (e.1 ≠ n))

/-- The program state: `InMemoryEnv::file_map_`, the heaps, and the `FileState`s deleted so far, in
order. -/
structure Env where
  map : FileMap
  files : List (Option FileState)
  objs : List (Option Obj)
  freed : List Nat

/-- `NewMemEnv` (memenv.cc:224, 389). -/
def Env.init : Env := ⟨[], [], [], []⟩

/-- Dereferencing a `FileState*`. -/
def getFile (e : Env) (p : Option Nat) : M (Nat × FileState) :=
  match p with
  | none => .error .nullDeref
  | some i =>
    match e.files[i]? with
    | none => .error .outOfBounds
    | some none => .error .useAfterFree
    | some (some f) => .ok (i, f)

/-- Store the new state of `FileState` `i`. -/
def setFile (e : Env) (i : Nat) (f : FileState) : Env := { e with files := e.files.set i (some f) }

/-- `FileState::Ref` (memenv.cc:31-34); `refs_` is an `int`. -/
def Ref (e : Env) (p : Option Nat) : M Env := do
  let (i, f) ← getFile e p
  if f.refs + 1 > 2147483647 then .error .arith
  else return setFile e i { f with refs := f.refs + 1 }

/-- `FileState::Unref` (memenv.cc:37-52) with its assertion; `delete this` runs `Truncate`. -/
def Unref (e : Env) (p : Option Nat) : M Env := do
  let (i, f) ← getFile e p
  let f := { f with refs := f.refs - 1 }
  cassert (decide (f.refs ≥ 0))
  if f.refs ≤ 0 then
    return { e with files := e.files.set i none, freed := e.freed ++ [i] }
  else return setFile e i f

/-- `new FileState()` (memenv.cc:265, 283). -/
def newFile (e : Env) : Option Nat × Env :=
  (some e.files.length, { e with files := e.files ++ [some FileState.new] })

/-- `new SequentialFileImpl(file)` etc.: the constructor takes a reference (memenv.cc:153-155, 186,
201). -/
def newObj (e : Env) (p : Option Nat) (mk : Nat → Obj) : M (Nat × Env) := do
  let e ← Ref e p
  match p with
  | none => .error .nullDeref
  | some i => return (e.objs.length, { e with objs := e.objs ++ [some (mk i)] })

/-- `Status::IOError(filename, "File not found")` (memenv.cc:238, 250, 324, 339, 350). -/
def notFound (filename : Bytes) : St := .err .ioError filename (lit "File not found")

/-- `NewSequentialFile` (memenv.cc:233-243): status, `*result`, new state. -/
def NewSequentialFile (e : Env) (filename : Bytes) : M (St × Option Nat × Env) := do
  match mapFind e.map filename with
  | none => return (notFound filename, none, e)
  | some _ =>
    let (p, m) := mapIndex e.map filename
    let (h, e) ← newObj { e with map := m } p (fun i => .seq i 0)
    return (.ok, some h, e)

/-- `NewRandomAccessFile` (memenv.cc:245-255). -/
def NewRandomAccessFile (e : Env) (filename : Bytes) : M (St × Option Nat × Env) := do
  match mapFind e.map filename with
  | none => return (notFound filename, none, e)
  | some _ =>
    let (p, m) := mapIndex e.map filename
    let (h, e) ← newObj { e with map := m } p .rand
    return (.ok, some h, e)

/-- `NewWritableFile` (memenv.cc:257-275). -/
def NewWritableFile (e : Env) (filename : Bytes) : M (St × Option Nat × Env) := do
  let (p, e) ← match mapFind e.map filename with
    | none => do
      let (p, e) := newFile e
      let e ← Ref e p
      pure (p, { e with map := mapSet e.map filename p })
    | some p => do
      let (i, f) ← getFile e p
      pure (p, setFile e i f.Truncate)
  let (h, e) ← newObj e p .wr
  return (.ok, some h, e)

/-- `NewAppendableFile` (memenv.cc:277-288): the new `FileState*` is not stored through `sptr`. -/
def NewAppendableFile (e : Env) (filename : Bytes) : M (St × Option Nat × Env) := do
  let (p, m) := mapIndex e.map filename
  let e := { e with map := m }
  let (p, e) ← match p with
    | none => do
      let (p, e) := newFile e
      let e ← Ref e p
      pure (p, e)
    | some i => pure (some i, e)
  let (h, e) ← newObj e p .wr
  return (.ok, some h, e)

/-- `FileExists` (memenv.cc:290-293). -/
def FileExists (e : Env) (filename : Bytes) : Bool := (mapFind e.map filename).isSome

/-- The test of `GetChildren` on one file name (memenv.cc:303-304); `&&` short-circuits. -/
def childTest (filename dir : Bytes) : M Bool := do
  if filename.length ≥ dir.length + 1 then
    let c ← rd filename dir.length
    if c = 47 then Slice.startsWith (Slice.ofBytes filename) (Slice.ofBytes dir)
    else return false
  else return false

/-- The loop of `GetChildren` (memenv.cc:300-307). -/
def childrenLoop (dir : Bytes) : FileMap → List Bytes → M (List Bytes)
  | [], result => .ok result
  | (filename, _) :: r, result => do
    let b ← childTest filename dir
    if b then childrenLoop dir r (result ++ [filename.drop (dir.length + 1)])
    else childrenLoop dir r result

/-- `GetChildren` (memenv.cc:295-309). -/
def GetChildren (e : Env) (dir : Bytes) : M (St × List Bytes) := do
  let l ← childrenLoop dir e.map []
  return (.ok, l)

/-- `RemoveFileInternal` (memenv.cc:311-319). -/
def RemoveFileInternal (e : Env) (filename : Bytes) : M Env := do
  match mapFind e.map filename with
  | none => return e
  | some _ =>
    let (p, m) := mapIndex e.map filename
    let e ← Unref { e with map := m } p
    return { e with map := mapErase e.map filename }

/-- `RemoveFile` (memenv.cc:321-329). -/
def RemoveFile (e : Env) (filename : Bytes) : M (St × Env) := do
  match mapFind e.map filename with
  | none => return (notFound filename, e)
  | some _ =>
    let e ← RemoveFileInternal e filename
    return (.ok, e)

/-- `GetFileSize` (memenv.cc:335-344): status and new `*file_size` (`none`: not assigned). -/
def GetFileSize (e : Env) (filename : Bytes) : M (St × Option Nat × Env) := do
  match mapFind e.map filename with
  | none => return (notFound filename, none, e)
  | some _ =>
    let (p, m) := mapIndex e.map filename
    let e := { e with map := m }
    let (_, f) ← getFile e p
    return (.ok, some f.Size, e)

/-- `RenameFile` (memenv.cc:346-357).  C++17 evaluates the right operand of `=` first. -/
def RenameFile (e : Env) (src target : Bytes) : M (St × Env) := do
  match mapFind e.map src with
  | none => return (notFound src, e)
  | some _ =>
    let e ← RemoveFileInternal e target
    let (p, m) := mapIndex e.map src
    let m := mapSet m target p
    return (.ok, { e with map := mapErase m src })

/-- The loop of `~InMemoryEnv` (memenv.cc:226-230). -/
def unrefAll : FileMap → Env → M Env
  | [], e => .ok e
  | (_, p) :: r, e => do unrefAll r (← Unref e p)

/-- `~InMemoryEnv` (memenv.cc:226-230), followed by the destruction of the map. -/
def destroyEnv (e : Env) : M Env := do
  let e ← unrefAll e.map e
  return { e with map := [] }

/-- Dereferencing a file object. -/
def getObj (e : Env) (h : Nat) : M Obj :=
  match e.objs[h]? with
  | none => .error .outOfBounds
  | some none => .error .useAfterFree
  | some (some o) => .ok o

/-- Deleting a file object drops its reference (memenv.cc:157, 188, 203). -/
def deleteObj (e : Env) (h : Nat) : M Env := do
  let o ← getObj e h
  let e ← Unref e (some o.file)
  return { e with objs := e.objs.set h none }

/-- `SequentialFileImpl::Read` (memenv.cc:159-165). -/
def seqRead (e : Env) (h n : Nat) : M (St × Option Bytes × Env) := do
  match ← getObj e h with
  | .seq file pos =>
    let (_, f) ← getFile e (some file)
    let (s, d) ← f.Read pos n
    match s, d with
    | .ok, some d => return (.ok, some d, { e with objs := e.objs.set h (some (.seq file (pos + d.length))) })
    | s, d => return (s, d, e)
  | _ => .error .outOfBounds

/-- `SequentialFileImpl::Skip` up to and including the first `Size()` (memenv.cc:168-170): `some` status
if it returns here. -/
def skipCheck (pos size1 : Nat) : Option St :=
  if pos > size1 then some (.err .ioError (lit "pos_ > file_->Slice()") []) else none

/-- `SequentialFileImpl::Skip` from the second `Size()` on (memenv.cc:171-176), `uint64_t` arithmetic: the
new `pos_`. -/
def skipMove (pos size2 n : Nat) : Nat :=
  let available := (size2 + 2 ^ 64 - pos) % 2 ^ 64
  let n := if n > available then available else n
  (pos + n) % 2 ^ 64

/-- `SequentialFileImpl::Skip` (memenv.cc:167-177), not interrupted by another thread. -/
def seqSkip (e : Env) (h n : Nat) : M (St × Env) := do
  match ← getObj e h with
  | .seq file pos =>
    let (_, f) ← getFile e (some file)
    match skipCheck pos f.Size with
    | some s => return (s, e)
    | none => return (.ok, { e with objs := e.objs.set h (some (.seq file (skipMove pos f.Size n))) })
  | _ => .error .outOfBounds

/-- `RandomAccessFileImpl::Read` (memenv.cc:190-193). -/
def randRead (e : Env) (h offset n : Nat) : M (St × Option Bytes) := do
  match ← getObj e h with
  | .rand file =>
    let (_, f) ← getFile e (some file)
    f.Read offset n
  | _ => .error .outOfBounds

/-- `WritableFileImpl::Append` (memenv.cc:205). -/
def wrAppend (e : Env) (h : Nat) (data : Slice) : M (St × Env) := do
  match ← getObj e h with
  | .wr file =>
    let (i, f) ← getFile e (some file)
    let f ← f.Append data
    return (.ok, setFile e i f)
  | _ => .error .outOfBounds

/-- `WritableFileImpl::Close`, `Flush`, `Sync` (memenv.cc:207-211). -/
def wrNop (e : Env) (h : Nat) : M St := do
  match ← getObj e h with
  | .wr _ => return .ok
  | _ => .error .outOfBounds

/-! ## Locks -/

/-- `LockFile` (memenv.cc:359-362): `locks` are the `FileLock` objects ever allocated, `false` =
deleted. -/
def LockFile (locks : List Bool) (_fname : Bytes) : St × Nat × List Bool :=
  (.ok, locks.length, locks ++ [true])

/-- `UnlockFile` (memenv.cc:364-367). -/
def UnlockFile (locks : List Bool) (lock : Nat) : M (St × List Bool) :=
  match locks[lock]? with
  | none => .error .outOfBounds
  | some false => .error .doubleFree
  | some true => .ok (.ok, locks.set lock false)

/-! ## Client histories -/

/-- What a client can do.  `h` names a file object returned by an open call. -/
inductive Op where
  | newSequential (name : Bytes)
  | newRandomAccess (name : Bytes)
  | newWritable (name : Bytes)
  | newAppendable (name : Bytes)
  | fileExists (name : Bytes)
  | getChildren (dir : Bytes)
  | removeFile (name : Bytes)
  | createDir (name : Bytes)
  | removeDir (name : Bytes)
  | getFileSize (name : Bytes)
  | renameFile (src target : Bytes)
  | seqRead (h n : Nat)
  | seqSkip (h n : Nat)
  | randRead (h offset n : Nat)
  | append (h : Nat) (data : Slice)
  | close (h : Nat)
  | flush (h : Nat)
  | sync (h : Nat)
  | delete (h : Nat)
  | destroyEnv

/-- What the client sees. -/
inductive Res where
  | unit
  | status (s : St)
  | opened (s : St) (h : Option Nat)
  | bool (b : Bool)
  | data (s : St) (d : Option Bytes)
  | size (s : St) (n : Option Nat)
  | list (s : St) (l : List Bytes)
  deriving DecidableEq

/-- One call (`CreateDir`, `RemoveDir`: memenv.cc:331-333). -/
def step (e : Env) : Op → M (Env × Res)
  | .newSequential n => do let (s, h, e) ← NewSequentialFile e n; return (e, .opened s h)
  | .newRandomAccess n => do let (s, h, e) ← NewRandomAccessFile e n; return (e, .opened s h)
  | .newWritable n => do let (s, h, e) ← NewWritableFile e n; return (e, .opened s h)
  | .newAppendable n => do let (s, h, e) ← NewAppendableFile e n; return (e, .opened s h)
  | .fileExists n => .ok (e, .bool (FileExists e n))
  | .getChildren d => do let (s, l) ← GetChildren e d; return (e, .list s l)
  | .removeFile n => do let (s, e) ← RemoveFile e n; return (e, .status s)
  | .createDir _ => .ok (e, .status .ok)
  | .removeDir _ => .ok (e, .status .ok)
  | .getFileSize n => do let (s, v, e) ← GetFileSize e n; return (e, .size s v)
  | .renameFile a b => do let (s, e) ← RenameFile e a b; return (e, .status s)
  | .seqRead h n => do let (s, d, e) ← seqRead e h n; return (e, .data s d)
  | .seqSkip h n => do let (s, e) ← seqSkip e h n; return (e, .status s)
  | .randRead h o n => do let (s, d) ← randRead e h o n; return (e, .data s d)
  | .append h d => do let (s, e) ← wrAppend e h d; return (e, .status s)
  | .close h => do return (e, .status (← wrNop e h))
  | .flush h => do return (e, .status (← wrNop e h))
  | .sync h => do return (e, .status (← wrNop e h))
  | .delete h => do return (← deleteObj e h, .unit)
  | .destroyEnv => do return (← destroyEnv e, .unit)

/-- A history of calls. -/
def run (e : Env) : List Op → M (Env × List Res)
  | [] => .ok (e, [])
  | o :: os => do
    let (e, r) ← step e o
    let (e, rs) ← run e os
    return (e, r :: rs)

end MemEnv
end Lsmdb
