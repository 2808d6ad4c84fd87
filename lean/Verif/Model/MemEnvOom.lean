import Verif.Model.MemEnv

/-!
# `helpers/memenv/memenv.cc` when memory runs out

Every call is given the outcome of the allocations it may make; an allocation that fails throws
`std::bad_alloc` out of the call, through the destructor of its `MutexLock`, which unlocks.  A call that
throws has the result `none` and leaves the state that was reached.  Simplifications: a copy of a name
made while a node of the map is built counts as the allocation of the node, the growth of `blocks_`
as the allocation of the block (a block allocated just before is then lost); what a call that throws leaves
in `*result` is not modelled.
-/

namespace Lsmdb
namespace MemEnv

/-- Which of the allocations a call may make succeed: the message of an error `Status` (util/status.cc:20),
`new FileState` (memenv.cc:265, 283), the node of `file_map_` (memenv.cc:267, 280, 354), the file
object (memenv.cc:240, 252, 273, 286), the block of a file that has already so many (memenv.cc:121), the
elements of a list of children (memenv.cc:305). -/
structure Mem where
  message : Bool
  state : Bool
  node : Bool
  object : Bool
  block : Nat → Bool
  child : Bool

/-- Memory does not run out. -/
def Mem.plenty : Mem := ⟨true, true, true, true, fun _ => true, true⟩

/-- Returning a `Status`: an error allocates its message (util/status.cc:15-32). -/
def returnSt (m : Mem) (e : Env) (s : St) (r : Res) : Env × Option Res :=
  match s with
  | .ok => (e, some r)
  | .err _ _ _ => if m.message then (e, some r) else (e, none)

/-- `*result = new SequentialFileImpl(..)`, `return Status::OK()` and the like (memenv.cc:240-241, 252-253,
273-274, 286-287): `new` allocates before the constructor takes its reference. -/
def newObjO (mem : Mem) (e : Env) (p : Option Nat) (mk : Nat → Obj) : M (Env × Option Res) :=
  if mem.object then do
    let (h, e) ← newObj e p mk
    return (e, some (.opened .ok (some h)))
  else .ok (e, none)

/-- `NewSequentialFile` (memenv.cc:233-243). -/
def NewSequentialFileO (mem : Mem) (e : Env) (filename : Bytes) : M (Env × Option Res) :=
  match mapFind e.map filename with
  | none => .ok (returnSt mem e (notFound filename) (.opened (notFound filename) none))
  | some _ =>
    let (p, m) := mapIndex e.map filename
    newObjO mem { e with map := m } p (fun i => .seq i 0)

/-- `NewRandomAccessFile` (memenv.cc:245-255). -/
def NewRandomAccessFileO (mem : Mem) (e : Env) (filename : Bytes) : M (Env × Option Res) :=
  match mapFind e.map filename with
  | none => .ok (returnSt mem e (notFound filename) (.opened (notFound filename) none))
  | some _ =>
    let (p, m) := mapIndex e.map filename
    newObjO mem { e with map := m } p .rand

/-- The branch of `NewWritableFile` for a new name (memenv.cc:263-267): `none`: threw. -/
def createO (mem : Mem) (e : Env) (filename : Bytes) : M (Env × Option (Option Nat)) :=
  if mem.state then do
    let (p, e) := newFile e
    let e ← Ref e p
    if mem.node then return ({ e with map := mapSet e.map filename p }, some p)
    else return (e, none)
  else .ok (e, none)

/-- The file `NewWritableFile` works on, made if needed and emptied (memenv.cc:260-271): `none`: threw. -/
def targetO (mem : Mem) (e : Env) (filename : Bytes) : M (Env × Option (Option Nat)) :=
  match mapFind e.map filename with
  | none => createO mem e filename
  | some p => do
    let (i, f) ← getFile e p
    return (setFile e i f.Truncate, some p)

/-- `NewWritableFile` (memenv.cc:257-275). -/
def NewWritableFileO (mem : Mem) (e : Env) (filename : Bytes) : M (Env × Option Res) := do
  let (e, p) ← targetO mem e filename
  match p with
  | none => return (e, none)
  | some p => newObjO mem e p .wr

/-- `NewAppendableFile` (memenv.cc:277-288). -/
def NewAppendableFileO (mem : Mem) (e : Env) (filename : Bytes) : M (Env × Option Res) :=
  if (mapFind e.map filename).isSome || mem.node then
    let (p, m) := mapIndex e.map filename
    let e := { e with map := m }
    match p with
    | none =>
      if mem.state then do
        let (p, e) := newFile e
        let e ← Ref e p
        newObjO mem e p .wr
      else .ok (e, none)
    | some i => newObjO mem e (some i) .wr
  else .ok (e, none)

/-- `GetChildren` (memenv.cc:295-309); it throws when an element cannot be stored. -/
def GetChildrenO (mem : Mem) (e : Env) (dir : Bytes) : M (Env × Option Res) := do
  let (s, l) ← GetChildren e dir
  if mem.child || l.isEmpty then return (e, some (.list s l)) else return (e, none)

/-- `RemoveFile` (memenv.cc:321-329). -/
def RemoveFileO (mem : Mem) (e : Env) (filename : Bytes) : M (Env × Option Res) := do
  let (s, e) ← RemoveFile e filename
  return returnSt mem e s (.status s)

/-- `GetFileSize` (memenv.cc:335-344). -/
def GetFileSizeO (mem : Mem) (e : Env) (filename : Bytes) : M (Env × Option Res) := do
  let (s, n, e) ← GetFileSize e filename
  return returnSt mem e s (.size s n)

/-- `RenameFile` (memenv.cc:346-357): the node for `target` is allocated after the old file of that name has
been removed. -/
def RenameFileO (mem : Mem) (e : Env) (src target : Bytes) : M (Env × Option Res) :=
  match mapFind e.map src with
  | none => .ok (returnSt mem e (notFound src) (.status (notFound src)))
  | some _ => do
    let e ← RemoveFileInternal e target
    let (p, m) := mapIndex e.map src
    if (mapFind m target).isSome || mem.node then
      let m := mapSet m target p
      return ({ e with map := mapErase m src }, some (.status .ok))
    else return ({ e with map := m }, none)

/-- The loop of `FileState::Append` (memenv.cc:112-132).  Second result `false`: threw. -/
def appendLoopO (ok : Nat → Bool) (data : Slice) : Nat → FileState → Nat → Nat → M (FileState × Bool)
  | fuel, f, src, src_len =>
    if src_len > 0 then
      match fuel with
      | 0 => .error .diverges
      | fuel + 1 =>
        let offset := f.size % kBlockSize
        if offset = 0 ∧ ok f.blocks.length = false then .ok (f, false)
        else do
          let (blocks, avail) :=
            if offset ≠ 0 then (f.blocks, kBlockSize - offset)
            else (f.blocks ++ [List.replicate kBlockSize none], kBlockSize)
          let avail := if avail > src_len then src_len else avail
          match blocks.getLast? with
          | none => .error .outOfBounds
          | some last =>
            let c ← Status.sliceCells ⟨data.buf, src, avail⟩ avail
            let last ← Status.store last offset c
            appendLoopO ok data fuel { f with blocks := blocks.dropLast ++ [last], size := f.size + avail }
              (src + avail) (src_len - avail)
    else .ok (f, true)

/-- `WritableFileImpl::Append` (memenv.cc:205, 107-135). -/
def wrAppendO (mem : Mem) (e : Env) (h : Nat) (data : Slice) : M (Env × Option Res) := do
  match ← getObj e h with
  | .wr file =>
    let (i, f) ← getFile e (some file)
    let (f, b) ← appendLoopO mem.block data (data.len + 1) f data.off data.len
    return (setFile e i f, if b then some (.status .ok) else none)
  | _ => .error .outOfBounds

/-- `SequentialFileImpl::Read` (memenv.cc:159-165). -/
def seqReadO (mem : Mem) (e : Env) (h n : Nat) : M (Env × Option Res) := do
  let (s, d, e) ← seqRead e h n
  return returnSt mem e s (.data s d)

/-- `SequentialFileImpl::Skip` (memenv.cc:167-177). -/
def seqSkipO (mem : Mem) (e : Env) (h n : Nat) : M (Env × Option Res) := do
  let (s, e) ← seqSkip e h n
  return returnSt mem e s (.status s)

/-- `RandomAccessFileImpl::Read` (memenv.cc:190-193). -/
def randReadO (mem : Mem) (e : Env) (h offset n : Nat) : M (Env × Option Res) := do
  let (s, d) ← randRead e h offset n
  return returnSt mem e s (.data s d)

/-- One call; the result `none` means that it threw `std::bad_alloc`.  The calls of the last line allocate
nothing. -/
def stepO (mem : Mem) (e : Env) : Op → M (Env × Option Res)
  | .newSequential n => NewSequentialFileO mem e n
  | .newRandomAccess n => NewRandomAccessFileO mem e n
  | .newWritable n => NewWritableFileO mem e n
  | .newAppendable n => NewAppendableFileO mem e n
  | .getChildren d => GetChildrenO mem e d
  | .removeFile n => RemoveFileO mem e n
  | .getFileSize n => GetFileSizeO mem e n
  | .renameFile a b => RenameFileO mem e a b
  | .seqRead h n => seqReadO mem e h n
  | .seqSkip h n => seqSkipO mem e h n
  | .randRead h o n => randReadO mem e h o n
  | .append h d => wrAppendO mem e h d
  | o => do let (e, r) ← step e o; return (e, some r)

/-- A history of calls. -/
def runO (e : Env) : List (Op × Mem) → M (Env × List (Option Res))
  | [] => .ok (e, [])
  | (o, m) :: os => do
    let (e, r) ← stepO m e o
    let (e, rs) ← runO e os
    return (e, r :: rs)

end MemEnv
end Lsmdb
