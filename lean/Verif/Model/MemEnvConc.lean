import Verif.Model.MemEnv
import Verif.Model.CacheConc

/-!
# Model of the in-memory Env used by many threads (helpers/memenv/memenv.cc)

`Model/MemEnv` says what each method does when it runs alone.  Here the methods are programs of threads that interleave statement
by statement: taking a mutex, releasing it, a statement on the shared memory, deleting a `FileState`.  There is one `mutex_` in
the Env and a `refs_mutex_` and a `blocks_mutex_` in every `FileState` (memenv.cc:140, 143, 383); a mutex is memory of the object
it is a member of, so taking or releasing a mutex of a deleted object is a fault, and so is deleting an object whose mutex is held.

`std::mutex` (port_stdcxx.h:37-56) orders the critical sections of one mutex.  File objects (`SequentialFileImpl` and so on) and the
pointers in them are not protected by a mutex; what the clients must observe is in `Spec/MemEnvConc`.
-/

namespace Lsmdb
namespace MemConc
open MemEnv
open CacheConc (Tid Prog)

/-! ## FileState -/

/-- The members of a `FileState` that `blocks_mutex_` guards (memenv.cc:143-145). -/
structure Content where
  blocks : List Status.Buf
  size : Nat
  deriving DecidableEq

/-- The body of `Size` (memenv.cc:56). -/
def sizeProg : Prog Content Nat := .step (fun c => .ok (c, c.size)) .done

/-- The body of `Truncate` (memenv.cc:61-65): the blocks are deleted and the vector cleared; then `size_ = 0`. -/
def truncateProg : Prog Content Unit :=
  .step (fun c => .ok ({ c with blocks := [] }, ())) fun _ =>
  .step (fun c => .ok ({ c with size := 0 }, ())) .done

/-- One `memcpy` of the loop of `Read` (memenv.cc:95). -/
def copyOut (block block_offset avail : Nat) (c : Content) : M (Content × Bytes) :=
  match c.blocks[block]? with
  | none => .error .outOfBounds
  | some b => do
    let cs ← Status.cells b block_offset avail
    let v ← Status.values cs
    return (c, v)

/-- The loop of `Read` (memenv.cc:90-101).  Called with fuel `n + 1`. -/
def readLoopProg : Nat → Nat → Nat → Nat → Prog Content Bytes
  | fuel, block, block_offset, bytes_to_copy =>
    if bytes_to_copy > 0 then
      match fuel with
      | 0 => .step (β := Unit) (fun _ => .error .diverges) fun _ => .done []
      | fuel + 1 =>
        let avail := kBlockSize - block_offset
        let avail := if avail > bytes_to_copy then bytes_to_copy else avail
        .step (copyOut block block_offset avail) fun v =>
        (readLoopProg fuel (block + 1) 0 (bytes_to_copy - avail)).bind fun rest =>
        .done (v ++ rest)
    else .done []

/-- The body of `Read` (memenv.cc:70-104). -/
def readProg (offset n : Nat) : Prog Content (St × Option Bytes) :=
  .step (fun c => .ok (c, c.size)) fun size =>
  if offset > size then .done (.err .ioError (lit "Offset greater than file size") [], none)
  else
    let available := size - offset
    let n := if n > available then available else n
    if n = 0 then .done (.ok, some [])
    else
      .step (fun c => do
        cassert (decide (offset / kBlockSize ≤ 2 ^ 64 - 1))
        return (c, ())) fun _ =>
      (readLoopProg (n + 1) (offset / kBlockSize) (offset % kBlockSize) n).bind fun d =>
      .done (.ok, some d)

/-- `offset = size_ % kBlockSize`, and `push_back(new char[kBlockSize])` if the last block is full (memenv.cc:114-123): the offset
and the room. -/
def makeRoom (c : Content) : M (Content × (Nat × Nat)) :=
  let offset := c.size % kBlockSize
  if offset ≠ 0 then .ok (c, (offset, kBlockSize - offset))
  else .ok ({ c with blocks := c.blocks ++ [List.replicate kBlockSize none] }, (offset, kBlockSize))

/-- The `memcpy` of the loop of `Append` (memenv.cc:128). -/
def copyIn (data : Slice) (src offset avail : Nat) (c : Content) : M (Content × Unit) :=
  match c.blocks.getLast? with
  | none => .error .outOfBounds
  | some last => do
    let cs ← Status.sliceCells ⟨data.buf, src, avail⟩ avail
    let last ← Status.store last offset cs
    return ({ c with blocks := c.blocks.dropLast ++ [last] }, ())

/-- The loop of `Append` (memenv.cc:112-132).  Called with fuel `src_len + 1`. -/
def appendLoopProg (data : Slice) : Nat → Nat → Nat → Prog Content Unit
  | fuel, src, src_len =>
    if src_len > 0 then
      match fuel with
      | 0 => .step (β := Unit) (fun _ => .error .diverges) fun _ => .done ()
      | fuel + 1 =>
        .step makeRoom fun (offset, avail) =>
        let avail := if avail > src_len then src_len else avail
        .step (copyIn data src offset avail) fun _ =>
        .step (fun c => .ok ({ c with size := c.size + avail }, ())) fun _ =>
        appendLoopProg data fuel (src + avail) (src_len - avail)
    else .done ()

/-- The body of `Append` (memenv.cc:108-134). -/
def appendProg (data : Slice) : Prog Content Unit := appendLoopProg data (data.len + 1) data.off data.len

/-! ## The code of the methods -/

/-- The mutexes: `InMemoryEnv::mutex_`, and `refs_mutex_` and `blocks_mutex_` of the `FileState` at an address. -/
inductive Lock where
  | env
  | refs (i : Nat)
  | blocks (i : Nat)
  deriving DecidableEq

/-- What a thread still has to do. -/
inductive Code : Type 1 where
  /-- return -/
  | ret (r : Res)
  /-- a statement on the shared memory -/
  | act {β : Type} (f : Env → M (Env × β)) (next : β → Code)
  /-- the constructor of `MutexLock` (util/mutexlock.h:25-27) -/
  | lock (l : Lock) (next : Code)
  /-- the destructor of `MutexLock` (util/mutexlock.h:29) -/
  | unlock (l : Lock) (next : Code)
  /-- the memory of the `FileState` is given back -/
  | free (i : Nat) (next : Code)
  /-- the memory of the Env is given back -/
  | gone (next : Code)

/-- A member call through a pointer. -/
def through (p : Option Nat) (k : Nat → Code) : Code :=
  match p with
  | none => .act (β := Unit) (fun _ => .error .nullDeref) fun _ => .ret .unit
  | some i => k i

/-- A step of a body on the guarded members of `FileState` `i`. -/
def onContent {β : Type} (i : Nat) (f : Content → M (Content × β)) (e : Env) : M (Env × β) := do
  let (i, s) ← getFile e (some i)
  let (c, b) ← f ⟨s.blocks, s.size⟩
  return (setFile e i { s with blocks := c.blocks, size := c.size }, b)

/-- The steps of a body. -/
def steps {β : Type} (i : Nat) : Prog Content β → (β → Code) → Code
  | .done b, k => k b
  | .step f next, k => .act (onContent i f) fun b => steps i (next b) k

/-- A method of `FileState` that holds `blocks_mutex_` throughout (memenv.cc:54-135). -/
def withBlocks {β : Type} (i : Nat) (p : Prog Content β) (k : β → Code) : Code :=
  .lock (.blocks i) <| steps i p fun b => .unlock (.blocks i) <| k b

/-- `FileState::Ref` (memenv.cc:31-34). -/
def refCode (i : Nat) (k : Code) : Code :=
  .lock (.refs i) <|
  .act (fun e => do return (← Ref e (some i), ())) fun _ =>
  .unlock (.refs i) k

/-- `delete this`: `~FileState` calls `Truncate` (memenv.cc:50, 141). -/
def deleteCode (i : Nat) (k : Code) : Code := withBlocks i truncateProg fun _ => .free i k

/-- `--refs_` (memenv.cc:42). -/
def decRefs (i : Nat) (e : Env) : M (Env × Unit) := do
  let (i, f) ← getFile e (some i)
  return (setFile e i { f with refs := f.refs - 1 }, ())

/-- `assert(refs_ >= 0); if (refs_ <= 0)` (memenv.cc:43-44). -/
def testRefs (i : Nat) (e : Env) : M (Env × Bool) := do
  let (_, f) ← getFile e (some i)
  cassert (decide (f.refs ≥ 0))
  return (e, decide (f.refs ≤ 0))

/-- `FileState::Unref` (memenv.cc:37-52). -/
def unrefCode (i : Nat) (k : Code) : Code :=
  .lock (.refs i) <|
  .act (decRefs i) fun _ =>
  .act (testRefs i) fun do_delete =>
  .unlock (.refs i) <|
  if do_delete then deleteCode i k else k

/-- `new SequentialFileImpl(file)` and so on (memenv.cc:153-155, 186, 201). -/
def newObjCode (p : Option Nat) (mk : Nat → Obj) (k : Nat → Code) : Code :=
  through p fun i =>
  refCode i <|
  .act (fun e => .ok ({ e with objs := e.objs ++ [some (mk i)] }, e.objs.length)) k

/-- `file_map_.find(n)` (memenv.cc:236 and others). -/
def find (n : Bytes) (e : Env) : M (Env × Option (Option Nat)) := .ok (e, mapFind e.map n)

/-- Reading `file_map_[n]` (memenv.cc:241 and others). -/
def index (n : Bytes) (e : Env) : M (Env × Option Nat) :=
  let (p, m) := mapIndex e.map n
  .ok ({ e with map := m }, p)

/-- `file_map_[n] = p` (memenv.cc:267, 354). -/
def assign (n : Bytes) (p : Option Nat) (e : Env) : M (Env × Unit) := .ok ({ e with map := mapSet e.map n p }, ())

/-- `file_map_.erase(n)` (memenv.cc:318, 355). -/
def erase (n : Bytes) (e : Env) : M (Env × Unit) := .ok ({ e with map := mapErase e.map n }, ())

/-- `new FileState()` (memenv.cc:265, 283). -/
def alloc (e : Env) : M (Env × Option Nat) :=
  let (p, e) := newFile e
  .ok (e, p)

/-- The end of a method of `InMemoryEnv`: `mutex_` is released. -/
def leave (r : Res) : Code := .unlock .env <| .ret r

/-- `NewSequentialFile`, `NewRandomAccessFile` (memenv.cc:233-255). -/
def openCode (n : Bytes) (mk : Nat → Obj) : Code :=
  .lock .env <|
  .act (find n) fun x =>
  match x with
  | none => leave (.opened (notFound n) none)
  | some _ =>
    .act (index n) fun p =>
    newObjCode p mk fun h =>
    leave (.opened .ok (some h))

/-- `NewWritableFile` (memenv.cc:257-275). -/
def newWritableCode (n : Bytes) : Code :=
  .lock .env <|
  .act (find n) fun x =>
  match x with
  | none =>
    .act alloc fun p =>
    through p fun i =>
    refCode i <|
    .act (assign n p) fun _ =>
    newObjCode p .wr fun h =>
    leave (.opened .ok (some h))
  | some p =>
    through p fun i =>
    withBlocks i truncateProg fun _ =>
    newObjCode p .wr fun h =>
    leave (.opened .ok (some h))

/-- `NewAppendableFile` (memenv.cc:277-288). -/
def newAppendableCode (n : Bytes) : Code :=
  .lock .env <|
  .act (index n) fun p =>
  match p with
  | none =>
    .act alloc fun p =>
    through p fun i =>
    refCode i <|
    newObjCode p .wr fun h =>
    leave (.opened .ok (some h))
  | some i =>
    newObjCode (some i) .wr fun h =>
    leave (.opened .ok (some h))

/-- The loop of `GetChildren` (memenv.cc:300-307) at position `k` of the map.  Called with fuel `size + 1`. -/
def childrenLoopCode (dir : Bytes) : Nat → Nat → List Bytes → Code
  | 0, _, _ => .act (β := Unit) (fun _ => .error .diverges) fun _ => .ret .unit
  | fuel + 1, k, result =>
    .act (fun e => .ok (e, e.map[k]?)) fun x =>
    match x with
    | none => leave (.list .ok result)
    | some (filename, _) =>
      .act (fun e => do return (e, ← childTest filename dir)) fun b =>
      childrenLoopCode dir fuel (k + 1) (if b then result ++ [filename.drop (dir.length + 1)] else result)

/-- `GetChildren` (memenv.cc:295-309). -/
def getChildrenCode (dir : Bytes) : Code :=
  .lock .env <|
  .act (fun e => .ok (e, e.map.length)) fun size =>
  childrenLoopCode dir (size + 1) 0 []

/-- `RemoveFileInternal` (memenv.cc:311-319). -/
def removeInternalCode (n : Bytes) (k : Code) : Code :=
  .act (find n) fun x =>
  match x with
  | none => k
  | some _ =>
    .act (index n) fun p =>
    through p fun i =>
    unrefCode i <|
    .act (erase n) fun _ => k

/-- `RemoveFile` (memenv.cc:321-329). -/
def removeCode (n : Bytes) : Code :=
  .lock .env <|
  .act (find n) fun x =>
  match x with
  | none => leave (.status (notFound n))
  | some _ => removeInternalCode n <| leave (.status .ok)

/-- `GetFileSize` (memenv.cc:335-344). -/
def getFileSizeCode (n : Bytes) : Code :=
  .lock .env <|
  .act (find n) fun x =>
  match x with
  | none => leave (.size (notFound n) none)
  | some _ =>
    .act (index n) fun p =>
    through p fun i =>
    withBlocks i sizeProg fun size =>
    leave (.size .ok (some size))

/-- `RenameFile` (memenv.cc:346-357).  C++17 evaluates the right operand of `=` first. -/
def renameCode (src target : Bytes) : Code :=
  .lock .env <|
  .act (find src) fun x =>
  match x with
  | none => leave (.status (notFound src))
  | some _ =>
    removeInternalCode target <|
    .act (index src) fun p =>
    .act (assign target p) fun _ =>
    .act (erase src) fun _ =>
    leave (.status .ok)

/-- The loop of `~InMemoryEnv` (memenv.cc:227-229) at position `k` of the map.  Called with fuel `size + 1`. -/
def destroyLoopCode : Nat → Nat → Code → Code
  | 0, _, _ => .act (β := Unit) (fun _ => .error .diverges) fun _ => .ret .unit
  | fuel + 1, k, done =>
    .act (fun e => .ok (e, e.map[k]?)) fun x =>
    match x with
    | none => done
    | some (_, p) =>
      through p fun i =>
      unrefCode i <|
      destroyLoopCode fuel (k + 1) done

/-- `~InMemoryEnv` (memenv.cc:226-230) and the destruction of its members.  It does not take `mutex_`. -/
def destroyCode : Code :=
  .act (fun e => .ok (e, e.map.length)) fun size =>
  destroyLoopCode (size + 1) 0 <|
  .act (fun e => .ok ({ e with map := [] }, ())) fun _ =>
  .gone <| .ret .unit

/-- `file_` and `pos_` of a `SequentialFileImpl` (memenv.cc:180-181). -/
def getSeq (h : Nat) (e : Env) : M (Env × (Nat × Nat)) := do
  match ← getObj e h with
  | .seq file pos => return (e, (file, pos))
  | _ => .error .outOfBounds

/-- `pos_ = pos` (memenv.cc:162, 175). -/
def setPos (h : Nat) (pos : Nat → Nat) (e : Env) : M (Env × Unit) := do
  match ← getObj e h with
  | .seq file old => return ({ e with objs := e.objs.set h (some (.seq file (pos old))) }, ())
  | _ => .error .outOfBounds

/-- `SequentialFileImpl::Read` (memenv.cc:159-165). -/
def seqReadCode (h n : Nat) : Code :=
  .act (getSeq h) fun (file, pos) =>
  withBlocks file (readProg pos n) fun (s, d) =>
  match s, d with
  | .ok, some d => .act (setPos h fun pos => pos + d.length) fun _ => .ret (.data .ok (some d))
  | s, d => .ret (.data s d)

/-- `SequentialFileImpl::Skip` (memenv.cc:167-177): `Size` is called twice. -/
def seqSkipCode (h n : Nat) : Code :=
  .act (getSeq h) fun (file, _) =>
  withBlocks file sizeProg fun size1 =>
  .act (getSeq h) fun (_, pos) =>
  match skipCheck pos size1 with
  | some s => .ret (.status s)
  | none =>
    withBlocks file sizeProg fun size2 =>
    .act (setPos h fun pos => skipMove pos size2 n) fun _ =>
    .ret (.status .ok)

/-- `file_` of a `RandomAccessFileImpl` (memenv.cc:196). -/
def getRand (h : Nat) (e : Env) : M (Env × Nat) := do
  match ← getObj e h with
  | .rand file => return (e, file)
  | _ => .error .outOfBounds

/-- `file_` of a `WritableFileImpl` (memenv.cc:214). -/
def getWr (h : Nat) (e : Env) : M (Env × Nat) := do
  match ← getObj e h with
  | .wr file => return (e, file)
  | _ => .error .outOfBounds

/-- `RandomAccessFileImpl::Read` (memenv.cc:190-193). -/
def randReadCode (h offset n : Nat) : Code :=
  .act (getRand h) fun file =>
  withBlocks file (readProg offset n) fun (s, d) =>
  .ret (.data s d)

/-- `WritableFileImpl::Append` (memenv.cc:205). -/
def appendCode (h : Nat) (data : Slice) : Code :=
  .act (getWr h) fun file =>
  withBlocks file (appendProg data) fun _ =>
  .ret (.status .ok)

/-- `WritableFileImpl::Close`, `Flush`, `Sync` (memenv.cc:207-211). -/
def nopCode (h : Nat) : Code :=
  .act (getWr h) fun _ =>
  .ret (.status .ok)

/-- The deletion of a file object: its destructor drops the reference, then its memory is given back (memenv.cc:157, 188, 203). -/
def deleteObjCode (h : Nat) : Code :=
  .act (fun e => do return (e, (← getObj e h).file)) fun file =>
  unrefCode file <|
  .act (fun e => do
    let _ ← getObj e h
    return ({ e with objs := e.objs.set h none }, ())) fun _ =>
  .ret .unit

/-- The code of each call (`CreateDir`, `RemoveDir`: memenv.cc:331-333; `FileExists`: memenv.cc:290-293). -/
def code : Op → Code
  | .newSequential n => openCode n (fun i => .seq i 0)
  | .newRandomAccess n => openCode n .rand
  | .newWritable n => newWritableCode n
  | .newAppendable n => newAppendableCode n
  | .fileExists n => .lock .env <| .act (find n) fun x => leave (.bool x.isSome)
  | .getChildren d => getChildrenCode d
  | .removeFile n => removeCode n
  | .createDir _ => .act (fun e => .ok (e, ())) fun _ => .ret (.status .ok)
  | .removeDir _ => .act (fun e => .ok (e, ())) fun _ => .ret (.status .ok)
  | .getFileSize n => getFileSizeCode n
  | .renameFile a b => renameCode a b
  | .seqRead h n => seqReadCode h n
  | .seqSkip h n => seqSkipCode h n
  | .randRead h off n => randReadCode h off n
  | .append h d => appendCode h d
  | .close h => nopCode h
  | .flush h => nopCode h
  | .sync h => nopCode h
  | .delete h => deleteObjCode h
  | .destroyEnv => destroyCode

/-! ## The threads together -/

/-- Where a thread is. -/
inductive Pc : Type 1 where
  /-- not in a call -/
  | idle
  /-- in a call, before `c` -/
  | run (c : Code)

/-- The memory, whether the Env still exists, who holds which mutex, and where each thread is. -/
structure World : Type 1 where
  env : Env
  exists_ : Bool
  owner : Lock → Option Tid
  pc : Tid → Pc

/-- A new Env (memenv.cc:224, 389) and no calls. -/
def World.init : World := ⟨Env.init, true, fun _ => none, fun _ => .idle⟩

/-- Thread `t` moves on. -/
def World.at (w : World) (t : Tid) (p : Pc) : World := { w with pc := fun u => if u = t then p else w.pc u }

/-- The mutex changes hands. -/
def World.own (w : World) (l : Lock) (o : Option Tid) : World := { w with owner := upd w.owner l o }

/-- The `FileState` exists. -/
def Live (e : Env) (i : Nat) : Prop := ∃ f, e.files[i]? = some (some f)

/-- The object that the mutex is a member of exists. -/
def World.Has (w : World) : Lock → Prop
  | .env => w.exists_ = true
  | .refs i => Live w.env i
  | .blocks i => Live w.env i

/-- What the clients see: calls and returns. -/
inductive Ev where
  | call (t : Tid) (o : Op)
  | ret (t : Tid) (r : Res)

/-- One step of one thread, with what the clients see of it. -/
inductive Step : World → Option Ev → World → Prop
  /-- a client calls -/
  | call {w : World} {t : Tid} (o : Op) (h : w.pc t = .idle) : Step w (some (.call t o)) (w.at t (.run (code o)))
  /-- a statement -/
  | act {w : World} {t : Tid} {β : Type} {f : Env → M (Env × β)} {next : β → Code} {e : Env} {b : β}
      (h : w.pc t = .run (.act f next)) (eq : f w.env = .ok (e, b)) : Step w none ({ w with env := e }.at t (.run (next b)))
  /-- a mutex that nobody holds is taken -/
  | lock {w : World} {t : Tid} {l : Lock} {next : Code} (h : w.pc t = .run (.lock l next)) (hl : w.Has l)
      (free : w.owner l = none) : Step w none ((w.own l (some t)).at t (.run next))
  /-- a mutex is released -/
  | unlock {w : World} {t : Tid} {l : Lock} {next : Code} (h : w.pc t = .run (.unlock l next)) (hl : w.Has l)
      (mine : w.owner l = some t) : Step w none ((w.own l none).at t (.run next))
  /-- a `FileState` is freed -/
  | free {w : World} {t : Tid} {i : Nat} {next : Code} (h : w.pc t = .run (.free i next)) (hl : Live w.env i)
      (hr : w.owner (.refs i) = none) (hb : w.owner (.blocks i) = none) :
      Step w none ({ w with env := { w.env with files := w.env.files.set i none, freed := w.env.freed ++ [i] } }.at t (.run next))
  /-- the Env is freed -/
  | gone {w : World} {t : Tid} {next : Code} (h : w.pc t = .run (.gone next)) (hl : w.exists_ = true) (hm : w.owner .env = none) :
      Step w none ({ w with exists_ := false }.at t (.run next))
  /-- the call returns -/
  | ret {w : World} {t : Tid} {r : Res} (h : w.pc t = .run (.ret r)) : Step w (some (.ret t r)) (w.at t .idle)

/-- The next step of some thread is undefined behaviour or a failed assertion. -/
inductive Faulty (w : World) : Prop
  | act {t : Tid} {β : Type} {f : Env → M (Env × β)} {next : β → Code} {x : Fault} (h : w.pc t = .run (.act f next))
      (eq : f w.env = .error x)
  | lock {t : Tid} {l : Lock} {next : Code} (h : w.pc t = .run (.lock l next)) (hl : ¬ w.Has l)
  | unlock {t : Tid} {l : Lock} {next : Code} (h : w.pc t = .run (.unlock l next)) (hl : ¬ (w.Has l ∧ w.owner l = some t))
  | free {t : Tid} {i : Nat} {next : Code} (h : w.pc t = .run (.free i next))
      (hl : ¬ (Live w.env i ∧ w.owner (.refs i) = none ∧ w.owner (.blocks i) = none))
  | gone {t : Tid} {next : Code} (h : w.pc t = .run (.gone next)) (hl : ¬ (w.exists_ = true ∧ w.owner .env = none))

end MemConc
end Lsmdb
