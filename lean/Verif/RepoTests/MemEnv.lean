import Verif.Model.EnvMem
import Verif.Model.Arena
import Verif.Model.Random
import Verif.RepoTests.Util

/-!
# helpers/memenv/memenv_test.cc and util/arena_test.cc, run on the model

Evidence that the model does what the code does; not proofs of anything general.
-/

namespace Lsmdb
namespace RepoTests
open Iface
open MemEnv (St)

/-- A base `Env` none of whose functions may be called: the in-memory Env forwards nothing these tests use. -/
def noEnv : Env M where
  NewSequentialFile _ _ := .error .nullDeref
  NewRandomAccessFile _ _ := .error .nullDeref
  NewWritableFile _ _ := .error .nullDeref
  NewAppendableFile _ _ := .error .nullDeref
  FileExists _ := .error .nullDeref
  GetChildren _ _ := .error .nullDeref
  RemoveFile _ := .error .nullDeref
  CreateDir _ := .error .nullDeref
  RemoveDir _ := .error .nullDeref
  GetFileSize _ _ := .error .nullDeref
  RenameFile _ _ := .error .nullDeref
  LockFile _ _ := .error .nullDeref
  UnlockFile _ := .error .nullDeref
  Schedule _ := .error .nullDeref
  StartThread _ := .error .nullDeref
  GetTestDirectory _ := .error .nullDeref
  NewLogger _ _ := .error .nullDeref
  NowMicros := .error .nullDeref
  SleepForMicroseconds _ := .error .nullDeref

abbrev E := StateT MemState M

def env : Env E := InMemoryEnv noEnv
def files : Files E := memFiles

/-- `ASSERT_TRUE`, `ASSERT_LSMDB_OK`, and `ASSERT_TRUE(!s.ok())`. -/
def check' (c : Bool) : E Unit := StateT.lift (expect c)
def ok (s : E St) : E Unit := do check' ((← s) == .ok)
def fails (s : E St) : E Unit := do check' ((← s) != .ok)

/-- The result of a call that must succeed. -/
def okVal {α : Type} (s : E (St × α)) : E α := do
  let (s, a) ← s
  check' (s == .ok)
  return a

def append (f : Ptr) (s : Bytes) : E Unit := ok (files.append f (Slice.ofBytes s))

def sizeIs (f : String) (n : Nat) : E Unit := do check' ((← okVal (env.GetFileSize (str f) 0)) == n)

def childrenAre (d : String) (l : List String) : E Unit := do check' ((← okVal (env.GetChildren (str d) [])) == l.map str)

def seqReadIs (f : Ptr) (n : Nat) (s : Bytes) : E Unit := do check' ((← okVal (files.seqRead f n)) == some s)

def skip (f : Ptr) (n : Nat) : E St := onFiles fun e => do MemEnv.seqSkip e (← f.deref) n

def randRead (f : Ptr) (offset n : Nat) : E (St × Option Bytes) := onFiles fun e => do return (← MemEnv.randRead e (← f.deref) offset n, e)

def randReadIs (f : Ptr) (offset n : Nat) (s : Bytes) : E Unit := do check' ((← okVal (randRead f offset n)) == some s)

/-- Set up, run, delete the Env: every file and file object has then been deleted. -/
def memTest (t : E Unit) : M Unit := do
  let ((), s) ← t.run .init
  let e ← MemEnv.destroyEnv s.env
  expect (e.files.all (·.isNone))
  expect (e.objs.all (·.isNone))

def basics : E Unit := do
  ok (env.CreateDir (str "/dir"))
  check' (!(← env.FileExists (str "/dir/non_existent")))
  fails (do return (← env.GetFileSize (str "/dir/non_existent") 0).1)
  childrenAre "/dir" []
  let f ← okVal (env.NewWritableFile (str "/dir/f") .uninit)
  sizeIs "/dir/f" 0
  files.delete f
  check' (← env.FileExists (str "/dir/f"))
  sizeIs "/dir/f" 0
  childrenAre "/dir" ["f"]
  let f ← okVal (env.NewWritableFile (str "/dir/f") .uninit)
  append f (str "abc")
  files.delete f
  let f ← okVal (env.NewAppendableFile (str "/dir/f") .uninit)
  sizeIs "/dir/f" 3
  append f (str "hello")
  files.delete f
  sizeIs "/dir/f" 8
  fails (env.RenameFile (str "/dir/non_existent") (str "/dir/g"))
  ok (env.RenameFile (str "/dir/f") (str "/dir/g"))
  check' (!(← env.FileExists (str "/dir/f")))
  check' (← env.FileExists (str "/dir/g"))
  sizeIs "/dir/g" 8
  let (s, seq_file) ← env.NewSequentialFile (str "/dir/non_existent") .uninit
  check' (s != .ok)
  check' (seq_file == .null)
  let (s, random_access_file) ← env.NewRandomAccessFile (str "/dir/non_existent") .uninit
  check' (s != .ok)
  check' (random_access_file == .null)
  fails (env.RemoveFile (str "/dir/non_existent"))
  ok (env.RemoveFile (str "/dir/g"))
  check' (!(← env.FileExists (str "/dir/g")))
  childrenAre "/dir" []
  ok (env.RemoveDir (str "/dir"))

def readWrite : E Unit := do
  ok (env.CreateDir (str "/dir"))
  let f ← okVal (env.NewWritableFile (str "/dir/f") .uninit)
  append f (str "hello ")
  append f (str "world")
  files.delete f
  let f ← okVal (env.NewSequentialFile (str "/dir/f") .uninit)
  seqReadIs f 5 (str "hello")
  ok (skip f 1)
  seqReadIs f 1000 (str "world")
  seqReadIs f 100 []
  ok (skip f 100)
  let _ ← okVal (files.seqRead f 1000)
  files.delete f
  let f ← okVal (env.NewRandomAccessFile (str "/dir/f") .uninit)
  randReadIs f 6 5 (str "world")
  randReadIs f 0 5 (str "hello")
  randReadIs f 10 100 (str "d")
  fails (do return (← randRead f 1000 5).1)
  files.delete f

def locks : E Unit := do
  let l ← okVal (env.LockFile (str "some file") .uninit)
  ok (env.UnlockFile l)

def misc : E Unit := do
  let d ← okVal (env.GetTestDirectory [])
  check' (d != [])
  let f ← okVal (env.NewWritableFile (str "/a/b") .uninit)
  ok (files.sync f)
  ok (files.close f)
  files.delete f

/-- The loop of the test; `fuel` reads at most. -/
def readAll (f : Ptr) (kWriteSize : Nat) : Nat → Bytes → E Bytes
  | 0, data => return data
  | fuel + 1, data =>
    if data.length < kWriteSize then do
      let r ← okVal (files.seqRead f (kWriteSize - data.length))
      readAll f kWriteSize fuel (data ++ r.getD [])
    else return data

/-- Scaled down: `kWriteSize` is 300 KiB in the test. -/
def largeWrite (kWriteSize : Nat) : E Unit := do
  let write_data : Bytes := (List.range kWriteSize).map UInt8.ofNat
  let f ← okVal (env.NewWritableFile (str "/dir/f") .uninit)
  append f (str "foo")
  append f write_data
  files.delete f
  let f ← okVal (env.NewSequentialFile (str "/dir/f") .uninit)
  seqReadIs f 3 (str "foo")
  let read_data ← readAll f kWriteSize 10 []
  check' (write_data == read_data)
  files.delete f

def overwriteOpenFile : E Unit := do
  let name := str "/tmp/leveldb-TestFile.dat"
  ok (WriteStringToFile env files (Slice.ofBytes (str "Write #1 data")) name)
  let f ← okVal (env.NewRandomAccessFile name .uninit)
  ok (WriteStringToFile env files (Slice.ofBytes (str "Write #2 data")) name)
  randReadIs f 0 13 (str "Write #2 data")
  files.delete f

example : passes (memTest basics) = true := by decide +kernel
example : passes (memTest readWrite) = true := by decide +kernel
example : passes (memTest locks) = true := by decide +kernel
example : passes (memTest misc) = true := by decide +kernel
example : passes (memTest (largeWrite 1000)) = true := by decide +kernel
example : passes (memTest overwriteOpenFile) = true := by decide +kernel

/-! ## util/arena_test.cc

The first allocations of the 100000 of the test.  Blocks come from a bump allocator.  The bound of 10 % is checked from allocation
10001 on only; the patterns the test writes and reads back (no overlap) are C17. -/

structure AFix where
  arena : Arena.State
  brk : Nat
  bytes : Nat
  rnd : UInt32

/-- `rnd.OneIn(4000) ? rnd.Uniform(6000) : (rnd.OneIn(10) ? rnd.Uniform(100) : rnd.Uniform(20))`. -/
def pickSize (rnd : UInt32) : M (UInt32 × UInt32) := do
  let (b, rnd) ← Random.OneIn rnd 4000
  if b then Random.Uniform rnd 6000
  else
    let (b, rnd) ← Random.OneIn rnd 10
    if b then Random.Uniform rnd 100 else Random.Uniform rnd 20

def arenaStep (N i : Nat) (s : AFix) : M AFix := do
  let (sz, rnd) ← if i % (N / 10) = 0 then pure (i, s.rnd) else do
    let (u, rnd) ← pickSize s.rnd
    pure (u.toNat, rnd)
  let sz := if sz = 0 then 1 else sz
  let (al, rnd) ← Random.OneIn rnd 10
  match ← Arena.step s.arena ⟨sz, al⟩ (some s.brk) with
  | none => .error .assertFail
  | some (_, a) =>
    let brk := if a.blocks.length = s.arena.blocks.length then s.brk else s.brk + (sz + 4096) / 8 * 8 + 8
    let bytes := s.bytes + sz
    expect (Arena.MemoryUsage a ≥ bytes)
    if i > N / 10 then expect (Arena.MemoryUsage a * 10 ≤ bytes * 11)
    return ⟨a, brk, bytes, rnd⟩

def arenaLoop (N : Nat) : Nat → Nat → AFix → M Unit
  | 0, _, _ => .ok ()
  | k + 1, i, s => do arenaLoop N k (i + 1) (← arenaStep N i s)

/-- The first `k` rounds of the test. -/
def arenaTest (k : Nat) : M Unit := arenaLoop 100000 k 0 ⟨Arena.init, 4096, 0, Random.init 301⟩

example : passes (arenaTest 1000) = true := by decide +kernel

end RepoTests
end Lsmdb
