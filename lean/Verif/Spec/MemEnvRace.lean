import Verif.Spec.Race
import Verif.Spec.MemEnvConc

/-!
# Data races of the in-memory Env
-/

namespace Lsmdb
namespace MemConc
open MemEnv
open CacheConc (Tid)

/-- The memory that the threads share: `file_map_`; `refs_`, and `blocks_` with `size_`, of each `FileState`; the members of each file
object; and the mutexes. -/
inductive Loc where
  | map
  | refs (i : Nat)
  | content (i : Nat)
  | obj (h : Nat)
  | mutex (l : Lock)
  deriving DecidableEq

/-- What is stored there (`none`: the object does not exist). -/
inductive Val where
  | map (m : FileMap)
  | refs (n : Option Int)
  | content (c : Option Content)
  | obj (o : Option Obj)
  | mutex

/-- The `FileState` at address `i`. -/
def fileAt (e : Env) (i : Nat) : Option FileState := (e.files[i]?).join

def valueAt : Loc → Env → Val
  | .map, e => .map e.map
  | .refs i, e => .refs ((fileAt e i).map (·.refs))
  | .content i, e => .content ((fileAt e i).map fun f => ⟨f.blocks, f.size⟩)
  | .obj h, e => .obj (e.objs[h]?).join
  | .mutex _, _ => .mutex

/-- The memory; the allocator has given out as many addresses for `FileState`s and for file objects. -/
def memory : Race.Memory Env Loc Val (Nat × Nat) := ⟨valueAt, fun e => (e.files.length, e.objs.length)⟩

/-- The next step of thread `t` writes the location; freeing an object counts as writing all of it, also its mutexes. -/
inductive WritesNext (w : World) (t : Tid) : Loc → Prop
  | act {β : Type} {f : Env → M (Env × β)} {next : β → Code} {l : Loc} (h : w.pc t = .run (.act f next))
      (x : Race.Writes memory f l w.env) : WritesNext w t l
  | freeRefs {i : Nat} {next : Code} (h : w.pc t = .run (.free i next)) : WritesNext w t (.refs i)
  | freeContent {i : Nat} {next : Code} (h : w.pc t = .run (.free i next)) : WritesNext w t (.content i)
  | freeRefsMutex {i : Nat} {next : Code} (h : w.pc t = .run (.free i next)) : WritesNext w t (.mutex (.refs i))
  | freeBlocksMutex {i : Nat} {next : Code} (h : w.pc t = .run (.free i next)) : WritesNext w t (.mutex (.blocks i))
  | goneMap {next : Code} (h : w.pc t = .run (.gone next)) : WritesNext w t .map
  | goneMutex {next : Code} (h : w.pc t = .run (.gone next)) : WritesNext w t (.mutex .env)

/-- The next step of thread `t` reads the location, or locks or unlocks the mutex there. -/
inductive ReadsNext (w : World) (t : Tid) : Loc → Prop
  | act {β : Type} {f : Env → M (Env × β)} {next : β → Code} {l : Loc} (h : w.pc t = .run (.act f next))
      (x : Race.Reads memory f l w.env) : ReadsNext w t l
  | lock {l : Lock} {next : Code} (h : w.pc t = .run (.lock l next)) : ReadsNext w t (.mutex l)
  | unlock {l : Lock} {next : Code} (h : w.pc t = .run (.unlock l next)) : ReadsNext w t (.mutex l)

/-- A data race: the next steps of two threads access the same location and one of them writes it. -/
def DataRace (w : World) : Prop :=
  ∃ t u l, t ≠ u ∧ WritesNext w t l ∧ (ReadsNext w u l ∨ WritesNext w u l)

end MemConc
end Lsmdb
