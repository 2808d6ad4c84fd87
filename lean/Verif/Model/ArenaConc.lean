import Verif.Model.Arena

/-!
# Model of the arena while other threads call `MemoryUsage` (util/arena.h, util/arena.cc)

One thread (number 0) allocates; `memory_usage_` is atomic and any thread may read it, with `memory_order_relaxed`.  All other members
belong to the allocating thread.  An atomic object has a modification order; a read returns any value that is not older than what the
reading thread knows, and after that the thread knows this value (coherence).  Threads tell each other what they know by any means that
synchronizes (a mutex, an atomic with release and acquire, the start of a thread): here `send` and `receive`.
-/

namespace Lsmdb
namespace ArenaConc
open Arena

abbrev Tid := Nat

/-- The members that belong to the allocating thread (util/arena.h:42-46).  `blocks` as in `Model/Arena`. -/
structure Private where
  alloc_ptr : Nat
  remaining : Nat
  blocks : List (Nat × Nat)

/-- What the allocating thread still has to do in a call. -/
inductive Code where
  /-- `memory_usage_.fetch_add(n, std::memory_order_relaxed)` -/
  | add (n : Nat) (next : Code)
  /-- return; `none`: `std::bad_alloc` -/
  | ret (p : Option Nat) (s : Private)
  /-- a failed assertion -/
  | fault

/-- `AllocateNewBlock` (util/arena.cc:60-66): `new`, `push_back`, then `fetch_add`. -/
def newBlockCode (s : Private) (block_bytes : Nat) (new : Option Nat) (k : Nat → Private → Code) : Code :=
  match new with
  | none => .ret none s
  | some result => .add (block_bytes + 8) (k result { s with blocks := s.blocks ++ [(result, block_bytes)] })

/-- `AllocateFallback` (util/arena.cc:20-37). -/
def fallbackCode (s : Private) (bytes : Nat) (new : Option Nat) (k : Nat → Private → Code) : Code :=
  if bytes > kBlockSize / 4 then newBlockCode s bytes new k
  else
    newBlockCode s kBlockSize new fun p s =>
    k p { s with alloc_ptr := p + bytes, remaining := kBlockSize - bytes }

/-- `Allocate` (util/arena.h:53-65). -/
def allocateCode (s : Private) (bytes : Nat) (new : Option Nat) : Code :=
  if bytes > 0 then
    if bytes ≤ s.remaining then
      .ret (some s.alloc_ptr) { s with alloc_ptr := s.alloc_ptr + bytes, remaining := s.remaining - bytes }
    else fallbackCode s bytes new fun p s => .ret (some p) s
  else .fault

/-- The assertion at the end of `AllocateAligned`, and its return (util/arena.cc:56-57). -/
def alignedEnd (p : Nat) (s : Private) : Code := if p % 8 = 0 then .ret (some p) s else .fault

/-- `AllocateAligned` (util/arena.cc:39-58). -/
def alignedCode (s : Private) (bytes : Nat) (new : Option Nat) : Code :=
  let current_mod := s.alloc_ptr % 8
  let slop := if current_mod = 0 then 0 else 8 - current_mod
  let needed := (bytes + slop) % 2 ^ 64
  if needed ≤ s.remaining then
    alignedEnd (s.alloc_ptr + slop) { s with alloc_ptr := s.alloc_ptr + needed, remaining := s.remaining - needed }
  else fallbackCode s bytes new alignedEnd

/-- The code of a call. -/
def code (s : Private) (c : Call) (new : Option Nat) : Code :=
  if c.aligned then alignedCode s c.bytes new else allocateCode s c.bytes new

/-- The members, the allocating thread's position (`none`: not in a call), the values of `memory_usage_` in modification order, the
number of the value that each thread knows, and what was sent. -/
structure World where
  mem : Private
  pc : Option Code
  mods : List Nat
  view : Tid → Nat
  sent : List Nat

/-- `Arena::Arena` (util/arena.cc:11-12); all threads know the arena. -/
def World.init : World := ⟨⟨0, 0, []⟩, none, [0], fun _ => 0, []⟩

/-- Thread `t` knows the value number `m`. -/
def World.see (w : World) (t : Tid) (m : Nat) : World := { w with view := fun u => if u = t then m else w.view u }

inductive Ev where
  /-- thread 0 calls `Allocate` or `AllocateAligned`; what `new[]` will do if it is called -/
  | call (c : Call) (new : Option Nat)
  /-- the call returns -/
  | ret (p : Option Nat)
  /-- thread `t` calls `MemoryUsage`, which returns `v` -/
  | load (t : Tid) (v : Nat)
  /-- thread `t` makes all it knows known to whoever receives it -/
  | send (t : Tid)
  /-- thread `t` receives what was sent as number `i` -/
  | receive (t : Tid) (i : Nat)

inductive Step : World → Option Ev → World → Prop
  | call {w : World} (c : Call) (new : Option Nat) (h : w.pc = none) :
      Step w (some (.call c new)) { w with pc := some (code w.mem c new) }
  /-- a read-modify-write reads the last value in modification order -/
  | add {w : World} {n last : Nat} {next : Code} (h : w.pc = some (.add n next)) (hl : w.mods.getLast? = some last) :
      Step w none ({ w with pc := some next, mods := w.mods ++ [last + n] }.see 0 w.mods.length)
  | ret {w : World} {p : Option Nat} {s : Private} (h : w.pc = some (.ret p s)) :
      Step w (some (.ret p)) { w with pc := none, mem := s }
  /-- `MemoryUsage` (util/arena.h:31-33) -/
  | load {w : World} {t : Tid} {m v : Nat} (h : t = 0 → w.pc = none) (hm : w.view t ≤ m) (hv : w.mods[m]? = some v) :
      Step w (some (.load t v)) (w.see t m)
  | send {w : World} {t : Tid} (h : t = 0 → w.pc = none) : Step w (some (.send t)) { w with sent := w.sent ++ [w.view t] }
  | receive {w : World} {t : Tid} {i m : Nat} (h : t = 0 → w.pc = none) (hi : w.sent[i]? = some m) :
      Step w (some (.receive t i)) (w.see t (max (w.view t) m))

end ArenaConc
end Lsmdb
