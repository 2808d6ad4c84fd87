import Verif.Model.Basic

/-!
# Model of `util/arena.h` and `util/arena.cc`

Memory is a flat space of byte addresses.  `new char[n]` is an oracle: `some a` is the address it
returns, `none` means it throws `std::bad_alloc` (the arena call is then abandoned and, as the code
assigns its members only after `new` returned, the arena is unchanged).
-/

namespace Lsmdb
namespace Arena

/-- `static const int kBlockSize = 4096` (util/arena.cc:9). -/
def kBlockSize : Nat := 4096

/-- The members of Arena (util/arena.h:40-50).  `blocks_` holds the addresses; the size given to
`new[]` is kept beside it because the properties talk about it.  Simplification: `memory_usage_` does
not wrap (it counts memory that exists). -/
structure State where
  alloc_ptr : Nat
  remaining : Nat
  blocks : List (Nat × Nat)
  usage : Nat
  deriving DecidableEq

/-- `Arena::Arena()` (util/arena.cc:11-12). -/
def init : State := ⟨0, 0, [], 0⟩

/-- `AllocateNewBlock` (util/arena.cc:60-66). -/
def AllocateNewBlock (s : State) (block_bytes : Nat) (new : Option Nat) : Option (Nat × State) :=
  match new with
  | none => none
  | some result =>
    some (result, { s with blocks := s.blocks ++ [(result, block_bytes)],
                           usage := s.usage + (block_bytes + 8) })

/-- `AllocateFallback` (util/arena.cc:20-37). -/
def AllocateFallback (s : State) (bytes : Nat) (new : Option Nat) : Option (Nat × State) :=
  if bytes > kBlockSize / 4 then
    AllocateNewBlock s bytes new
  else
    match AllocateNewBlock s kBlockSize new with
    | none => none
    | some (p, s) =>
      let s := { s with alloc_ptr := p, remaining := kBlockSize }
      let result := s.alloc_ptr
      some (result, { s with alloc_ptr := s.alloc_ptr + bytes, remaining := s.remaining - bytes })

/-- `Arena::Allocate` (util/arena.h:53-65), with its assertion. -/
def Allocate (s : State) (bytes : Nat) (new : Option Nat) : M (Option (Nat × State)) := do
  cassert (decide (bytes > 0))
  if bytes ≤ s.remaining then
    let result := s.alloc_ptr
    return some (result, { s with alloc_ptr := s.alloc_ptr + bytes, remaining := s.remaining - bytes })
  return AllocateFallback s bytes new

/-- `Arena::AllocateAligned` (util/arena.cc:39-58), 64-bit pointers, `align` = 8; `bytes + slop` is
`size_t` arithmetic. -/
def AllocateAligned (s : State) (bytes : Nat) (new : Option Nat) : M (Option (Nat × State)) := do
  let align := 8
  let current_mod := s.alloc_ptr % align
  let slop := if current_mod = 0 then 0 else align - current_mod
  let needed := (bytes + slop) % 2 ^ 64
  let r ← if needed ≤ s.remaining then
      pure (some (s.alloc_ptr + slop,
        { s with alloc_ptr := s.alloc_ptr + needed, remaining := s.remaining - needed }))
    else pure (AllocateFallback s bytes new)
  match r with
  | none => return none
  | some (result, s) =>
    cassert (decide (result % align = 0))
    return some (result, s)

/-- `MemoryUsage` (util/arena.h:31-33). -/
def MemoryUsage (s : State) : Nat := s.usage

/-- `Arena::~Arena` (util/arena.cc:14-18): the addresses passed to `delete[]`, in order. -/
def destroy (s : State) : List Nat := s.blocks.map (·.1)

/-- A client call: how many bytes, and whether aligned. -/
structure Call where
  bytes : Nat
  aligned : Bool

/-- Execute one call. -/
def step (s : State) (c : Call) (new : Option Nat) : M (Option (Nat × State)) :=
  if c.aligned then AllocateAligned s c.bytes new else Allocate s c.bytes new

/-- A block handed to the client. -/
structure Alloc where
  addr : Nat
  size : Nat
  aligned : Bool
  deriving DecidableEq

/-- Execute a history of calls, each with the outcome of the `new[]` it may perform; returns the
final arena and everything handed out (calls that threw hand out nothing). -/
def run (s : State) (log : List Alloc) : List (Call × Option Nat) → M (State × List Alloc)
  | [] => .ok (s, log)
  | (c, new) :: rest => do
    match ← step s c new with
    | none => run s log rest
    | some (p, s') => run s' (log ++ [⟨p, c.bytes, c.aligned⟩]) rest

end Arena
end Lsmdb
