import Verif.Model.Status

/-!
# `Status` when memory runs out

The only allocations are the `new char[..]` of the constructor of an error (util/status.cc:32) and of `CopyState` (util/status.cc:21).
Here each operation comes with the information whether its `new char[..]`, if it does one, throws `std::bad_alloc`.
-/

namespace Lsmdb
namespace Status

/-- `CopyState` when `new char[size + 5]` throws (util/status.cc:19-21). -/
def CopyStateThrows (m : Mem) (p : Nat) : M Unit := do
  let b ← load m p
  let _ ← readSize b
  return ()

/-- An operation whose `new` throws: the state it leaves behind, and whether the exception left the operation (`false`: it does not
allocate, so it ran as usual).  A constructor that throws constructs no object. -/
def stepThrows (m : Mem) : Op → M (Mem × Bool)
  | .mkErr _ _ _ _ => .ok (m, true)                          -- util/status.cc:32
  | .copyCtor i j => do                                      -- status.h:98-100
    match ← get m j with
    | none => return (← step m (.copyCtor i j), false)
    | some p =>
      CopyStateThrows m p
      return (m, true)
  | .copyAssign i j => do                                    -- status.h:102-110
    let p ← get m i
    let q ← get m j
    if p ≠ q then
      let m ← free m p
      match q with
      | none => return ({ m with objs := upd m.objs i (some none) }, false)
      | some q =>
        CopyStateThrows m q
        return (m, true)
    else return (m, false)
  | o => do return (← step m o, false)                       -- the others do not allocate

/-- One operation; `throws`: a `new` in it throws. -/
def stepO (m : Mem) (o : Op) (throws : Bool) : M (Mem × Bool) :=
  if throws then stepThrows m o else do return (← step m o, false)

/-- A program that catches the exceptions and goes on: the final state, and which operations threw. -/
def runO (m : Mem) : List (Op × Bool) → M (Mem × List Bool)
  | [] => .ok (m, [])
  | (o, throws) :: os => do
    let (m, t) ← stepO m o throws
    let (m, ts) ← runO m os
    return (m, t :: ts)

end Status
end Lsmdb
