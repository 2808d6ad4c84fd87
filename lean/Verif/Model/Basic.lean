/-!
# Common vocabulary of the model

Undefined behaviour and failed assertions are explicit outcomes (`Fault`), never assumed away.
-/

namespace Lsmdb

/-- What can go wrong in the C++ program.  Every partial operation of the model returns
`Except Fault _`. -/
inductive Fault where
  | nullDeref      -- dereference of a null pointer
  | outOfBounds    -- access outside the object pointed into
  | useAfterFree   -- access to a deleted object
  | doubleFree     -- second delete of the same object
  | uninit         -- read of memory never written
  | assertFail     -- a failed `assert` (assertion-enabled build)
  | arith          -- division by zero, shift out of range, signed overflow
  | diverges       -- a loop that does not end
  deriving DecidableEq, Repr

/-- A computation that may hit undefined behaviour. -/
abbrev M (α : Type) := Except Fault α

abbrev Bytes := List UInt8

/-- Outcomes can be compared (used in examples only). -/
instance {ε α : Type} [DecidableEq ε] [DecidableEq α] : DecidableEq (Except ε α)
  | .ok a, .ok b => if h : a = b then isTrue (h ▸ rfl) else isFalse (fun e => h (Except.ok.inj e))
  | .error a, .error b =>
    if h : a = b then isTrue (h ▸ rfl) else isFalse (fun e => h (Except.error.inj e))
  | .ok _, .error _ => isFalse (fun e => nomatch e)
  | .error _, .ok _ => isFalse (fun e => nomatch e)

/-- Read one byte through a pointer that points at index `i` of the object `buf`. -/
def rd (buf : Bytes) (i : Nat) : M UInt8 :=
  match buf[i]? with
  | some b => .ok b
  | none => .error .outOfBounds

/-- `assert(c)` in an assertion-enabled build. -/
def cassert (c : Bool) : M Unit := if c then .ok () else .error .assertFail

/-- Point update of a function (a store to one variable of a family). -/
def upd {α β : Type} [DecidableEq α] (f : α → β) (a : α) (b : β) : α → β :=
  fun x => if x = a then b else f x

theorem upd_same {α β : Type} [DecidableEq α] (f : α → β) (a : α) (b : β) : upd f a b a = b := by
  simp [upd]

theorem upd_other {α β : Type} [DecidableEq α] (f : α → β) {a x : α} (b : β) (h : x ≠ a) :
    upd f a b x = f x := by simp [upd, h]

end Lsmdb
