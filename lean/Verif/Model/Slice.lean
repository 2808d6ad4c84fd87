import Verif.Model.Basic

/-!
# Model of `include/lsmdb/slice.h`
-/

namespace Lsmdb

/-- `class Slice` (include/lsmdb/slice.h:24-88): `data_` is a pointer into the storage object `buf`
at index `off`, `size_` is `len`.  Simplification: lengths are `Nat` (`size_t` values never wrap for
objects that exist in memory). -/
structure Slice where
  buf : Bytes
  off : Nat
  len : Nat
  deriving DecidableEq, Repr

namespace Slice

/-- The slice really points at `len` bytes of its storage: what every user of a Slice must ensure
(include/lsmdb/slice.h:4-7). -/
def WF (s : Slice) : Prop := s.off + s.len ≤ s.buf.length

instance (s : Slice) : Decidable s.WF := inferInstanceAs (Decidable (_ ≤ _))

/-- The bytes referred to (specification-level view; also `ToString()`, slice.h:72). -/
def bytes (s : Slice) : Bytes := (s.buf.drop s.off).take s.len

/-- `Slice()` (slice.h:27). -/
def empty : Slice := ⟨[], 0, 0⟩

/-- `Slice(const std::string& s)` (slice.h:33). -/
def ofBytes (b : Bytes) : Slice := ⟨b, 0, b.length⟩

/-- `operator[]` (slice.h:53-56), with its assertion. -/
def get (s : Slice) (n : Nat) : M UInt8 := do
  cassert (decide (n < s.len))
  rd s.buf (s.off + n)

/-- `clear()` (slice.h:59-62). -/
def clear (_ : Slice) : Slice := empty

/-- `remove_prefix` (slice.h:65-69), with its assertion. -/
def removePrefix (s : Slice) (n : Nat) : M Slice := do
  cassert (decide (n ≤ s.len))
  return ⟨s.buf, s.off + n, s.len - n⟩

/-- `ToString()` (slice.h:72): copies `size_` bytes; faults if they are not all there. -/
def toString (s : Slice) : M Bytes :=
  if s.off + s.len ≤ s.buf.length then .ok ((s.buf.drop s.off).take s.len)
  else .error .outOfBounds

end Slice

/-- The comparison loop of `memcmp` on `n` bytes, bytes compared as unsigned char. -/
def memcmpLoop (a : Bytes) (i : Nat) (b : Bytes) (j : Nat) : Nat → M Int
  | 0 => .ok 0
  | n + 1 => do
    let x ← rd a i
    let y ← rd b j
    if x < y then return -1
    else if y < x then return 1
    else memcmpLoop a (i + 1) b (j + 1) n

/-- C `memcmp(a+i, b+j, n)`: both objects must have `n` readable bytes, even if the first ones
already differ.  Simplification: the standard fixes only the sign of the result; the model returns
-1/0/1, and the callers in this code base use only the sign. -/
def memcmp (a : Bytes) (i : Nat) (b : Bytes) (j : Nat) (n : Nat) : M Int :=
  if i + n ≤ a.length ∧ j + n ≤ b.length then memcmpLoop a i b j n else .error .outOfBounds

namespace Slice

/-- `Slice::compare` (slice.h:97-107). -/
def compare (s b : Slice) : M Int := do
  let min_len := if s.len < b.len then s.len else b.len
  let r ← memcmp s.buf s.off b.buf b.off min_len
  if r = 0 then
    if s.len < b.len then return -1
    else if s.len > b.len then return 1
    else return r
  else return r

/-- `starts_with` (slice.h:81-83); `&&` short-circuits. -/
def startsWith (s x : Slice) : M Bool := do
  if s.len ≥ x.len then
    let r ← memcmp s.buf s.off x.buf x.off x.len
    return r == 0
  else return false

/-- `operator==` (slice.h:90-93). -/
def eq (x y : Slice) : M Bool := do
  if x.len = y.len then
    let r ← memcmp x.buf x.off y.buf y.off x.len
    return r == 0
  else return false

/-- `operator!=` (slice.h:95). -/
def ne (x y : Slice) : M Bool := do
  let r ← eq x y
  return !r

end Slice
end Lsmdb
