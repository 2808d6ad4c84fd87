import Verif.Model.Coding

/-!
# Model of `include/lsmdb/status.h` and `util/status.cc`

A program manipulates Status objects, named by natural numbers.  A message buffer is a heap object
(address = index into `heap`, addresses are not reused; a deleted object stays in the list as `none`,
so that use after free and double free are visible).  A cell of a freshly allocated array is `none`
until it is written.
-/

namespace Lsmdb
namespace Status

/-- `new char[n]`: a raw array, cells uninitialised until stored to. -/
abbrev Buf := List (Option UInt8)

structure Mem where
  /-- message buffers ever allocated; `none` = deleted -/
  heap : List (Option Buf)
  /-- live Status objects and their `state_` pointer (`none` = nullptr) -/
  objs : Nat → Option (Option Nat)

/-- No objects, nothing allocated. -/
def Mem.init : Mem := ⟨[], fun _ => none⟩

/-- `enum Code` without kOk (include/lsmdb/status.h:75-82). -/
inductive Code where
  | notFound | corruption | notSupported | invalidArgument | ioError
  deriving DecidableEq, Repr

/-- Numeric values (include/lsmdb/status.h:75-82). -/
def Code.num : Code → UInt8
  | .notFound => 1
  | .corruption => 2
  | .notSupported => 3
  | .invalidArgument => 4
  | .ioError => 5

/-- Read access to a buffer through a pointer. -/
def load (m : Mem) (p : Nat) : M Buf :=
  match m.heap[p]? with
  | some (some b) => .ok b
  | some none => .error .useAfterFree
  | none => .error .outOfBounds

/-- `delete[] p` (a null pointer is ignored). -/
def free (m : Mem) : Option Nat → M Mem
  | none => .ok m
  | some p =>
    match m.heap[p]? with
    | some (some _) => .ok { m with heap := m.heap.set p none }
    | some none => .error .doubleFree
    | none => .error .outOfBounds

/-- `new char[..]` with the given cells. -/
def alloc (m : Mem) (b : Buf) : Nat × Mem := (m.heap.length, { m with heap := m.heap ++ [some b] })

/-- `memcpy(buf + off, src, src.length)` into an array. -/
def store (b : Buf) (off : Nat) (src : Buf) : M Buf :=
  if off + src.length ≤ b.length then
    .ok (b.take off ++ src ++ b.drop (off + src.length))
  else .error .outOfBounds

/-- Read `n` cells (copying an uninitialised cell is allowed, `memcpy`). -/
def cells (b : Buf) (off n : Nat) : M Buf :=
  if off + n ≤ b.length then .ok ((b.drop off).take n) else .error .outOfBounds

/-- Use the values of cells: an uninitialised one is a fault. -/
def values : Buf → M Bytes
  | [] => .ok []
  | none :: _ => .error .uninit
  | some x :: r => do
    let xs ← values r
    return x :: xs

/-- Read the 4-byte length (host order; written and read by `memcpy` of a `uint32_t` only). -/
def readSize (b : Buf) : M UInt32 := do
  let c ← cells b 0 4
  let v ← values c
  Coding.DecodeFixed32 v 0

/-- The bytes of a Slice argument, as the cells `memcpy` copies: `n` bytes from `data()`. -/
def sliceCells (s : Slice) (n : Nat) : M Buf :=
  if s.off + n ≤ s.buf.length then .ok (((s.buf.drop s.off).take n).map some)
  else .error .outOfBounds

/-- `Status::CopyState` (util/status.cc:13-24).  `size + 5` is computed in `uint32_t`. -/
def CopyState (m : Mem) (p : Nat) : M (Nat × Mem) := do
  let b ← load m p
  let size ← readSize b
  let n := (size + 5).toNat
  let src ← cells b 0 n
  return alloc m src

/-- `Status::Status(Code, msg, msg2)` (util/status.cc:26-42): builds the array; all size arithmetic is
32 bits wide. -/
def buildState (code : Code) (msg msg2 : Slice) : M Buf := do
  let len1 : UInt32 := UInt32.ofNat msg.len
  let len2 : UInt32 := UInt32.ofNat msg2.len
  let size : UInt32 := len1 + (if len2 ≠ 0 then 2 + len2 else 0)
  let result : Buf := List.replicate (size + 5).toNat none
  let result ← store result 0 ((Coding.EncodeFixed32 size).map some)
  let result ← store result 4 [some code.num]
  let s1 ← sliceCells msg len1.toNat
  let result ← store result 5 s1
  if len2 ≠ 0 then
    let result ← store result (5 + len1).toNat [some 58]
    let result ← store result (6 + len1).toNat [some 32]
    let s2 ← sliceCells msg2 len2.toNat
    store result (7 + len1.toNat) s2
  else return result

/-- What a client can do with Status objects.  `i` is the object constructed / assigned to /
destroyed, `j` the source. -/
inductive Op where
  | mkOk (i : Nat)                                    -- Status() / OK()  (status.h:19, 29)
  | mkErr (i : Nat) (c : Code) (msg msg2 : Slice)     -- NotFound(...) etc. (status.h:32-50)
  | copyCtor (i j : Nat)                              -- Status(const Status&) (status.h:98-100)
  | moveCtor (i j : Nat)                              -- Status(Status&&) (status.h:25)
  | copyAssign (i j : Nat)                            -- operator=(const Status&) (status.h:102-110)
  | moveAssign (i j : Nat)                            -- operator=(Status&&) (status.h:112-115)
  | destroy (i : Nat)                                 -- ~Status() (status.h:20)

/-- The `state_` of a live object; using an object whose lifetime has ended is a fault. -/
def get (m : Mem) (i : Nat) : M (Option Nat) :=
  match m.objs i with
  | some p => .ok p
  | none => .error .useAfterFree

def step (m : Mem) : Op → M Mem
  | .mkOk i => .ok { m with objs := upd m.objs i (some none) }
  | .mkErr i c msg msg2 => do
    let b ← buildState c msg msg2
    let (p, m) := alloc m b
    return { m with objs := upd m.objs i (some (some p)) }
  | .copyCtor i j => do
    match ← get m j with
    | none => return { m with objs := upd m.objs i (some none) }
    | some p =>
      let (q, m) ← CopyState m p
      return { m with objs := upd m.objs i (some (some q)) }
  | .moveCtor i j => do
    let p ← get m j
    let m := { m with objs := upd m.objs i (some p) }
    return { m with objs := upd m.objs j (some none) }
  | .copyAssign i j => do
    let p ← get m i
    let q ← get m j
    if p ≠ q then
      let m ← free m p
      match q with
      | none => return { m with objs := upd m.objs i (some none) }
      | some q =>
        let (r, m) ← CopyState m q
        return { m with objs := upd m.objs i (some (some r)) }
    else return m
  | .moveAssign i j => do
    let p ← get m i
    let q ← get m j
    let m := { m with objs := upd m.objs i (some q) }
    return { m with objs := upd m.objs j (some p) }
  | .destroy i => do
    let p ← get m i
    let m ← free m p
    return { m with objs := upd m.objs i none }

def run (m : Mem) : List Op → M Mem
  | [] => .ok m
  | o :: os => do run (← step m o) os

/-- `ok()` (status.h:53). -/
def isOk (m : Mem) (i : Nat) : M Bool := do
  return (← get m i) == none

/-- `code()` (status.h:84-86); 0 is kOk. -/
def code (m : Mem) (i : Nat) : M UInt8 := do
  match ← get m i with
  | none => return 0
  | some p =>
    let b ← load m p
    let c ← cells b 4 1
    let v ← values c
    rd v 0

/-- The five predicates `IsNotFound()` ... (status.h:56-68). -/
def isCode (m : Mem) (i : Nat) (c : Code) : M Bool := do
  return (← code m i) == c.num

/-- The decimal text of a small code for the `default:` branch (util/status.cc:69-73). -/
def unknownText (c : UInt8) : Bytes :=
  "Unknown code(".toUTF8.toList ++ (toString c.toNat).toUTF8.toList ++ "): ".toUTF8.toList

/-- `switch (code())` (util/status.cc:50-74). -/
def typeText (c : UInt8) : Bytes :=
  if c = 0 then "OK".toUTF8.toList
  else if c = 1 then "NotFound: ".toUTF8.toList
  else if c = 2 then "Corruption: ".toUTF8.toList
  else if c = 3 then "Not implemented: ".toUTF8.toList
  else if c = 4 then "Invalid argument: ".toUTF8.toList
  else if c = 5 then "IO error: ".toUTF8.toList
  else unknownText c

/-- `Status::ToString` (util/status.cc:44-81). -/
def ToString (m : Mem) (i : Nat) : M Bytes := do
  match ← get m i with
  | none => return "OK".toUTF8.toList
  | some p =>
    let type := typeText (← code m i)
    let b ← load m p
    let length ← readSize b
    let c ← cells b 5 length.toNat
    let v ← values c
    return type ++ v

end Status
end Lsmdb
