import Verif.Model.Logging

/-!
# Model of `util/posix_logger.h`

`snprintf` and `vsnprintf` are the C library's: the text a format produces is a parameter for `vsnprintf` (`none`: the conversion
fails) and computed for the header format; a text longer than `INT_MAX` is an error.  `fwrite` hands the bytes to the stream in one
piece (a stream that fails is not modelled: `Logv` ignores errors).  `ndebug`: built with `NDEBUG`, so that `assert` does nothing.
-/

namespace Lsmdb
namespace Logger

/-- `std::tm` (the fields used) with the microseconds of `timeval` (posix_logger.h:34-38). -/
structure Time where
  tm_year : Int
  tm_mon : Int
  tm_mday : Int
  tm_hour : Int
  tm_min : Int
  tm_sec : Int
  tv_usec : Int
  deriving DecidableEq, Repr

/-- A character buffer; `none` is a character not yet written. -/
abbrev Buf := List (Option UInt8)

/-- The range of `int`. -/
def isInt (v : Int) : Prop := -2 ^ 31 ≤ v ∧ v < 2 ^ 31

instance (v : Int) : Decidable (isInt v) := inferInstanceAs (Decidable (_ ∧ _))

/-- Addition of `int`s; overflow is undefined (C++). -/
def addInt (a b : Int) : M Int := if isInt (a + b) then pure (a + b) else .error .arith

/-- `assert(c)`. -/
def assert (ndebug : Bool) (c : Bool) : M Unit := if ndebug || c then pure () else .error .assertFail

/-- The conversion `%0<w>d` (C library): at least `w` characters including a sign, padded with zeros. -/
def padInt (w : Nat) (v : Int) : Bytes :=
  let digits := Logging.decDigits v.natAbs
  let sign : Bytes := if v < 0 then [45] else []
  sign ++ List.replicate (w - (sign.length + digits.length)) 48 ++ digits

/-- The header format `"%04d/%02d/%02d-%02d:%02d:%02d.%06d %s "` (posix_logger.h:63-68); `%s` stops at a null character. -/
def headerText (t : Time) (thread_id : Bytes) : M Bytes := do
  let year ← addInt t.tm_year 1900
  let mon ← addInt t.tm_mon 1
  return padInt 4 year ++ [47] ++ padInt 2 mon ++ [47] ++ padInt 2 t.tm_mday ++ [45] ++ padInt 2 t.tm_hour ++ [58] ++
    padInt 2 t.tm_min ++ [58] ++ padInt 2 t.tm_sec ++ [46] ++ padInt 6 t.tv_usec ++ [32] ++
    thread_id.takeWhile (· ≠ 0) ++ [32]

/-- Writes characters into a buffer. -/
def poke (buf : Buf) (off : Nat) (bs : Bytes) : M Buf :=
  if off + bs.length ≤ buf.length then pure (buf.take off ++ bs.map some ++ buf.drop (off + bs.length))
  else .error .outOfBounds

/-- Makes the characters from `off` on indeterminate. -/
def scramble (buf : Buf) (off : Nat) : Buf := buf.take off ++ List.replicate (buf.length - off) none

/-- `snprintf(buf + off, n, ...)` (C library) for a format that produces `text`: writes at most `n - 1` characters and a null
character; returns the length of the text, or -1 if the conversion fails or the length is no `int`. A negative `n` becomes a huge
`size_t`. -/
def snprintf (buf : Buf) (off n : Int) (text : Option Bytes) : M (Buf × Int) :=
  if off < 0 ∨ n < 0 ∨ (buf.length : Int) < off + n then .error .outOfBounds
  else match text with
    | none => pure (scramble buf off.toNat, -1)
    | some text =>
      if (text.length : Int) ≥ 2 ^ 31 then pure (scramble buf off.toNat, -1)
      else if n = 0 then pure (buf, text.length)
      else do
        let buf ← poke buf off.toNat (text.take (n.toNat - 1) ++ [0])
        return (buf, text.length)

/-- Reads a character of a buffer. -/
def peek (buf : Buf) (i : Int) : M UInt8 :=
  if i < 0 then .error .outOfBounds
  else match buf[i.toNat]? with
    | none => .error .outOfBounds
    | some none => .error .uninit
    | some (some c) => pure c

/-- `fwrite(buffer, 1, n, fp)`: the characters written. -/
def fwrite (buf : Buf) (n : Int) : M Bytes :=
  if n < 0 ∨ (buf.length : Int) < n then .error .outOfBounds
  else (buf.take n.toNat).mapM fun c => match c with
    | none => .error .uninit
    | some c => pure c

/-- `kMaxThreadIdSize`, `kStackBufferSize` (posix_logger.h:41, 51). -/
def kMaxThreadIdSize : Nat := 32
def kStackBufferSize : Int := 512

/-- What is done when the second pass does not fit either (posix_logger.h:98-102). -/
def truncate (ndebug : Bool) (buffer_offset buffer_size : Int) : M Int :=
  if buffer_offset ≥ buffer_size - 1 then do
    assert ndebug false
    return buffer_size - 1
  else return buffer_offset

/-- Adds a newline if necessary (posix_logger.h:105-109). -/
def addNewline (buffer : Buf) (buffer_offset : Int) : M (Buf × Int) := do
  let last ← peek buffer (buffer_offset - 1)
  if last ≠ 10 then
    let buffer ← poke buffer buffer_offset.toNat [10]
    return (buffer, buffer_offset + 1)
  else return (buffer, buffer_offset)

/-- One pass of the loop (posix_logger.h:57-119) over a buffer of `buffer_size` characters: `inl` is the size of the dynamic buffer
for the next pass, `inr` the text handed to `fwrite`; with the number of dynamic buffers allocated and not freed. -/
def pass (ndebug : Bool) (t : Time) (thread_id : Bytes) (message : Option Bytes) (iteration : Nat) (buffer_size : Int) :
    M ((Int ⊕ Bytes) × Nat) := do
  if buffer_size < 0 then .error .outOfBounds
  else
    -- posix_logger.h:60-61
    let buffer : Buf := List.replicate buffer_size.toNat none
    let live := if iteration = 0 then 0 else 1
    -- posix_logger.h:63-68
    let header ← headerText t thread_id
    let (buffer, buffer_offset) ← snprintf buffer 0 buffer_size (some header)
    -- posix_logger.h:73-76
    assert ndebug (buffer_offset ≤ 28 + kMaxThreadIdSize)
    assert ndebug (buffer_offset < buffer_size)
    -- posix_logger.h:79-84
    let (buffer, written) ← snprintf buffer buffer_offset (buffer_size - buffer_offset) message
    let buffer_offset ← addInt buffer_offset written
    -- posix_logger.h:88-96
    if buffer_offset ≥ buffer_size - 1 ∧ iteration = 0 then
      let dynamic_buffer_size ← addInt buffer_offset 2
      return (.inl dynamic_buffer_size, live)
    else
      let buffer_offset ← truncate ndebug buffer_offset buffer_size
      let (buffer, buffer_offset) ← addNewline buffer buffer_offset
      -- posix_logger.h:111-113
      assert ndebug (buffer_offset ≤ buffer_size)
      let text ← fwrite buffer buffer_offset
      -- posix_logger.h:115-117
      let live := if iteration ≠ 0 then live - 1 else live
      return (.inr text, live)

/-- What a call does: the texts it hands to `fwrite`, and how many dynamic buffers it leaves allocated. -/
structure Effect where
  writes : List Bytes
  leaked : Nat
  deriving DecidableEq, Repr

/-- `PosixLogger::Logv` (posix_logger.h:32-120): the thread id is cut to 32 characters (lines 41-47); the first pass uses the stack
buffer, the second one a dynamic buffer, freed at lines 115-117. -/
def Logv (ndebug : Bool) (t : Time) (thread_id : Bytes) (message : Option Bytes) : M Effect := do
  let thread_id := if thread_id.length > kMaxThreadIdSize then thread_id.take kMaxThreadIdSize else thread_id
  let (r, live) ← pass ndebug t thread_id message 0 kStackBufferSize
  match r with
  | .inr text => return { writes := [text], leaked := live }
  | .inl dynamic_buffer_size =>
    let (r, live') ← pass ndebug t thread_id message 1 dynamic_buffer_size
    match r with
    | .inr text => return { writes := [text], leaked := live + live' }
    | .inl _ => return { writes := [], leaked := live + live' }

/-- A call of `Logv` and the time, thread and message it sees. -/
structure Call where
  time : Time
  thread_id : Bytes
  message : Option Bytes
  deriving DecidableEq, Repr

/-- The file after a sequence of calls: every `fwrite` appends (the stream is flushed after each, posix_logger.h:113). -/
def logAll (ndebug : Bool) : List Call → Bytes → M Bytes
  | [], file => return file
  | c :: cs, file => do
    let e ← Logv ndebug c.time c.thread_id c.message
    logAll ndebug cs (file ++ e.writes.flatten)

end Logger
end Lsmdb
