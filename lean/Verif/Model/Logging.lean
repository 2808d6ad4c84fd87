import Verif.Model.Slice

/-!
# Model of `util/logging.cc`
-/

namespace Lsmdb
namespace Logging

/-- The characters `printf("%llu")` produces: the decimal digits, most significant first (C library
behaviour). -/
def decDigits (n : Nat) : Bytes :=
  if n < 10 then [UInt8.ofNat (48 + n)] else decDigits (n / 10) ++ [UInt8.ofNat (48 + n % 10)]

/-- `snprintf(buf, cap, ...)` followed by `str->append(buf)`: at most `cap - 1` characters are stored
before the terminating NUL (C library behaviour); the formatted text here contains no NUL. -/
def snprintfText (cap : Nat) (text : Bytes) : Bytes := text.take (cap - 1)

/-- `AppendNumberTo` (util/logging.cc:16-20), `char buf[30]`. -/
def AppendNumberTo (str : Bytes) (num : UInt64) : Bytes :=
  str ++ snprintfText 30 (decDigits num.toNat)

/-- `NumberToString` (util/logging.cc:36-40). -/
def NumberToString (num : UInt64) : Bytes := AppendNumberTo [] num

/-- One lower-case hexadecimal digit (C library behaviour of `%x`). -/
def hexDigit (d : UInt8) : UInt8 := if d < 10 then 48 + d else 87 + d

/-- The text of `"\\x%02x"` (util/logging.cc:29-30). -/
def hexEscape (c : UInt8) : Bytes := [0x5c, 0x78, hexDigit (c / 16), hexDigit (c % 16)]

/-- The loop of `AppendEscapedStringTo` (util/logging.cc:22-34), `char buf[10]`.  A byte of 128 or
more is negative as a (signed) `char`, hence not `>= ' '`; as an unsigned `char` it is not `<= '~'`;
both readings give the test below. -/
def escapeLoop (value : Slice) (str : Bytes) (i : Nat) : M Bytes :=
  if i < value.len then do
    let c ← value.get i
    if 32 ≤ c ∧ c ≤ 126 then escapeLoop value (str ++ [c]) (i + 1)
    else escapeLoop value (str ++ snprintfText 10 (hexEscape c)) (i + 1)
  else return str
termination_by value.len - i

/-- `AppendEscapedStringTo` (util/logging.cc:22-34). -/
def AppendEscapedStringTo (str : Bytes) (value : Slice) : M Bytes := escapeLoop value str 0

/-- `EscapeString` (util/logging.cc:42-46). -/
def EscapeString (value : Slice) : M Bytes := AppendEscapedStringTo [] value

/-- `kMaxUint64` (util/logging.cc:50). -/
def kMaxUint64 : UInt64 := 0xffffffffffffffff

/-- `kLastDigitOfMaxUint64` (util/logging.cc:51-52). -/
def kLastDigit : UInt8 := 48 + (kMaxUint64 % 10).toUInt8

/-- The loop of `ConsumeDecimalNumber` (util/logging.cc:61-74): `none` is the early
`return false`, otherwise the final `current` and `value`. -/
def consumeLoop (buf : Bytes) (stop : Nat) (current : Nat) (value : UInt64) :
    M (Option (Nat × UInt64)) :=
  if current < stop then do
    let ch ← rd buf current
    if ch < 48 ∨ ch > 57 then return some (current, value)
    else if value > kMaxUint64 / 10 ∨ (value = kMaxUint64 / 10 ∧ ch > kLastDigit) then return none
    else consumeLoop buf stop (current + 1) (value * 10 + (ch - 48).toUInt64)
  else return some (current, value)
termination_by stop - current

/-- `ConsumeDecimalNumber` (util/logging.cc:48-80).  Result: returned bool, new `*in`, new `*val`. -/
def ConsumeDecimalNumber (input : Slice) (val : UInt64) : M (Bool × Slice × UInt64) := do
  let start := input.off
  match ← consumeLoop input.buf (start + input.len) start 0 with
  | none => return (false, input, val)
  | some (current, value) =>
    let digits_consumed := current - start
    let input ← input.removePrefix digits_consumed
    return (digits_consumed != 0, input, value)

end Logging
end Lsmdb
