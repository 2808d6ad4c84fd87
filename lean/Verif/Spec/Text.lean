import Verif.Model.Basic

/-!
# Decimal numbers and printable text, independent of the code
-/

namespace Lsmdb.Spec

/-- ASCII '0'..'9'. -/
def isDigit (c : UInt8) : Bool := 48 ≤ c.toNat && c.toNat ≤ 57

/-- The number a digit string denotes (most significant digit first). -/
def decValue (ds : Bytes) : Nat := ds.foldl (fun acc c => acc * 10 + (c.toNat - 48)) 0

/-- The longest prefix consisting of digits. -/
def digitRun (bs : Bytes) : Bytes := bs.takeWhile isDigit

/-- Printable ASCII: space to tilde. -/
def printable (c : UInt8) : Prop := 32 ≤ c.toNat ∧ c.toNat ≤ 126

instance (c : UInt8) : Decidable (printable c) := inferInstanceAs (Decidable (_ ∧ _))

/-- The lower-case hexadecimal digits in order. -/
def hexChars : Bytes := [48, 49, 50, 51, 52, 53, 54, 55, 56, 57, 97, 98, 99, 100, 101, 102]

/-- How one byte is shown: itself if printable, else backslash, 'x' and two hexadecimal digits. -/
def escapeByte (c : UInt8) : Bytes :=
  if printable c then [c]
  else [0x5c, 0x78, hexChars.getD (c.toNat / 16) 0, hexChars.getD (c.toNat % 16) 0]

end Lsmdb.Spec
