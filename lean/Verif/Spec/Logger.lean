import Verif.Spec.Text
import Verif.Model.Logger

/-!
# What a log line is (C61), independent of the code
-/

namespace Lsmdb
namespace Logger
open Spec

/-- `s` is the number `v` written with exactly `w` decimal digits. -/
def Digits (s : Bytes) (w : Nat) (v : Int) : Prop :=
  s.length = w ∧ (∀ c ∈ s, isDigit c = true) ∧ (decValue s : Int) = v

/-- One ASCII character. -/
def chr (c : Char) : Bytes := [UInt8.ofNat c.toNat]

/-- `h` is `YYYY/MM/DD-hh:mm:ss.uuuuuu <thread> ` for the given time (`std::tm` counts years from 1900 and months from 0) and the
first 32 characters of the thread id. -/
def IsHeader (t : Time) (thread_id h : Bytes) : Prop :=
  ∃ Y M D hh mm ss us : Bytes,
    Digits Y 4 (t.tm_year + 1900) ∧ Digits M 2 (t.tm_mon + 1) ∧ Digits D 2 t.tm_mday ∧ Digits hh 2 t.tm_hour ∧
    Digits mm 2 t.tm_min ∧ Digits ss 2 t.tm_sec ∧ Digits us 6 t.tv_usec ∧
    h = Y ++ chr '/' ++ M ++ chr '/' ++ D ++ chr '-' ++ hh ++ chr ':' ++ mm ++ chr ':' ++ ss ++ chr '.' ++ us ++ chr ' ' ++
      thread_id.take 32 ++ chr ' '

/-- A time of day `localtime_r` and `gettimeofday` can yield, in a year of our era. -/
def Time.Ordinary (t : Time) : Prop :=
  0 ≤ t.tm_year + 1900 ∧ 0 ≤ t.tm_mon ∧ t.tm_mon ≤ 11 ∧ 1 ≤ t.tm_mday ∧ t.tm_mday ≤ 31 ∧ 0 ≤ t.tm_hour ∧ t.tm_hour ≤ 23 ∧
    0 ≤ t.tm_min ∧ t.tm_min ≤ 59 ∧ 0 ≤ t.tm_sec ∧ t.tm_sec ≤ 60 ∧ 0 ≤ t.tv_usec ∧ t.tv_usec ≤ 999999

/-- A message with the newline that ends its line. -/
def terminated (message : Bytes) : Bytes := if message.getLast? = some (UInt8.ofNat '\n'.toNat) then message else message ++ chr '\n'

/-- What a call is to add to the file. -/
def IsLine (t : Time) (thread_id message line : Bytes) : Prop :=
  ∃ h, IsHeader t thread_id h ∧ line = h ++ terminated message

end Logger
end Lsmdb
