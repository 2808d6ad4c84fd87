import Verif.Model.LoggerConc
import Verif.Spec.Logger

/-!
# What a log written by several threads is (C86)
-/

namespace Lsmdb
namespace LoggerConc
open Logger

/-- A call that C61 promises a line for. -/
def GoodCall (c : Call) : Prop :=
  c.time.Ordinary ∧ c.time.tm_year + 1900 ≤ 9999 ∧ 0 ∉ c.thread_id ∧ ∃ m, c.message = some m ∧ m.length ≤ 2 ^ 31 - 63

/-- A line in the log: the thread that called, the call, and the line. -/
structure Entry where
  thread : Nat
  call : Call
  line : Bytes

/-- The line is the one the call is to write. -/
def Entry.OK (e : Entry) : Prop := ∃ m, e.call.message = some m ∧ IsLine e.call.time e.call.thread_id m e.line

/-- The text of some lines. -/
def text (L : List Entry) : Bytes := (L.map (·.line)).flatten

/-- The calls of thread `t` among some lines. -/
def callsOf (L : List Entry) (t : Nat) : List Call := (L.filter (fun e => decide (e.thread = t))).map (·.call)

/-- A run, from `w` on, in which nobody makes a new call. -/
inductive Steps (ndebug : Bool) : World → World → Prop
  | refl (w : World) : Steps ndebug w w
  | cons {w w' w'' : World} (t : Nat) : Step ndebug t w w' → w'.calls = w.calls → Steps ndebug w' w'' → Steps ndebug w w''

end LoggerConc
end Lsmdb
