import Verif.Model.Logger

/-!
# Several threads use one `PosixLogger`

`Logv` takes no lock: what the threads share is the stream `fp_`, which the C library locks for the duration of one call (POSIX).  Inside
`fwrite` and `fflush` the library copies characters to the stream's buffer and hands any part of the buffer to the operating system at
any time, so that the file can be seen (and a killed process leaves it) between any two of these steps.  Stream errors are not modelled.
-/

namespace Lsmdb
namespace LoggerConc
open Logger (Call Logv)

/-- Where a thread is in `Logv`. -/
inductive Pc where
  | idle
  | fwrite (text : Bytes)    -- before the `fwrite` of `text` (posix_logger.h:112)
  | writing (rest : Bytes)   -- in `fwrite`, holding the stream's lock, `rest` still to be put into the buffer
  | fflush                   -- before the `fflush` (posix_logger.h:113)
  | flushing                 -- in `fflush`, holding the stream's lock
  deriving DecidableEq

/-- The file as the operating system has it, the stream's buffer, the holder of the stream's lock, and the threads; `calls` are the
calls a thread has made, in order, of which the first `returned` have returned. -/
structure World where
  file : Bytes
  buffer : Bytes
  owner : Option Nat
  pc : Nat → Pc
  calls : Nat → List Call
  returned : Nat → Nat

/-- A fresh logger on a file. -/
def World.init (file : Bytes) : World := ⟨file, [], none, fun _ => .idle, fun _ => [], fun _ => 0⟩

/-- Function update. -/
def set {β : Type} (f : Nat → β) (t : Nat) (v : β) : Nat → β := fun u => if u = t then v else f u

/-- A step of thread `t`. -/
inductive Step (ndebug : Bool) (t : Nat) : World → World → Prop
  /-- `Logv` up to `fwrite` (posix_logger.h:33-111): works on local variables only. -/
  | format {w : World} (c : Call) {text : Bytes} {leaked : Nat} : w.pc t = .idle →
      Logv ndebug c.time c.thread_id c.message = .ok ⟨[text], leaked⟩ →
      Step ndebug t w { w with pc := set w.pc t (.fwrite text), calls := set w.calls t (w.calls t ++ [c]) }
  /-- `fwrite` locks the stream. -/
  | lock {w : World} {text : Bytes} : w.pc t = .fwrite text → w.owner = none →
      Step ndebug t w { w with pc := set w.pc t (.writing text), owner := some t }
  /-- Some characters are put into the buffer. -/
  | put {w : World} {now rest : Bytes} : w.pc t = .writing (now ++ rest) →
      Step ndebug t w { w with pc := set w.pc t (.writing rest), buffer := w.buffer ++ now }
  /-- Part of the buffer is handed to the operating system, in `fwrite` or `fflush`. -/
  | drain {w : World} {now rest : Bytes} : w.owner = some t → w.buffer = now ++ rest →
      Step ndebug t w { w with file := w.file ++ now, buffer := rest }
  /-- `fwrite` ends. -/
  | written {w : World} : w.pc t = .writing [] → Step ndebug t w { w with pc := set w.pc t .fflush, owner := none }
  /-- `fflush` locks the stream. -/
  | lockFlush {w : World} : w.pc t = .fflush → w.owner = none → Step ndebug t w { w with pc := set w.pc t .flushing, owner := some t }
  /-- `fflush` ends when the buffer is empty, and `Logv` returns. -/
  | flushed {w : World} : w.pc t = .flushing → w.buffer = [] →
      Step ndebug t w { w with pc := set w.pc t .idle, owner := none, returned := set w.returned t (w.returned t + 1) }

/-- The states of a logger opened on a file with contents `file`, used by any number of threads. -/
inductive Reach (ndebug : Bool) (file : Bytes) : World → Prop
  | init : Reach ndebug file (.init file)
  | step {w w' : World} (t : Nat) : Reach ndebug file w → Step ndebug t w w' → Reach ndebug file w'

end LoggerConc
end Lsmdb
