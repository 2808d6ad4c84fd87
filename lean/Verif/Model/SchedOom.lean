import Verif.Model.Schedule

/-!
# `PosixEnv::Schedule` when the system is out of threads or memory (util/env_posix.cc:795-813)

`std::thread`'s constructor (line 802) throws `std::system_error` or `std::bad_alloc` when no thread can be made,
and `emplace` (line 811) throws `std::bad_alloc`.  The mutex is locked by hand (line 797), so an exception leaves
`Schedule` with the mutex locked; `started_background_thread_` is set before the thread is made (line 801).

A thread that calls `Schedule` while the mutex is locked, by whichever thread, waits (locking a `std::mutex` that
one holds oneself is undefined; with the usual implementations the thread waits for itself).  The caller catches
the exception.  The copies of the `std::function` in the background thread (lines 824-825) do not throw here: that
would end the process.
-/

namespace Lsmdb
namespace Sched

variable {Job : Type}

/-- What there was not enough of. -/
inductive Lack where
  | threads
  | memory
deriving DecidableEq

/-- What the clients see: as `Ev`, and calls of `Schedule` that throw. -/
inductive EvO (Job : Type) where
  | ok (e : Ev Job)
  | threw (t : Nat) (id : Nat) (why : Lack)

/-- One step of a thread; each attempt to make the thread or to extend the queue may fail. -/
inductive StepO : Sys Job → Option Nat → Option (EvO Job) → Sys Job → Prop
  /-- nothing is lacking -/
  | good {s s' : Sys Job} {who : Option Nat} {e : Option (Ev Job)} (h : Step s who e s') : StepO s who (e.map .ok) s'
  /-- `started_background_thread_ = true; std::thread background_thread(...);` throws (801-802) -/
  | noThread (s : Sys Job) (t : Nat) (w : Item Job) (h : s.pc t = .start w) (hs : s.started = false) :
      StepO s (some t) (some (.threw t w.id .threads)) ({ s with started := true }.at t .out)
  /-- `background_work_queue_.emplace(...)` throws (811) -/
  | noMemory (s : Sys Job) (t : Nat) (w : Item Job) (h : s.pc t = .push w) :
      StepO s (some t) (some (.threw t w.id .memory)) (s.at t .out)

/-- Runs from the construction of the Env, with what the clients see. -/
inductive RunO : List (EvO Job) → Sys Job → Prop
  | nil : RunO [] Sys.init
  | step {s s' : Sys Job} {es : List (EvO Job)} {who : Option Nat} {e : Option (EvO Job)} (h : RunO es s)
      (h' : StepO s who e s') : RunO (es ++ e.toList) s'

/-- What can happen from a state on. -/
inductive From : Sys Job → List (EvO Job) → Sys Job → Prop
  | nil (s : Sys Job) : From s [] s
  | step {s s' s'' : Sys Job} {es : List (EvO Job)} {who : Option Nat} {e : Option (EvO Job)} (h : From s es s')
      (h' : StepO s' who e s'') : From s (es ++ e.toList) s''

end Sched
end Lsmdb
