import Verif.Model.Basic

/-!
# Model of `PosixEnv::Schedule` and `BackgroundThreadMain` (util/env_posix.cc:795-832)

Thread 0 is the background thread; threads 1, 2, ... are any number of threads of the clients.  A function that
runs in the background may call `Schedule` itself.  A step is one statement of one thread; all accesses to the
shared variables are under the mutex except the ones the code makes without it (none), so statements are fine
enough.  `Wait` (port_stdcxx.h:68-72) releases the mutex and goes to sleep in one step, and takes the mutex again
when it is woken, by `Signal` or for no reason (a spurious wakeup).

`id` numbers the calls of `Schedule` in order of their beginning.  The code does not look at it; it is there to
say which run belongs to which call.  `std::thread` and `emplace` throw when the system is out of threads or
memory; Model/SchedOom has that.
-/

namespace Lsmdb
namespace Sched

/-- A function and its argument (env_posix.cc:746-752). -/
structure Item (Job : Type) where
  id : Nat
  job : Job

/-- Where a thread is in `Schedule` (env_posix.cc:795-813). -/
inductive Cpc (Job : Type) where
  /-- not in `Schedule` -/
  | out
  /-- before line 797 -/
  | lock (w : Item Job)
  /-- before line 800 -/
  | start (w : Item Job)
  /-- before line 807 -/
  | signal (w : Item Job)
  /-- before line 811 -/
  | push (w : Item Job)
  /-- before line 812 -/
  | unlock (w : Item Job)
  /-- about to return -/
  | leave (w : Item Job)

/-- Where the background thread is in `BackgroundThreadMain` (env_posix.cc:815-832). -/
inductive Bpc (Job : Type) where
  /-- not started yet -/
  | none
  /-- before line 817 -/
  | lock
  /-- before the test of line 820 -/
  | check
  /-- before line 821 -/
  | wait
  /-- inside of `Wait`, asleep -/
  | asleep
  /-- inside of `Wait`, woken up, waiting for the mutex -/
  | woken
  /-- before line 824 -/
  | pop
  /-- before line 829 -/
  | unlock (w : Item Job)
  /-- before line 830 -/
  | call (w : Item Job)
  /-- inside of the function called in line 830 -/
  | running (w : Item Job)
  /-- took an element from an empty queue -/
  | undefined

/-- What the clients see: calls of `Schedule`, returns, and the beginning and end of the runs. -/
inductive Ev (Job : Type) where
  | call (t : Nat) (id : Nat) (job : Job)
  | ret (t : Nat) (id : Nat)
  | run (id : Nat) (job : Job)
  | done (id : Nat)

/-- The variables of env_posix.cc:754-759 and the threads; `calls` counts the calls of `Schedule`. -/
structure Sys (Job : Type) where
  mutex : Option Nat
  queue : List (Item Job)
  started : Bool
  bg : Bpc Job
  pc : Nat → Cpc Job
  calls : Nat

variable {Job : Type}

/-- A thread moves on in `Schedule`. -/
def Sys.at (s : Sys Job) (t : Nat) (p : Cpc Job) : Sys Job := { s with pc := fun u => if u = t then p else s.pc u }

/-- The constructor (env_posix.cc:789-793). -/
def Sys.init : Sys Job := ⟨.none, [], false, .none, fun _ => .out, 0⟩

/-- `Signal` (port_stdcxx.h:73): wakes the background thread if it sleeps (no other thread waits). -/
def Bpc.signal : Bpc Job → Bpc Job
  | .asleep => .woken
  | b => b

/-- One step of a thread; `none` is a spurious wakeup. -/
inductive Step : Sys Job → Option Nat → Option (Ev Job) → Sys Job → Prop
  /-- a client calls `Schedule` -/
  | callClient (s : Sys Job) (t : Nat) (job : Job) (ht : t ≠ 0) (h : s.pc t = .out) :
      Step s (some t) (some (.call t s.calls job)) ({ s with calls := s.calls + 1 }.at t (.lock ⟨s.calls, job⟩))
  /-- the function that runs in the background calls `Schedule` -/
  | callRunning (s : Sys Job) (w : Item Job) (job : Job) (hb : s.bg = .running w) (h : s.pc 0 = .out) :
      Step s (some 0) (some (.call 0 s.calls job)) ({ s with calls := s.calls + 1 }.at 0 (.lock ⟨s.calls, job⟩))
  /-- `background_work_mutex_.Lock();` (797) -/
  | lock (s : Sys Job) (t : Nat) (w : Item Job) (h : s.pc t = .lock w) (hm : s.mutex = none) :
      Step s (some t) none ({ s with mutex := some t }.at t (.start w))
  /-- `if (!started_background_thread_) { ... }` (800-804) -/
  | start (s : Sys Job) (t : Nat) (w : Item Job) (h : s.pc t = .start w) :
      Step s (some t) none ((if !s.started then { s with started := true, bg := .lock } else s).at t (.signal w))
  /-- `if (background_work_queue_.empty()) background_work_cv_.Signal();` (807-809) -/
  | signal (s : Sys Job) (t : Nat) (w : Item Job) (h : s.pc t = .signal w) :
      Step s (some t) none ((if s.queue.isEmpty then { s with bg := s.bg.signal } else s).at t (.push w))
  /-- `background_work_queue_.emplace(background_work_function, background_work_arg);` (811) -/
  | push (s : Sys Job) (t : Nat) (w : Item Job) (h : s.pc t = .push w) :
      Step s (some t) none ({ s with queue := s.queue ++ [w] }.at t (.unlock w))
  /-- `background_work_mutex_.Unlock();` (812) -/
  | unlock (s : Sys Job) (t : Nat) (w : Item Job) (h : s.pc t = .unlock w) :
      Step s (some t) none ({ s with mutex := none }.at t (.leave w))
  /-- `Schedule` returns -/
  | leave (s : Sys Job) (t : Nat) (w : Item Job) (h : s.pc t = .leave w) : Step s (some t) (some (.ret t w.id)) (s.at t .out)
  /-- `background_work_mutex_.Lock();` (817) -/
  | bgLock (s : Sys Job) (h : s.bg = .lock) (hm : s.mutex = none) : Step s (some 0) none { s with mutex := some 0, bg := .check }
  /-- `while (background_work_queue_.empty())` (820) -/
  | bgCheck (s : Sys Job) (h : s.bg = .check) :
      Step s (some 0) none { s with bg := if s.queue.isEmpty then .wait else .pop }
  /-- `background_work_cv_.Wait();` (821), the beginning -/
  | bgWait (s : Sys Job) (h : s.bg = .wait) : Step s (some 0) none { s with mutex := none, bg := .asleep }
  /-- a spurious wakeup -/
  | bgWake (s : Sys Job) (h : s.bg = .asleep) : Step s none none { s with bg := .woken }
  /-- `background_work_cv_.Wait();` (821), the end -/
  | bgWoken (s : Sys Job) (h : s.bg = .woken) (hm : s.mutex = none) : Step s (some 0) none { s with mutex := some 0, bg := .check }
  /-- `auto background_work_function = background_work_queue_.front().func; ... background_work_queue_.pop();`
  (824-827) -/
  | bgPop (s : Sys Job) (w : Item Job) (q : List (Item Job)) (h : s.bg = .pop) (hq : s.queue = w :: q) :
      Step s (some 0) none { s with queue := q, bg := .unlock w }
  /-- the same on an empty queue -/
  | bgPopEmpty (s : Sys Job) (h : s.bg = .pop) (hq : s.queue = []) : Step s (some 0) none { s with bg := .undefined }
  /-- `background_work_mutex_.Unlock();` (829) -/
  | bgUnlock (s : Sys Job) (w : Item Job) (h : s.bg = .unlock w) : Step s (some 0) none { s with mutex := none, bg := .call w }
  /-- `background_work_function(background_work_arg);` (830), the beginning -/
  | bgCall (s : Sys Job) (w : Item Job) (h : s.bg = .call w) : Step s (some 0) (some (.run w.id w.job)) { s with bg := .running w }
  /-- the function returns -/
  | bgDone (s : Sys Job) (w : Item Job) (h : s.bg = .running w) (h0 : s.pc 0 = .out) :
      Step s (some 0) (some (.done w.id)) { s with bg := .lock }

/-- Runs from the construction of the Env, with what the clients see. -/
inductive Run : List (Ev Job) → Sys Job → Prop
  | nil : Run [] Sys.init
  | step {s s' : Sys Job} {es : List (Ev Job)} {who : Option Nat} {e : Option (Ev Job)} (h : Run es s) (h' : Step s who e s') :
      Run (es ++ e.toList) s'

/-- An infinite execution: at each moment one step is made, or none (`idle`). -/
structure Exec (Job : Type) where
  state : Nat → Sys Job
  who : Nat → Option Nat
  ev : Nat → Option (Ev Job)
  idle : Nat → Prop
  start : state 0 = Sys.init
  next : ∀ i, (idle i ∧ state (i + 1) = state i ∧ who i = none ∧ ev i = none) ∨
    (¬ idle i ∧ Step (state i) (who i) (ev i) (state (i + 1)))

end Sched
end Lsmdb
