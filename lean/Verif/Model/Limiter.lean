import Verif.Model.PosixFile

/-!
# Model of the concurrent `Limiter` (util/env_posix.cc:67-98)

Any number of threads share one limiter.  A step is one atomic operation of one thread, or the entry into or
the return from a call.  The counter is a `std::atomic<int>` used with relaxed ordering: the operations on one
atomic object have a single total order in which every read-modify-write reads the value written by the one
before it, so interleaving the operations is exact.
-/

namespace Lsmdb
namespace Limiter

/-- Where a thread is (env_posix.cc:79-90). -/
inductive Pc where
  /-- outside of the limiter -/
  | idle
  /-- in `Acquire`, before the `fetch_sub` of line 81 -/
  | acquire
  /-- in `Acquire`, at line 82 with this `old_acquires_allowed` -/
  | test (old : Int)
  /-- in `Acquire`, before the `fetch_add` of line 84 -/
  | undo
  /-- in `Acquire`, about to return this value -/
  | leave (b : Bool)
  /-- in `Release`, before its `fetch_add` (line 90) -/
  | release
  /-- in `Release`, about to return -/
  | done
  deriving DecidableEq

/-- What the clients see: calls and returns. -/
inductive Ev where
  | callAcquire (t : Nat)
  | retAcquire (t : Nat) (b : Bool)
  | callRelease (t : Nat)
  | retRelease (t : Nat)
  deriving DecidableEq

/-- The shared counter (env_posix.cc:97) and the threads, of which there are `N`. -/
structure Sys (N : Nat) where
  acquires_allowed_ : Int
  pc : Fin N → Pc

/-- A thread moves on. -/
def Sys.at {N : Nat} (s : Sys N) (t : Fin N) (p : Pc) : Sys N := { s with pc := fun u => if u = t then p else s.pc u }

/-- The constructor (env_posix.cc:75). -/
def Sys.init (N : Nat) (max_acquires : Int) : Sys N := ⟨max_acquires, fun _ => .idle⟩

/-- One step of one thread, with what the clients see of it. -/
inductive Step {N : Nat} : Sys N → Option Ev → Sys N → Prop
  /-- a thread calls `Acquire` -/
  | callAcquire (s : Sys N) (t : Fin N) (h : s.pc t = .idle) : Step s (some (.callAcquire t)) (s.at t .acquire)
  /-- `int old_acquires_allowed = acquires_allowed_.fetch_sub(1, std::memory_order_relaxed);` (80-81) -/
  | fetchSub (s : Sys N) (t : Fin N) (h : s.pc t = .acquire) :
      Step s none ({ s with acquires_allowed_ := Posix.wrap32 (s.acquires_allowed_ - 1) }.at t (.test s.acquires_allowed_))
  /-- `if (old_acquires_allowed > 0) return true;` (82) -/
  | test (s : Sys N) (t : Fin N) (old : Int) (h : s.pc t = .test old) :
      Step s none (s.at t (if old > 0 then .leave true else .undo))
  /-- `acquires_allowed_.fetch_add(1, std::memory_order_relaxed); return false;` (84-85) -/
  | undo (s : Sys N) (t : Fin N) (h : s.pc t = .undo) :
      Step s none ({ s with acquires_allowed_ := Posix.wrap32 (s.acquires_allowed_ + 1) }.at t (.leave false))
  /-- `Acquire` returns -/
  | retAcquire (s : Sys N) (t : Fin N) (b : Bool) (h : s.pc t = .leave b) : Step s (some (.retAcquire t b)) (s.at t .idle)
  /-- a thread calls `Release` -/
  | callRelease (s : Sys N) (t : Fin N) (h : s.pc t = .idle) : Step s (some (.callRelease t)) (s.at t .release)
  /-- `acquires_allowed_.fetch_add(1, std::memory_order_relaxed);` (90) -/
  | fetchAdd (s : Sys N) (t : Fin N) (h : s.pc t = .release) :
      Step s none ({ s with acquires_allowed_ := Posix.wrap32 (s.acquires_allowed_ + 1) }.at t .done)
  /-- `Release` returns -/
  | retRelease (s : Sys N) (t : Fin N) (h : s.pc t = .done) : Step s (some (.retRelease t)) (s.at t .idle)

/-- Runs, with the calls and returns in them in order. -/
inductive Run {N : Nat} : Sys N → List Ev → Sys N → Prop
  | nil (s : Sys N) : Run s [] s
  | step {s s' s'' : Sys N} {es : List Ev} {e : Option Ev} (h : Run s es s') (h' : Step s' e s'') :
      Run s (es ++ e.toList) s''

end Limiter
end Lsmdb
