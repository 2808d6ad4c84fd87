import Verif.Model.Schedule
import Verif.Spec.HappensBefore

/-!
# `Schedule`: synchronization, and what its statements read and write
-/

namespace Lsmdb
namespace Sched
variable {Job : Type}

/-- Who makes the steps, which of them take and release `background_work_mutex_` (`Wait` does both), and which starts the background
thread. -/
def Exec.sync (x : Exec Job) : Sync Unit where
  thread i t := x.who i = some t
  locks i _ := (x.state i).mutex = none ∧ (x.state (i + 1)).mutex ≠ none
  unlocks i _ := (x.state i).mutex ≠ none ∧ (x.state (i + 1)).mutex = none
  starts i t := t = 0 ∧ (x.state i).bg = .none ∧ (x.state (i + 1)).bg ≠ .none

/-- The variables that are shared (env_posix.cc:756-759). -/
inductive Var where
  /-- `background_work_queue_` -/
  | queue
  /-- `started_background_thread_` -/
  | started

/-- The two states differ at most in the variable. -/
def OnlyIn : Var → Sys Job → Sys Job → Prop
  | .queue, s, s' => s' = { s with queue := s'.queue }
  | .started, s, s' => s' = { s with started := s'.started }

/-- The statement that thread `t` is at changes the variable, for some value of it. -/
def WritesVar (v : Var) (s : Sys Job) (t : Nat) : Prop :=
  ∃ s1 e s2, OnlyIn v s s1 ∧ Step s1 (some t) e s2 ∧ match v with | .queue => s2.queue ≠ s1.queue | .started => s2.started ≠ s1.started

/-- The value of the variable makes a difference to what the statement does otherwise. -/
def ReadsVar (v : Var) (s : Sys Job) (t : Nat) : Prop :=
  ∃ s1 e s', OnlyIn v s s1 ∧ ((Step s (some t) e s' ∧ ¬ ∃ s1', Step s1 (some t) e s1' ∧ OnlyIn v s' s1') ∨
    (Step s1 (some t) e s' ∧ ¬ ∃ s1', Step s (some t) e s1' ∧ OnlyIn v s' s1'))

end Sched
end Lsmdb
