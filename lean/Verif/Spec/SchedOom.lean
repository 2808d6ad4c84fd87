import Verif.Model.SchedOom
import Verif.Spec.Schedule

/-!
# Specification of `Schedule` when it throws
-/

namespace Lsmdb
namespace Sched

variable {Job : Type}

/-- The history without the exceptions. -/
def seen (es : List (EvO Job)) : List (Ev Job) := es.filterMap fun e => match e with | .ok e => some e | .threw _ _ _ => none

/-- The call has begun. -/
def Called (es : List (EvO Job)) (id : Nat) : Prop := ∃ t job, .ok (.call t id job) ∈ es

/-- The call has returned. -/
def Returned (es : List (EvO Job)) (id : Nat) : Prop := ∃ t, .ok (.ret t id) ∈ es

/-- The call has thrown. -/
def Threw (es : List (EvO Job)) (id : Nat) : Prop := ∃ t why, .threw t id why ∈ es

/-- The function of the call has begun to run. -/
def HasRun (es : List (EvO Job)) (id : Nat) : Prop := ∃ job, .ok (.run id job) ∈ es

/-- What one expects: a call that throws is as if it had not been made.  After any history, a call that has
returned can still be run, and a call that has begun can still return. -/
def Survives (Job : Type) : Prop :=
  ∀ (es : List (EvO Job)) (s : Sys Job), RunO es s →
    (∀ id, Returned es id → ∃ more s', From s more s' ∧ HasRun (es ++ more) id) ∧
    (∀ id, Called es id → ¬ Threw es id → ∃ more s', From s more s' ∧ Returned (es ++ more) id)

end Sched
end Lsmdb
