import Verif.Model.Schedule

/-!
# Specification of `Schedule`: what the clients can observe
-/

namespace Lsmdb
namespace Sched

variable {Job : Type}

/-- `x` comes before `y` in the list. -/
def Before {α : Type} (x y : α) (l : List α) : Prop := ∃ a b c, l = a ++ x :: b ++ y :: c

/-- The runs, by number of the call, in order of their beginning. -/
def runs (es : List (Ev Job)) : List Nat := es.filterMap fun e => match e with | .run id _ => some id | _ => none

/-- `order` is an order of calls that explains the history: it has each call at most once, has every call that
has returned, and has a call that returned before another began before that one. -/
structure Explains (order : List Nat) (es : List (Ev Job)) : Prop where
  nodup : order.Nodup
  called : ∀ id ∈ order, ∃ t job, Ev.call t id job ∈ es
  returned : ∀ t id, Ev.ret t id ∈ es → id ∈ order
  realtime : ∀ t u a b job, Before (Ev.ret t a) (.call u b job) es → b ∈ order → Before a b order

/-- Every run is of the function and argument of its call. -/
def SameJob (es : List (Ev Job)) : Prop := ∀ id job, Ev.run id job ∈ es → ∃ t, Ev.call t id job ∈ es

/-- The numbers of calls are distinct. -/
def DistinctIds (es : List (Ev Job)) : Prop :=
  (es.filterMap fun e => match e with | .call _ id _ => some id | _ => none).Nodup

/-- The runs one after another: each function is done before the next begins. -/
inductive Serial : List (Ev Job) → Option Nat → Prop
  | nil : Serial [] none
  | run {es : List (Ev Job)} (id : Nat) (job : Job) (h : Serial es none) : Serial (es ++ [.run id job]) (some id)
  | done {es : List (Ev Job)} (id : Nat) (h : Serial es (some id)) : Serial (es ++ [.done id]) none
  | call {es : List (Ev Job)} {o : Option Nat} (t id : Nat) (job : Job) (h : Serial es o) : Serial (es ++ [.call t id job]) o
  | ret {es : List (Ev Job)} {o : Option Nat} (t id : Nat) (h : Serial es o) : Serial (es ++ [.ret t id]) o

/-- A step of the Env's own code (as opposed to a call made by a client, or the end of a client's function). -/
def Own : Option (Ev Job) → Prop
  | some (.call _ _ _) => False
  | some (.done _) => False
  | _ => True

/-- The thread can make a step in the Env's code. -/
def CanStep (s : Sys Job) (t : Nat) : Prop := ∃ e s', Step s (some t) e s' ∧ Own e

/-- A thread that again and again can make a step in the Env's code makes one again and again. -/
def FairThreads (x : Exec Job) : Prop :=
  ∀ t i, (∀ j, i ≤ j → ∃ k, j ≤ k ∧ CanStep (x.state k) t) → ∃ j, i ≤ j ∧ x.who j = some t ∧ Own (x.ev j)

/-- A function that runs in the background returns, provided that the calls of `Schedule` it makes return. -/
def FunctionsReturn (x : Exec Job) : Prop :=
  ∀ i id, (∃ job, x.ev i = some (.run id job)) →
    (∀ j k, i ≤ j → (∃ job, x.ev j = some (.call 0 k job)) → ∃ l, j ≤ l ∧ x.ev l = some (.ret 0 k)) →
    ∃ j, i ≤ j ∧ x.ev j = some (.done id)

end Sched
end Lsmdb
