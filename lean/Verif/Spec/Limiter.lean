import Verif.Model.Limiter

/-!
# What the clients of the `Limiter` can observe
-/

namespace Lsmdb
namespace Limiter

/-- Acquisitions that were granted and for which no `Release` was called yet. -/
def outstanding (es : List Ev) : Int :=
  (es.countP (fun e => match e with | .retAcquire _ true => true | _ => false) : Int) -
    (es.countP (fun e => match e with | .callRelease _ => true | _ => false) : Int)

/-- The clients call `Release` only for an acquisition that was granted (env_posix.cc:88-89). -/
def Proper (es : List Ev) : Prop := ∀ pre, pre <+: es → 0 ≤ outstanding pre

/-- No call is in progress. -/
def Quiet {N : Nat} (s : Sys N) : Prop := ∀ t, s.pc t = .idle

/-- The events of thread `t` calling `Acquire` once per entry of `bs`, with these results. -/
def acquires (t : Nat) (bs : List Bool) : List Ev := bs.flatMap fun b => [.callAcquire t, .retAcquire t b]

/-- The thread of an event. -/
def Ev.thread : Ev → Nat
  | .callAcquire t => t
  | .retAcquire t _ => t
  | .callRelease t => t
  | .retRelease t => t

/-- How many calls have begun and not returned. -/
def inProgress (es : List Ev) : Int :=
  (es.countP (fun e => match e with | .callAcquire _ => true | .callRelease _ => true | _ => false) : Int) -
    (es.countP (fun e => match e with | .retAcquire _ _ => true | .retRelease _ => true | _ => false) : Int)

end Limiter
end Lsmdb
