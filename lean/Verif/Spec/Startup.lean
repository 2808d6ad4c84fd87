import Verif.Model.Startup

/-!
# Specification of the limits of the default Env
-/

namespace Lsmdb
namespace Posix

/-- The open-file limit that is documented: the configured one if it is not negative; otherwise 50 if the system limit is not known,
the largest `int` if there is none, and else a fifth of it. -/
def openFileLimit (configured : Int) : Option Nat → Int
  | none => if configured ≥ 0 then configured else 50
  | some l => if configured ≥ 0 then configured else if l = 2 ^ 64 - 1 then 2 ^ 31 - 1 else (l / 5 : Nat)

/-- The last number given to SetReadOnlyFDLimit before the first `Env::Default`. -/
def lastFd : Int → List GOp → Int
  | d, .setFd n :: os => lastFd n os
  | d, .setMmap _ :: os => lastFd d os
  | d, _ => d

/-- The last number given to SetReadOnlyMMapLimit before the first `Env::Default`. -/
def lastMmap : Int → List GOp → Int
  | d, .setMmap n :: os => lastMmap n os
  | d, .setFd _ :: os => lastMmap d os
  | d, _ => d

/-- What `getrlimit` yields at the first `Env::Default`. -/
def firstRlim : List GOp → Option Nat
  | [] => none
  | .default r :: _ => r
  | _ :: os => firstRlim os

/-- The number of `Env::Default` calls. -/
def defaults : List GOp → Nat
  | [] => 0
  | .default _ :: os => defaults os + 1
  | _ :: os => defaults os

/-- No limit is set after the first `Env::Default`. -/
def SetBefore : List GOp → Prop
  | [] => True
  | .default _ :: os => ∀ o ∈ os, ∃ r, o = .default r
  | _ :: os => SetBefore os

end Posix
end Lsmdb
