import Verif.Spec.PosixConc
import Verif.Spec.PosixRead

/-!
# What a client of a threaded program sees of one object (C93)
-/

namespace Lsmdb
namespace Posix
namespace Conc

/-- The calls made on object `h`, in order. -/
def callsOn (h : Nat) (es : List Ev) : List POp :=
  es.filterMap fun
    | .call _ op => if handle op = some h then some op else none
    | .ret _ _ => none

/-- The answers to the calls on object `h`: who has called, and the answers so far. -/
def follow (h : Nat) (x : Option Nat × List PRes) : Ev → Option Nat × List PRes
  | .call t op => if handle op = some h then (some t, x.2) else x
  | .ret t r => if x.1 = some t then (none, x.2 ++ [r]) else x

/-- The answers to the calls on object `h`, in order. -/
def answersOn (h : Nat) (es : List Ev) : List PRes := (es.foldl (follow h) (none, [])).2

/-- The calls on a writable file. -/
def writesOf (ops : List POp) : List WOp :=
  ops.filterMap fun
    | .write _ op => some op
    | _ => none

/-- The calls on a sequential file. -/
def readsOf (ops : List POp) : List SOp :=
  ops.filterMap fun
    | .seqRead _ n => some (.read n)
    | .seqSkip _ n => some (.skip n)
    | _ => none

/-- A call on the sequential file `h`. -/
def callOf (h : Nat) : SOp → POp
  | .read n => .seqRead h n
  | .skip n => .seqSkip h n

/-- The answer to a call on a sequential file. -/
def answerOf : SOp → MemEnv.St × Option Bytes → PRes
  | .read _, (s, d) => .data s d
  | .skip _, (s, _) => .status s

/-- The step from `c` to `c'` changes file `ino` in the way `R` allows, unless it is a step of a call on object `h`. -/
def Careful (R : Option Inode → Option Inode → Prop) (h ino : Nat) (c c' : Conf) : Prop :=
  R (c.w.k.inodes[ino]?) (c'.w.k.inodes[ino]?) ∨ ∃ (t : Nat) (p : Prog Fin), c.th[t]? = some (.run (.own h) p) ∧ c'.th[t]? ≠ c.th[t]?

/-- A run in which nobody changes file `ino` (except as `R` allows) but the calls on object `h`.  Everything else the threads may
do. -/
inductive CarefulRun (strerror : Strerror) (full : Bool) (R : Option Inode → Option Inode → Prop) (h ino : Nat) :
    Conf → List Ev → Conf → Prop
  | nil (c : Conf) : CarefulRun strerror full R h ino c [] c
  | step {c c' c'' : Conf} {es : List Ev} {e : Option Ev} (hr : CarefulRun strerror full R h ino c es c')
      (h' : Step strerror full c' e c'') (hc : Careful R h ino c' c'') : CarefulRun strerror full R h ino c (es ++ e.toList) c''

/-- The file only grows. -/
def Growth (a b : Option Inode) : Prop := ∀ n, a = some n → ∃ n', b = some n' ∧ n'.dir = n.dir ∧ n.data <+: n'.data

end Conc
end Posix
end Lsmdb
