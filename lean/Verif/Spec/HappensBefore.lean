import Verif.Model.Basic

/-!
# Happens before (C++ [intro.races])

The steps of an execution are numbered.  Steps of one thread are ordered; the release of a mutex synchronizes with every later
acquisition of it, and the start of a thread with the steps of that thread.  Nothing else is used; what is ordered by these alone is
ordered on every machine that implements the C++ memory model.  A program that touches an object only before a step `i` and after a
step `j` with `i` before `j` in this order has no data race on it.
-/

namespace Lsmdb

/-- What the steps of an execution do as far as synchronization goes. -/
structure Sync (Mu : Type) (T : Type := Nat) where
  /-- step `i` is made by thread `t` -/
  thread : Nat → T → Prop
  /-- step `i` acquires mutex `m` -/
  locks : Nat → Mu → Prop
  /-- step `i` releases mutex `m` -/
  unlocks : Nat → Mu → Prop
  /-- step `i` starts thread `t` -/
  starts : Nat → T → Prop

/-- Step `i` happens before step `j`. -/
inductive HappensBefore {Mu T : Type} (x : Sync Mu T) : Nat → Nat → Prop
  | program {i j : Nat} {t : T} (h : i < j) (hi : x.thread i t) (hj : x.thread j t) : HappensBefore x i j
  | mutex {i j : Nat} {m : Mu} (h : i < j) (hi : x.unlocks i m) (hj : x.locks j m) : HappensBefore x i j
  | start {i j : Nat} {t : T} (h : i < j) (hi : x.starts i t) (hj : x.thread j t) : HappensBefore x i j
  | trans {i j k : Nat} (h : HappensBefore x i j) (h' : HappensBefore x j k) : HappensBefore x i k

end Lsmdb
