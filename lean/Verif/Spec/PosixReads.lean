import Verif.Spec.PosixSolo

/-!
# What threads that read one random-access file see (C94)
-/

namespace Lsmdb
namespace Posix
namespace Conc

open MemEnv (St)

/-- The calls of thread `t` and their answers: the call that is running, and the finished ones. -/
def exchange (t : Nat) (x : Option POp × List (POp × PRes)) : Ev → Option POp × List (POp × PRes)
  | .call u op => if u = t then (some op, x.2) else x
  | .ret u r => if u = t then (none, x.2 ++ (x.1.map fun op => (op, r)).toList) else x

/-- The finished calls of thread `t`, with their answers. -/
def exchanges (t : Nat) (es : List Ev) : List (POp × PRes) := (es.foldl (exchange t) (none, [])).2

/-- The object opens the file by its name whenever it reads. -/
def byName : Obj → Bool
  | .rand f => !f.has_permanent_fd
  | _ => false

/-- A run in which nobody shortens or overwrites file `ino` (appending is allowed); and if the reader opens the file by name
whenever it reads, then nobody removes or renames it or puts another file in its place.  Everything else the threads may do. -/
inductive StillRun (strerror : Strerror) (full : Bool) (o : Obj) (name : Bytes) (ino : Nat) : Conf → List Ev → Conf → Prop
  | nil (c : Conf) : StillRun strerror full o name ino c [] c
  | step {c c' c'' : Conf} {es : List Ev} {e : Option Ev} (hr : StillRun strerror full o name ino c es c')
      (h : Step strerror full c' e c'') (hg : Growth (c'.w.k.inodes[ino]?) (c''.w.k.inodes[ino]?))
      (hn : byName o = true → c''.w.k.lookup (cstr name) = c'.w.k.lookup (cstr name)) :
      StillRun strerror full o name ino c (es ++ e.toList) c''

/-- Nobody outside of the process touches its descriptors and mappings. -/
def Private (x : Choice) : Prop := ∀ k, (x.other k).fds = k.fds ∧ (x.other k).maps = k.maps

/-- What a read of at most `n` bytes at `offset` may return of a file that contained `D` at first and contains `D'` now: if it
succeeds the bytes that are there, at least one unless none was asked for or `offset` is beyond `D`; if it fails none. -/
structure GoodRead (D D' : Bytes) (offset n : Nat) (st : St) (d : Bytes) : Prop where
  bytes : st = .ok → d <+: D'.drop offset
  most : d.length ≤ n
  least : st = .ok → d = [] → n = 0 ∨ D.length ≤ offset
  failed : st ≠ .ok → d = []

end Conc
end Posix
end Lsmdb
