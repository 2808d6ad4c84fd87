import Verif.Spec.PosixConc
import Verif.Spec.PosixNs
import Verif.Spec.PosixFinal

/-!
# The names of files and directories as an atomic object (C103)

Threads make calls on the Env at the same time.  As far as names go, each call takes effect at one moment between its call and its
return.
-/

namespace Lsmdb
namespace Posix
namespace Conc

open MemEnv (St)

/-- What a path names: which file or directory, and which of the two. -/
structure Entry where
  id : Nat
  dir : Bool
  deriving DecidableEq

/-- What each path names. -/
abbrev Names := Bytes → Option Entry

/-- Change what a path names. -/
def Names.put (m : Names) (p : Bytes) (v : Option Entry) : Names := fun q => if q = p then v else m q

/-- The names in the system. -/
def namesOf (k : Kernel) : Names := fun p => (k.lookup p).bind fun i => (k.inodes[i]?).map fun n => ⟨i, n.dir⟩

/-- Names name something. -/
def Sound (k : Kernel) : Prop := ∀ p i, k.lookup p = some i → i < k.inodes.length

/-- A file or directory that has no name. -/
def Names.fresh (m : Names) (i : Nat) : Prop := ∀ p e, m p = some e → e.id ≠ i

/-- Something is in the directory. -/
def Names.hasChild (m : Names) (d : Bytes) : Prop := ∃ p, m p ≠ none ∧ parentDir p = d

/-- The last component of a path. -/
def lastOf (p : Bytes) : Bytes := (p.reverse.takeWhile (fun b => b ≠ 47)).reverse

/-- The name is a file already, and stays it, or is free, and a new file gets it. -/
def Appears (n : Bytes) (m m' : Names) : Prop :=
  (∃ i, m n = some ⟨i, false⟩ ∧ m' = m) ∨ (n ≠ [] ∧ m n = none ∧ ∃ i, m.fresh i ∧ m' = m.put n (some ⟨i, false⟩))

/-- Nothing can be opened for writing there. -/
def Unmakable (n : Bytes) (m : Names) : Prop := n = [] ∨ ∃ i, m n = some ⟨i, true⟩

/-- Opening a file for writing. -/
def MakesFile (faulty : Prop) (n : Bytes) (m m' : Names) (s : St) : Prop :=
  (s = .ok ∧ Appears n m m') ∨ (s ≠ .ok ∧ m' = m ∧ (faulty ∨ Unmakable n m))

/-- `Does faulty op m m' r`: a call that takes effect when the names are `m` makes them `m'`, and `r` is a right answer.  `faulty`: system
calls may fail without a reason. -/
def Does (faulty : Prop) : POp → Names → Names → PRes → Prop
  | .createDir n, m, m', r =>
    (r = .status .ok ∧ cstr n ≠ [] ∧ m (cstr n) = none ∧ ∃ i, m.fresh i ∧ m' = m.put (cstr n) (some ⟨i, true⟩)) ∨
    (∃ s, r = .status s ∧ s ≠ .ok ∧ m' = m ∧ (faulty ∨ cstr n = [] ∨ m (cstr n) ≠ none))
  | .removeFile n, m, m', r =>
    (r = .status .ok ∧ (∃ i, m (cstr n) = some ⟨i, false⟩) ∧ m' = m.put (cstr n) none) ∨
    (∃ s, r = .status s ∧ s ≠ .ok ∧ m' = m ∧ (faulty ∨ ∀ i, m (cstr n) ≠ some ⟨i, false⟩))
  | .removeDir n, m, m', r =>
    (r = .status .ok ∧ (∃ i, m (cstr n) = some ⟨i, true⟩) ∧ ¬ m.hasChild (cstr n) ∧ m' = m.put (cstr n) none) ∨
    (∃ s, r = .status s ∧ s ≠ .ok ∧ m' = m ∧ (faulty ∨ (∀ i, m (cstr n) ≠ some ⟨i, true⟩) ∨ m.hasChild (cstr n)))
  | .renameFile a b, m, m', r =>
    (r = .status .ok ∧ cstr b ≠ [] ∧ ∃ i, m (cstr a) = some ⟨i, false⟩ ∧
      ((m (cstr b) = some ⟨i, false⟩ ∧ m' = m) ∨
       ((∀ e, m (cstr b) = some e → e.id ≠ i ∧ e.dir = false) ∧ m' = (m.put (cstr b) (some ⟨i, false⟩)).put (cstr a) none))) ∨
    (∃ s, r = .status s ∧ s ≠ .ok ∧ m' = m ∧
      (faulty ∨ cstr b = [] ∨ (∀ i, m (cstr a) ≠ some ⟨i, false⟩) ∨ ∃ i, m (cstr b) = some ⟨i, true⟩))
  | .newWritable n, m, m', r => ∃ s o, r = .opened s o ∧ MakesFile faulty (cstr n) m m' s
  | .newAppendable n, m, m', r => ∃ s o, r = .opened s o ∧ MakesFile faulty (cstr n) m m' s
  | .newLogger n, m, m', r => ∃ s o, r = .opened s o ∧ (MakesFile faulty (cstr n) m m' s ∨ (faulty ∧ s ≠ .ok ∧ Appears (cstr n) m m'))
  | .lockFile n, m, m', r => ∃ s o, r = .opened s o ∧ (MakesFile faulty (cstr n) m m' s ∨ (s ≠ .ok ∧ Appears (cstr n) m m'))
  | .newSequential n, m, m', r => m' = m ∧ ∃ s o, r = .opened s o ∧
    ((s = .ok ∧ m (cstr n) ≠ none) ∨ (s ≠ .ok ∧ (faulty ∨ cstr n = [] ∨ m (cstr n) = none)))
  | .newRandomAccess n, m, m', r => m' = m ∧ ∃ s o, r = .opened s o ∧ (s = .ok → m (cstr n) ≠ none)
  | .fileExists n, m, m', r => m' = m ∧ ∃ b, r = .bool b ∧ ((b = true ∧ m (cstr n) ≠ none) ∨ (b = false ∧ (faulty ∨ m (cstr n) = none)))
  | .getFileSize n, m, m', r => m' = m ∧ ∃ s v, r = .size s v ∧
    ((s = .ok ∧ m (cstr n) ≠ none) ∨ (s ≠ .ok ∧ (faulty ∨ m (cstr n) = none)))
  | .getChildren d, m, m', r => m' = m ∧ ∃ s l, r = .list s l ∧
    ((s = .ok ∧ (∃ i, m (cstr d) = some ⟨i, true⟩) ∧
      (∀ x ∈ l, x = [46] ∨ x = [46, 46] ∨ ∃ p, m p ≠ none ∧ parentDir p = cstr d ∧ lastOf p = x) ∧
      (faulty ∨ ∀ p, m p ≠ none → parentDir p = cstr d → lastOf p ∈ l)) ∨
     (s ≠ .ok ∧ l = [] ∧ (faulty ∨ cstr d = [] ∨ ∀ i, m (cstr d) ≠ some ⟨i, true⟩)))
  | _, m, m', _ => m' = m

/-- The names, and for each thread in a call the call and, if it has taken effect, the names before and after. -/
structure Atom where
  names : Names
  now : Nat → Option (POp × Option (Names × Names))

/-- A thread's place changes. -/
def seat (f : Nat → Option (POp × Option (Names × Names))) (t : Nat) (v : Option (POp × Option (Names × Names))) :
    Nat → Option (POp × Option (Names × Names)) := fun u => if u = t then v else f u

/-- Runs of the atomic object, with the calls and returns in them in order.  `R`: what other processes may do to the names. -/
inductive Atomic (faulty : Prop) (R : Names → Names → Prop) (m : Names) : Atom → List Ev → Prop
  | init : Atomic faulty R m ⟨m, fun _ => none⟩ []
  | call {a : Atom} {es : List Ev} {t : Nat} {op : POp} (r : Atomic faulty R m a es) (h : a.now t = none) :
      Atomic faulty R m { a with now := seat a.now t (some (op, none)) } (es ++ [.call t op])
  | moment {a : Atom} {es : List Ev} {t : Nat} {op : POp} {m' : Names} {x : PRes} (r : Atomic faulty R m a es) (h : a.now t = some (op, none))
      (hd : Does faulty op a.names m' x) : Atomic faulty R m ⟨m', seat a.now t (some (op, some (a.names, m')))⟩ es
  | others {a : Atom} {es : List Ev} {m' : Names} (r : Atomic faulty R m a es) (h : R a.names m') : Atomic faulty R m { a with names := m' } es
  | ret {a : Atom} {es : List Ev} {t : Nat} {op : POp} {m1 m2 : Names} {x : PRes} (r : Atomic faulty R m a es)
      (h : a.now t = some (op, some (m1, m2))) (hd : Does faulty op m1 m2 x) :
      Atomic faulty R m { a with now := seat a.now t none } (es ++ [.ret t x])

/-- What other processes do: names go on to name something, and they change as `R` says. -/
def Leave (R : Names → Names → Prop) (x : Choice) : Prop := ∀ k, Sound k → Sound (x.other k) ∧ R (namesOf k) (namesOf (x.other k))

/-- The answers in a history to the calls in it that satisfy `P`. -/
def answers (P : POp → Bool) : List Ev → (Nat → Bool) → List PRes
  | [], _ => []
  | .call t op :: es, f => answers P es (fun u => if u = t then P op else f u)
  | .ret t r :: es, f => if f t then r :: answers P es f else answers P es f

/-- How often `P`-calls were answered with OK. -/
def wins (P : POp → Bool) (es : List Ev) : Nat := (answers P es fun _ => false).countP fun r => decide (r = .status .ok)

/-- `CreateDir` of this path. -/
def creates (n : Bytes) : POp → Bool
  | .createDir p => decide (cstr p = n)
  | _ => false

/-- `RemoveFile` of this path. -/
def removes (n : Bytes) : POp → Bool
  | .removeFile p => decide (cstr p = n)
  | _ => false

/-- Apart from these calls, none is made that may change what the path means. -/
def OnlyThese (P : POp → Bool) (n : Bytes) (es : List Ev) : Prop :=
  ∀ t op, Ev.call t op ∈ es → P op = true ∨ ∀ p ∈ changing op, cstr p ≠ n

/-- `FileExists` of this path. -/
def asksFor (n : Bytes) : POp → Bool
  | .fileExists p => decide (cstr p = n)
  | _ => false

/-- `GetChildren` of this path. -/
def lists (d : Bytes) : POp → Bool
  | .getChildren p => decide (cstr p = d)
  | _ => false

end Conc
end Posix
end Lsmdb
