import Verif.Model.MemEnvConc
import Verif.Spec.MemEnv

/-!
# What the clients of a shared in-memory Env can rely on

The file system is that of `Spec/MemEnv`: `FS`, with `FS.Answer` for the right answer of a call and `FS.next` for its effect.  A
history is the list of calls and returns in the order in which they happen, newest first.
-/

namespace Lsmdb
namespace MemConc
open MemEnv Spec
open CacheConc (Tid)

abbrev Hist := List Ev

/-- The call that thread `t` is in. -/
def pending : Hist → Tid → Option Op
  | [], _ => none
  | .call u o :: H, t => if u = t then some o else pending H t
  | .ret u _ :: H, t => if u = t then none else pending H t

/-! ## The atomic file system

Every call takes effect, and its answer is fixed, at one moment between its call and its return.  The exception is `Skip`, which
looks at the size of the file at one moment and moves the position at a later one; if the file has shrunk below the position in
between, the new position can be anything. -/

/-- How far a call is. -/
inductive Phase where
  /-- it has had no effect -/
  | start
  /-- `Skip`, after it has found the position to be inside of the file -/
  | checked
  /-- it has had its effect, and this is its answer -/
  | done (r : Res)

/-- The call is `Skip`. -/
def IsSkip : Op → Prop
  | .seqSkip _ _ => True
  | _ => False

/-- A moment at which call `o` does something. -/
inductive Moment (o : Op) : FS → Phase → FS → Phase → Prop
  | op {fs : FS} {r : Res} (hs : ¬ IsSkip o) (h : fs.Answer o r) : Moment o fs .start (fs.next o) (.done r)
  | beyond {fs : FS} {x n i pos : Nat} (ho : o = .seqSkip x n) (hx : fs.obj x = some (.seq i pos))
      (h : (fs.data i).length < pos) : Moment o fs .start fs (.done (.status FS.skipBeyond))
  | check {fs : FS} {x n i pos : Nat} (ho : o = .seqSkip x n) (hx : fs.obj x = some (.seq i pos))
      (h : pos ≤ (fs.data i).length) : Moment o fs .start fs .checked
  | move {fs : FS} {x n i pos pos' : Nat} (ho : o = .seqSkip x n) (hx : fs.obj x = some (.seq i pos))
      (h : pos ≤ (fs.data i).length → pos' = min (pos + n) (fs.data i).length) :
      Moment o fs .checked { fs with obj := upd fs.obj x (some (.seq i pos')) } (.done (.status .ok))

/-- The file system, and for each thread in a call the call and how far it is. -/
structure Atom where
  fs : FS
  now : Tid → Option (Op × Phase)

/-- Runs of the atomic file system. -/
inductive Atomic : Atom → Hist → Prop
  | init : Atomic ⟨FS.init, fun _ => none⟩ []
  | call {a : Atom} {H : Hist} {t : Tid} {o : Op} (r : Atomic a H) (h : a.now t = none) :
      Atomic { a with now := upd a.now t (some (o, .start)) } (.call t o :: H)
  | moment {a : Atom} {H : Hist} {t : Tid} {o : Op} {p p' : Phase} {fs : FS} (r : Atomic a H) (h : a.now t = some (o, p))
      (m : Moment o a.fs p fs p') : Atomic ⟨fs, upd a.now t (some (o, p'))⟩ H
  | ret {a : Atom} {H : Hist} {t : Tid} {o : Op} {r : Res} (run : Atomic a H) (h : a.now t = some (o, .done r)) :
      Atomic { a with now := upd a.now t none } (.ret t r :: H)

/-! ## The rules for clients -/

/-- The file object that a call is for. -/
def target : Op → Option Nat
  | .seqRead h _ => some h
  | .seqSkip h _ => some h
  | .randRead h _ _ => some h
  | .append h _ => some h
  | .close h => some h
  | .flush h => some h
  | .sync h => some h
  | .delete h => some h
  | _ => none

/-- Calls that several threads may make for the same file object at the same time: not those for a `SequentialFile` (include/lsmdb/env.h:192),
and not its deletion. -/
def Shared : Op → Prop
  | .randRead _ _ _ => True
  | .append _ _ => True
  | .close _ => True
  | .flush _ => True
  | .sync _ => True
  | _ => False

/-- A client may make the call: the file object was returned by some call, its deletion has not begun, and other calls for it are in
progress only if all of them are `Shared`; methods of the Env are called only until its destruction begins, and that begins only
when none of them is in progress. -/
structure Permitted (H : Hist) (o : Op) : Prop where
  known : ∀ h, target o = some h → ∃ t s, Ev.ret t (.opened s (some h)) ∈ H
  notDeleted : ∀ h, target o = some h → ∀ t, Ev.call t (.delete h) ∉ H
  shared : ∀ h, target o = some h → ∀ t o', pending H t = some o' → target o' = some h → Shared o ∧ Shared o'
  notDestroyed : target o = none → ∀ t, Ev.call t .destroyEnv ∉ H
  last : o = .destroyEnv → ∀ t o', pending H t = some o' → target o' ≠ none

/-- Runs of any number of threads on a new Env, with clients that follow the rules. -/
inductive Run : World → Hist → Prop
  | init : Run World.init []
  | internal {w w' : World} {H : Hist} (r : Run w H) (s : Step w none w') : Run w' H
  | call {w w' : World} {H : Hist} {t : Tid} {o : Op} (r : Run w H) (s : Step w (some (.call t o)) w') (p : Permitted H o) :
      Run w' (.call t o :: H)
  | ret {w w' : World} {H : Hist} {t : Tid} {x : Res} (r : Run w H) (s : Step w (some (.ret t x)) w') : Run w' (.ret t x :: H)

/-- The calls are such that, however the atomic file system orders their effects, each is allowed (`FS.Allowed`: the file object is
open and of the right kind, files stay below 2^64 bytes, not too many file objects are opened, and the defects C42 and C43 are
avoided) until it has had its effect. -/
def Disciplined (H : Hist) : Prop :=
  ∀ a H', H' <:+ H → Atomic a H' → ∀ t o p, a.now t = some (o, p) → (∀ r, p ≠ .done r) → a.fs.Allowed o

/-! ## Rules that do not mention an order of effects -/

/-- The kinds of file objects. -/
inductive Kind where
  | seq
  | rand
  | wr

/-- The kind of file object that a call opens. -/
def makes : Op → Option Kind
  | .newSequential _ => some .seq
  | .newRandomAccess _ => some .rand
  | .newWritable _ => some .wr
  | .newAppendable _ => some .wr
  | _ => none

/-- The file object that a call is for and the kind that has the method (`delete` is for all kinds). -/
def needs : Op → Option (Nat × Kind)
  | .seqRead h _ => some (h, .seq)
  | .seqSkip h _ => some (h, .seq)
  | .randRead h _ _ => some (h, .rand)
  | .append h _ => some (h, .wr)
  | .close h => some (h, .wr)
  | .flush h => some (h, .wr)
  | .sync h => some (h, .wr)
  | _ => none

/-- In `H` there is a call `o` that returned `x`. -/
def Returned (H : Hist) (o : Op) (x : Res) : Prop := ∃ t H0, (.ret t x :: H0) <:+ H ∧ pending H0 t = some o

/-- The number of calls that open a file. -/
def opens : Hist → Nat
  | [] => 0
  | .call _ o :: H => (if (makes o).isSome then 1 else 0) + opens H
  | .ret _ _ :: H => opens H

/-- The number of bytes that `o` appends. -/
def bytesOf : Op → Nat
  | .append _ d => d.len
  | _ => 0

/-- The number of bytes in all calls of `Append`. -/
def appended : Hist → Nat
  | [] => 0
  | .call _ o :: H => bytesOf o + appended H
  | .ret _ _ :: H => appended H

/-- The clients call only the methods that a file object has, append valid slices, of less than 2^64 bytes in total, open fewer than
2^31 - 2 file objects, rename no file to its own name (C42), and call `NewAppendableFile` only for files that exist (C43): a call of
`NewWritableFile` for the name has returned, and the name is nowhere removed or renamed. -/
structure Careful (H : Hist) : Prop where
  kind : ∀ t o h k o' s, Ev.call t o ∈ H → needs o = some (h, k) → Returned H o' (.opened s (some h)) → makes o' = some k
  slices : ∀ t h d, Ev.call t (.append h d) ∈ H → d.WF
  bytes : appended H < 2 ^ 64
  opens : opens H + 2 < 2 ^ 31
  rename : ∀ t a b, Ev.call t (.renameFile a b) ∈ H → a ≠ b
  appendable : ∀ t n H0, (.call t (.newAppendable n) :: H0) <:+ H → (∃ x, Returned H0 (.newWritable n) x) ∧
    ∀ u, Ev.call u (.removeFile n) ∉ H ∧ ∀ b, Ev.call u (.renameFile n b) ∉ H

/-! ## Observations -/

/-- The file objects that calls returned, newest first. -/
def newHandles : Hist → List Nat
  | [] => []
  | .ret _ (.opened _ (some h)) :: H => h :: newHandles H
  | _ :: H => newHandles H

/-- The slices that were given to `Append`, newest first. -/
def appendedSlices : Hist → List Slice
  | [] => []
  | .call _ (.append _ d) :: H => d :: appendedSlices H
  | _ :: H => appendedSlices H

/-- The number of calls of `NewWritableFile`. -/
def creations : Hist → Nat
  | [] => 0
  | .call _ (.newWritable _) :: H => creations H + 1
  | _ :: H => creations H

/-! ## Skip -/

/-- Runs of the file system in which every call, also `Skip`, takes effect at one moment. -/
inductive Strict : Atom → Hist → Prop
  | init : Strict ⟨FS.init, fun _ => none⟩ []
  | call {a : Atom} {H : Hist} {t : Tid} {o : Op} (r : Strict a H) (h : a.now t = none) :
      Strict { a with now := upd a.now t (some (o, .start)) } (.call t o :: H)
  | moment {a : Atom} {H : Hist} {t : Tid} {o : Op} {r : Res} (run : Strict a H) (h : a.now t = some (o, .start))
      (ha : a.fs.Answer o r) : Strict ⟨a.fs.next o, upd a.now t (some (o, .done r))⟩ H
  | ret {a : Atom} {H : Hist} {t : Tid} {o : Op} {r : Res} (run : Strict a H) (h : a.now t = some (o, .done r)) :
      Strict { a with now := upd a.now t none } (.ret t r :: H)

/-- No `NewWritableFile` overlaps a `Skip`. -/
def Apart (H : Hist) : Prop :=
  ∀ H', H' <:+ H → ∀ t u x n m, pending H' t = some (.seqSkip x n) → pending H' u ≠ some (.newWritable m)

/-- A run goes on from `w0` to `w1`, and `P` holds at all times. -/
inductive Path (P : World → Prop) (w0 : World) (H0 : Hist) : World → Hist → Prop
  | refl (h : P w0) : Path P w0 H0 w0 H0
  | internal {w w' : World} {H : Hist} (r : Path P w0 H0 w H) (s : Step w none w') (h : P w') : Path P w0 H0 w' H
  | call {w w' : World} {H : Hist} {t : Tid} {o : Op} (r : Path P w0 H0 w H) (s : Step w (some (.call t o)) w') (p : Permitted H o)
      (h : P w') : Path P w0 H0 w' (.call t o :: H)
  | ret {w w' : World} {H : Hist} {t : Tid} {x : Res} (r : Path P w0 H0 w H) (s : Step w (some (.ret t x)) w') (h : P w') :
      Path P w0 H0 w' (.ret t x :: H)

/-- No thread is in a call. -/
def Quiet (w : World) : Prop := ∀ t, w.pc t = .idle

end MemConc
end Lsmdb
