import Verif.Spec.MemEnvConc
import Verif.Proof.MemEnv2

/-!
# A logic for the threads of the in-memory Env: resources, invariant, soundness

Every thread has a `View`: what it knows about the shared memory because nobody else may change it (it holds a mutex, or owns a file
object).  `Inv` relates the memory, the file system of the specification and the views.  `Ok t o c v p`: thread `t` in call `o`, with
code `c` left, view `v` and phase `p`, can take every further step, keeps the invariant, and has its effects on the file system
of the specification at one of its own steps.
-/

namespace Lsmdb
namespace MemConc
open MemEnv Spec
open CacheConc (Tid Prog)

/-- What holds a reference to a `FileState`: an entry of the map or a file object. -/
inductive RefId where
  | name (n : Bytes)
  | obj (h : Nat)
  deriving DecidableEq

/-- What the holder of `mutex_` knows: the map, the numbers of file objects and files, the same of the specification, the references
held by names and by file objects that are being made, and these file objects in the specification. -/
structure EV where
  map : FileMap
  nobjs : Nat
  nfiles : Nat
  name : Bytes → Option Nat
  opened : Nat
  made : Nat
  rname : Bytes → Option Nat
  robj : Nat → Option Nat
  fobj : Nat → Option Obj

/-- What the owner of a file object knows: its memory, the specification, its reference. -/
structure OV where
  h : Nat
  conc : Option Obj
  abs : Option Obj
  ref : Option Nat

/-- What the holder of `blocks_mutex_` knows. -/
structure BV where
  i : Nat
  content : Content
  data : Bytes

/-- What the holder of `refs_mutex_` knows: how many references there are. -/
structure RV where
  i : Nat
  n : Nat

structure View where
  env : Option EV := none
  obj : Option OV := none
  share : Option (Nat × Obj) := none
  blk : Option BV := none
  rfs : Option RV := none
  /-- the file that nobody else knows of -/
  sole : Option Nat := none
  /-- the file that is empty because it is being deleted -/
  dying : Option Nat := none

/-- The shared memory, the mutexes, the specification, the references, the views. -/
structure Sh where
  e : Env
  ex : Bool
  oE : Option Tid
  oR : Nat → Option Tid
  oB : Nat → Option Tid
  fs : FS
  now : Tid → Option (Op × Phase)
  ref : RefId → Option Nat
  G : Nat → List RefId
  vEnv : Tid → Option EV
  vObj : Tid → Option OV
  vShare : Tid → Option (Nat × Obj)
  vBlk : Tid → Option BV
  vRfs : Tid → Option RV
  vSole : Tid → Option Nat
  vDying : Tid → Option Nat

def Sh.own (S : Sh) : Lock → Option Tid
  | .env => S.oE
  | .refs i => S.oR i
  | .blocks i => S.oB i

def Sh.view (S : Sh) (t : Tid) : View := ⟨S.vEnv t, S.vObj t, S.vShare t, S.vBlk t, S.vRfs t, S.vSole t, S.vDying t⟩

/-- What the holder of `mutex_` knows now. -/
def mkEV (e : Env) (fs : FS) (ref : RefId → Option Nat) : EV :=
  ⟨e.map, e.objs.length, e.files.length, fs.name, fs.opened, fs.made, fun n => ref (.name n),
    fun k => ref (.obj (e.objs.length + k)), fun k => fs.obj (e.objs.length + k)⟩

/-- The state when nobody holds `mutex_`. -/
structure Clean (v : EV) : Prop where
  sorted : Sorted v.map
  find : ∀ n, mapFind v.map n = (v.name n).map some
  nobjs : v.nobjs = v.opened
  nfiles : v.nfiles = v.made
  rname : ∀ n, v.rname n = v.name n
  robj : ∀ k, v.robj k = none
  fobj : ∀ k, v.fobj k = none

structure EnvInv (v : EV) (ex : Bool) (oE : Option Tid) (vEnv : Tid → Option EV) (now : Tid → Option (Op × Phase)) : Prop where
  snap : ∀ t v', vEnv t = some v' → v' = v
  uniq : ∀ t u, vEnv t ≠ none → vEnv u ≠ none → t = u
  own : ∀ t, oE = some t → vEnv t ≠ none
  view : ∀ t, vEnv t ≠ none → oE = some t ∨ ∃ p, now t = some (.destroyEnv, p)
  free : (∀ t, vEnv t = none) → Clean v
  destroy : ∀ t p, now t = some (.destroyEnv, p) → oE ≠ some t ∧ ∀ u o p', u ≠ t → now u = some (o, p') → target o ≠ none
  ex : ex = false → (∀ t, vEnv t = none) ∧ ∀ t o p, now t = some (o, p) → target o = none → o = .destroyEnv
  opEnv : ∀ t, vEnv t ≠ none → ∃ o p, now t = some (o, p) ∧ target o = none

structure ObjInv (objs : List (Option Obj)) (fobj : Nat → Option Obj) (ref : RefId → Option Nat) (vObj : Tid → Option OV)
    (vShare : Tid → Option (Nat × Obj)) (now : Tid → Option (Op × Phase)) : Prop where
  snap : ∀ t v, vObj t = some v → objs[v.h]? = some v.conc ∧ fobj v.h = v.abs ∧ ref (.obj v.h) = v.ref
  uniq : ∀ t u v v', vObj t = some v → vObj u = some v' → v.h = v'.h → t = u
  free : ∀ h, h < objs.length → (∀ t v, vObj t = some v → v.h ≠ h) → objs[h]? = some (fobj h) ∧ ref (.obj h) = (fobj h).map Obj.file
  share : ∀ t h o, vShare t = some (h, o) → h < objs.length ∧ fobj h = some o ∧ ∀ u v, vObj u = some v → v.h ≠ h
  opObj : ∀ t v, vObj t = some v → ∃ o p, now t = some (o, p) ∧ target o = some v.h ∧ ¬ Shared o
  opShare : ∀ t h o', vShare t = some (h, o') → ∃ o p, now t = some (o, p) ∧ target o = some h

/-- The content represents the bytes. -/
def Holds (c : Content) (d : Bytes) : Prop := FInv ⟨0, c.blocks, c.size⟩ d

structure FileInv (files : List (Option FileState)) (freed : List Nat) (data : Nat → Bytes) (oR oB : Nat → Option Tid)
    (ref : RefId → Option Nat) (G : Nat → List RefId) (vBlk : Tid → Option BV) (vRfs : Tid → Option RV) (vSole : Tid → Option Nat)
    (D : Nat → Prop) : Prop where
  gRef : ∀ r i, r ∈ G i ↔ ref r = some i
  gNodup : ∀ i, (G i).Nodup
  one : ∀ m n i, ref (.name m) = some i → ref (.name n) = some i → m = n
  refs : ∀ i f, files[i]? = some (some f) → f.refs = ((G i).length : Int)
  content : ∀ i f, files[i]? = some (some f) → oB i = none → ¬ D i → Holds ⟨f.blocks, f.size⟩ (data i)
  live : ∀ i, G i ≠ [] → ∃ f, files[i]? = some (some f)
  gone : ∀ i, freed.count i = if files[i]? = some none then 1 else 0
  sole : ∀ t i, vSole t = some i → (∃ f, files[i]? = some (some f)) ∧ G i = []
  soleUniq : ∀ t u i, vSole t = some i → vSole u = some i → t = u
  soleEx : ∀ i f, files[i]? = some (some f) → G i = [] → ∃ t, vSole t = some i
  blkOwn : ∀ t i, oB i = some t → ∃ v, vBlk t = some v ∧ v.i = i
  blkView : ∀ t v, vBlk t = some v → oB v.i = some t ∧ (∃ f, files[v.i]? = some (some f) ∧ ⟨f.blocks, f.size⟩ = v.content) ∧
    data v.i = v.data
  rfsOwn : ∀ t i, oR i = some t → ∃ v, vRfs t = some v ∧ v.i = i
  rfsView : ∀ t v, vRfs t = some v → oR v.i = some t ∧ (G v.i).length = v.n ∧ (∃ f, files[v.i]? = some (some f)) ∧
    (v.n ≠ 0 ∨ vSole t = some v.i)

/-- Nobody but the thread can drop the reference. -/
def Stable (env : Option EV) (obj : Option OV) (share : Option (Nat × Obj)) : RefId → Prop
  | .name _ => env ≠ none
  | .obj h => (∃ v, obj = some v ∧ v.h = h) ∨ ∃ o, share = some (h, o)

structure Inv (S : Sh) : Prop where
  env : EnvInv (mkEV S.e S.fs S.ref) S.ex S.oE S.vEnv S.now
  obj : ObjInv S.e.objs S.fs.obj S.ref S.vObj S.vShare S.now
  file : FileInv S.e.files S.e.freed S.fs.data S.oR S.oB S.ref S.G S.vBlk S.vRfs S.vSole (fun i => ∃ t, S.vDying t = some i)
  why : ∀ t v, S.vBlk t = some v → (∃ r, S.ref r = some v.i ∧ Stable (S.vEnv t) (S.vObj t) (S.vShare t) r) ∨ S.vSole t = some v.i
  small : ∀ i, (S.fs.data i).length < 2 ^ 64
  fresh : ∀ i, S.e.files.length ≤ i → S.fs.data i = []
  dying : ∀ t i, S.vDying t = some i → S.vSole t = some i
  known : ∀ t o s h, S.now t = some (o, .done (.opened s (some h))) → S.vEnv t = none → h < S.e.objs.length

/-- No moment or several of them. -/
inductive Moments (o : Op) : FS → Phase → FS → Phase → Prop
  | refl {fs : FS} {p : Phase} : Moments o fs p fs p
  | tail {fs fs1 fs2 : FS} {p p1 p2 : Phase} (h : Moments o fs p fs1 p1) (m : Moment o fs1 p1 fs2 p2) : Moments o fs p fs2 p2

theorem Moments.single {o : Op} {fs fs' : FS} {p p' : Phase} (m : Moment o fs p fs' p') : Moments o fs p fs' p' := .tail .refl m

theorem Moments.trans {o : Op} {fs fs1 fs2 : FS} {p p1 p2 : Phase} (a : Moments o fs p fs1 p1) (b : Moments o fs1 p1 fs2 p2) :
    Moments o fs p fs2 p2 := by
  induction b with
  | refl => exact a
  | tail _ m ih => exact .tail (ih a) m

/-- The state before a step of thread `t`. -/
structure Pre (t : Tid) (o : Op) (v : View) (p : Phase) (S : Sh) : Prop where
  inv : Inv S
  view : S.view t = v
  now : S.now t = some (o, p)
  allowed : (∀ r, p ≠ .done r) → S.fs.Allowed o

/-- The state after it. -/
structure Next (t : Tid) (o : Op) (v' : View) (p p' : Phase) (S S' : Sh) : Prop where
  inv : Inv S'
  view : ∀ u, S'.view u = if u = t then v' else S.view u
  now : S'.now = upd S.now t (some (o, p'))
  moments : Moments o S.fs p S'.fs p'
  grows : S.e.objs.length ≤ S'.e.objs.length

def Sh.Has (S : Sh) : Lock → Prop
  | .env => S.ex = true
  | .refs i => Live S.e i
  | .blocks i => Live S.e i

/-- The order of the mutexes: a thread that waits for `mutex_` holds no mutex, one that waits for a mutex of a file holds none of
a file. -/
def Ordered (v : View) : Lock → Prop
  | .env => v.env = none ∧ v.blk = none ∧ v.rfs = none
  | _ => v.blk = none ∧ v.rfs = none

/-- The file object is left as it was found. -/
def OV.Clean (v : OV) : Prop := v.conc = v.abs ∧ v.ref = v.abs.map Obj.file

/-- The rest of the call goes well. -/
def Ok (t : Tid) (o : Op) : Code → View → Phase → Prop
  | .ret r, v, p => p = .done r ∧ v.env = none ∧ v.blk = none ∧ v.rfs = none ∧ v.sole = none ∧
      v.dying = none ∧ ∀ x, v.obj = some x → x.Clean
  | .act f next, v, p => ∀ S, Pre t o v p S → ∃ S' b v' p', f S.e = .ok (S'.e, b) ∧ S'.ex = S.ex ∧ S'.own = S.own ∧
      Next t o v' p p' S S' ∧ Ok t o (next b) v' p'
  | .lock l next, v, p => Ordered v l ∧ ∀ S, Pre t o v p S → S.Has l ∧ (S.own l = none → ∃ S' v' p', S'.e = S.e ∧ S'.ex = S.ex ∧
      S'.own = upd S.own l (some t) ∧ Next t o v' p p' S S' ∧ Ok t o next v' p')
  | .unlock l next, v, p => ∀ S, Pre t o v p S → S.Has l ∧ S.own l = some t ∧ ∃ S' v' p', S'.e = S.e ∧ S'.ex = S.ex ∧
      S'.own = upd S.own l none ∧ Next t o v' p p' S S' ∧ Ok t o next v' p'
  | .free i next, v, p => ∀ S, Pre t o v p S → Live S.e i ∧ S.oR i = none ∧ S.oB i = none ∧ ∃ S' v' p',
      S'.e = { S.e with files := S.e.files.set i none, freed := S.e.freed ++ [i] } ∧ S'.ex = S.ex ∧ S'.own = S.own ∧
      Next t o v' p p' S S' ∧ Ok t o next v' p'
  | .gone next, v, p => o = .destroyEnv ∧ ∀ S, Pre t o v p S → S.ex = true ∧ S.oE = none ∧ ∃ S' v' p', S'.e = S.e ∧ S'.ex = false ∧ S'.own = S.own ∧
      Next t o v' p p' S S' ∧ Ok t o next v' p'

/-- Before the return of the call, or before the memory of the Env is given back. -/
def Code.IsRet : Code → Prop
  | .ret _ => True
  | .gone _ => True
  | _ => False

/-- Something happens in the specification and nothing in the memory. -/
structure Ghost (t : Tid) (o : Op) (v' : View) (p p' : Phase) (S S' : Sh) : Prop where
  next : Next t o v' p p' S S'
  e : S'.e = S.e
  ex : S'.ex = S.ex
  own : S'.own = S.own
  allowed : (∀ r, p' ≠ .done r) → S'.fs.Allowed o

theorem Next.trans {t : Tid} {o : Op} {v' v'' : View} {p p' p'' : Phase} {S S' S'' : Sh} (a : Next t o v' p p' S S')
    (b : Next t o v'' p' p'' S' S'') : Next t o v'' p p'' S S'' := by
  refine ⟨b.inv, fun u => ?_, ?_, a.moments.trans b.moments, Nat.le_trans a.grows b.grows⟩
  · rw [b.view, a.view]; split <;> rfl
  · rw [b.now, a.now]
    funext u
    unfold upd
    split <;> rfl

theorem Ghost.pre {t : Tid} {o : Op} {v' : View} {p p' : Phase} {S S' : Sh} (g : Ghost t o v' p p' S S') : Pre t o v' p' S' :=
  ⟨g.next.inv, by rw [g.next.view, if_pos rfl], by rw [g.next.now, upd_same], g.allowed⟩

theorem Sh.Has_congr {S S' : Sh} (h1 : S'.e = S.e) (h2 : S'.ex = S.ex) (l : Lock) : S'.Has l ↔ S.Has l := by
  cases l <;> simp [Sh.Has, h1, h2]

/-- A moment can come before any step. -/
theorem ok_ghost {t : Tid} {o : Op} {c : Code} {v : View} {p : Phase} (hc : ¬ c.IsRet) (ho : ∀ l k, c = .lock l k → Ordered v l)
    (h : ∀ S, Pre t o v p S → ∃ S' v' p', Ghost t o v' p p' S S' ∧ Ok t o c v' p') : Ok t o c v p := by
  cases c with
  | ret r => exact absurd trivial hc
  | act f next =>
    intro S hS
    obtain ⟨S1, v1, p1, g, k⟩ := h S hS
    obtain ⟨S2, b, v2, p2, h1, h2, h3, h4, h5⟩ := k S1 g.pre
    exact ⟨S2, b, v2, p2, by rw [← g.e]; exact h1, h2.trans g.ex, h3.trans g.own, g.next.trans h4, h5⟩
  | lock l next =>
    refine ⟨ho _ _ rfl, fun S hS => ?_⟩
    obtain ⟨S1, v1, p1, g, k⟩ := h S hS
    obtain ⟨h1, h2⟩ := k.2 S1 g.pre
    refine ⟨(Sh.Has_congr g.e g.ex l).mp h1, fun hf => ?_⟩
    obtain ⟨S2, v2, p2, k1, k2, k3, k4, k5⟩ := h2 (by rw [g.own]; exact hf)
    exact ⟨S2, v2, p2, k1.trans g.e, k2.trans g.ex, by rw [k3, g.own], g.next.trans k4, k5⟩
  | unlock l next =>
    intro S hS
    obtain ⟨S1, v1, p1, g, k⟩ := h S hS
    obtain ⟨h1, h2, S2, v2, p2, k1, k2, k3, k4, k5⟩ := k S1 g.pre
    exact ⟨(Sh.Has_congr g.e g.ex l).mp h1, by rw [← g.own]; exact h2, S2, v2, p2, k1.trans g.e, k2.trans g.ex, by rw [k3, g.own],
      g.next.trans k4, k5⟩
  | free i next =>
    intro S hS
    obtain ⟨S1, v1, p1, g, k⟩ := h S hS
    obtain ⟨h1, h2, h3, S2, v2, p2, k1, k2, k3, k4, k5⟩ := k S1 g.pre
    have hR : S1.oR i = S.oR i := congrFun g.own (.refs i)
    have hB : S1.oB i = S.oB i := congrFun g.own (.blocks i)
    exact ⟨by rw [← g.e]; exact h1, hR ▸ h2, hB ▸ h3, S2, v2, p2, by rw [k1, g.e], k2.trans g.ex, k3.trans g.own,
      g.next.trans k4, k5⟩
  | gone next => exact absurd trivial hc

end MemConc
end Lsmdb
