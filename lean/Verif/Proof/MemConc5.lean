import Verif.Proof.MemConc4

/-!
# The rules of the logic: statements under mutex_, references, file objects, moments
-/

namespace Lsmdb
namespace MemConc
open MemEnv Spec
open CacheConc (Tid Prog)

variable {t : Tid} {o : Op} {v : View} {p : Phase} {S : Sh} {i : Nat}

/-- What the threads rely on stays. -/
theorem Inv.why' (hI : Inv S) {S' : Sh} (hblk : ∀ u x, S'.vBlk u = some x → ∃ y, S.vBlk u = some y ∧ y.i = x.i)
    (href : ∀ u r, S.vBlk u ≠ none → Stable (S.vEnv u) (S.vObj u) (S.vShare u) r → S'.ref r = S.ref r)
    (henv : ∀ u, S.vEnv u ≠ none → S'.vEnv u ≠ none) (hobj : ∀ u x, S.vObj u = some x → ∃ y, S'.vObj u = some y ∧ y.h = x.h)
    (hshare : S'.vShare = S.vShare) (hsole : ∀ u, S.vBlk u ≠ none → S'.vSole u = S.vSole u) :
    ∀ u x, S'.vBlk u = some x →
      (∃ r, S'.ref r = some x.i ∧ Stable (S'.vEnv u) (S'.vObj u) (S'.vShare u) r) ∨ S'.vSole u = some x.i := by
  intro u x hu
  obtain ⟨y, hy, e⟩ := hblk u x hu
  have hne : S.vBlk u ≠ none := by rw [hy]; simp
  rcases hI.why u y hy with ⟨r, h1, h2⟩ | h1
  · left
    refine ⟨r, by rw [href u r hne h2, h1, e], ?_⟩
    cases r with
    | name n => exact henv u h2
    | obj k =>
      rcases h2 with ⟨x, hx, hk⟩ | ⟨x, hx⟩
      · obtain ⟨z, hz, ez⟩ := hobj u x hx
        exact .inl ⟨z, hz, ez.trans hk⟩
      · exact .inr ⟨x, by rw [hshare]; exact hx⟩
  · right
    rw [hsole u hne, h1, e]

theorem upd_ne {α β : Type} [DecidableEq α] {f : α → Option β} {a : α} {b : β} (u : α) (h : f u ≠ none) : upd f a (some b) u ≠ none := by
  by_cases e : u = a
  · subst e; rw [upd_same]; simp
  · rw [upd_other _ _ e]; exact h

/-- A statement that changes nothing. -/
theorem ok_read {β : Type} {f : Env → M (Env × β)} {next : β → Code}
    (h : ∀ S, Pre t o v p S → ∃ b, f S.e = .ok (S.e, b) ∧ Ok t o (next b) v p) : Ok t o (.act f next) v p := by
  intro S hS
  obtain ⟨b, h1, h2⟩ := h S hS
  refine ⟨S, b, v, p, h1, rfl, rfl, Next.quiet hS hS.inv ?_ rfl rfl (Nat.le_refl _), h2⟩
  intro u
  split
  · rename_i e; subst e; exact hS.view
  · rfl

/-- A statement on the map. -/
theorem ok_map {β : Type} {f : Env → M (Env × β)} {next : β → Code} {w : EV} {m : FileMap} {b : β} (hE : v.env = some w)
    (hf : ∀ e : Env, e.map = w.map → f e = .ok ({ e with map := m }, b))
    (k : Ok t o (next b) { v with env := some { w with map := m } } p) : Ok t o (.act f next) v p := by
  intro S hS
  have hI := hS.inv
  have hw := hS.ev hE
  let S' : Sh := { S with e := { S.e with map := m }, vEnv := upd S.vEnv t (some { w with map := m }) }
  have hne : S.vEnv t ≠ none := by rw [hS.vEnv, hE]; simp
  refine ⟨S', b, { v with env := some { w with map := m } }, p, hf S.e (by rw [hw]; rfl), rfl, rfl,
    Next.quiet hS ?_ ?_ rfl rfl (Nat.le_refl _), k⟩
  · refine ⟨?_, hI.obj, hI.file, ?_, hI.small, hI.fresh, hI.dying, ?_⟩
    · have : mkEV S'.e S'.fs S'.ref = { w with map := m } := by rw [hw]; rfl
      rw [this]
      exact hI.env.hold hne _
    · exact hI.why' (fun u x hx => ⟨x, hx, rfl⟩) (fun _ _ _ _ => rfl) upd_ne (fun u x hx => ⟨x, hx, rfl⟩) rfl (fun _ _ => rfl)
    · intro u o' s h hu hn
      exact hI.known u o' s h hu (Classical.byContradiction fun hc => upd_ne u hc hn)
  · exact view_upd hS.view S' _ v.obj v.blk v.rfs v.sole v.dying rfl (upd_self hS.vObj) rfl (upd_self hS.vBlk) (upd_self hS.vRfs)
      (upd_self hS.vSole) (upd_self hS.vDying)

/-- `new FileState()`. -/
theorem ok_alloc {next : Option Nat → Code} {w : EV} (hE : v.env = some w) (hs : v.sole = none) (hB : v.blk = none)
    (k : Ok t o (next (some w.nfiles)) { v with env := some { w with nfiles := w.nfiles + 1 }, sole := some w.nfiles } p) :
    Ok t o (.act alloc next) v p := by
  intro S hS
  have hI := hS.inv
  have hw := hS.ev hE
  have hn : w.nfiles = S.e.files.length := by rw [hw]; rfl
  let e' : Env := { S.e with files := S.e.files ++ [some FileState.new] }
  let S' : Sh := { S with e := e', vEnv := upd S.vEnv t (some { w with nfiles := w.nfiles + 1 }),
                          vSole := upd S.vSole t (some w.nfiles) }
  have hne : S.vEnv t ≠ none := by rw [hS.vEnv, hE]; simp
  refine ⟨S', some w.nfiles, _, p, by rw [hn]; rfl, rfl, rfl, Next.quiet hS ?_ ?_ rfl rfl (Nat.le_refl _), k⟩
  · refine ⟨?_, hI.obj, ?_, ?_, hI.small, ?_, ?_, ?_⟩
    · have : mkEV S'.e S'.fs S'.ref = { w with nfiles := w.nfiles + 1 } := by rw [hw]; simp [mkEV, S', e']
      rw [this]
      exact hI.env.hold hne _
    · have h1 := hI.file.alloc (hS.vSole.trans hs)
      have h2 : upd S.fs.data S.e.files.length [] = S.fs.data := (upd_self (hI.fresh _ (Nat.le_refl _))).symm
      rw [h2, ← hn] at h1
      exact h1
    · refine hI.why' (fun u x hx => ⟨x, hx, rfl⟩) (fun _ _ _ _ => rfl) upd_ne (fun u x hx => ⟨x, hx, rfl⟩) rfl (fun u hu => ?_)
      refine upd_other _ _ ?_
      rintro rfl
      exact hu (hS.vBlk.trans hB)
    · intro j hj
      apply hI.fresh
      have : S.e.files.length + 1 ≤ j := by simpa [S', e'] using hj
      omega
    · intro u j hu
      have := hI.dying u j hu
      show upd S.vSole t (some w.nfiles) u = some j
      rw [upd_other]
      · exact this
      · rintro rfl; rw [hS.vSole, hs] at this; cases this
    · intro u o' s h hu hn
      exact hI.known u o' s h hu (Classical.byContradiction fun hc => upd_ne u hc hn)
  · exact view_upd hS.view S' _ v.obj v.blk v.rfs _ v.dying rfl (upd_self hS.vObj) rfl (upd_self hS.vBlk) (upd_self hS.vRfs)
      rfl (upd_self hS.vDying)

/-- A new file object. -/
theorem ok_push {next : Nat → Code} {w : EV} {x : Obj} (hE : v.env = some w) (h1 : w.fobj 0 = some x)
    (h2 : w.robj 0 = some x.file)
    (k : Ok t o (next w.nobjs)
      { v with env := some { w with nobjs := w.nobjs + 1, robj := fun j => w.robj (j + 1), fobj := fun j => w.fobj (j + 1) } } p) :
    Ok t o (.act (fun e => .ok ({ e with objs := e.objs ++ [some x] }, e.objs.length)) next) v p := by
  intro S hS
  have hI := hS.inv
  have hw := hS.ev hE
  have hn : w.nobjs = S.e.objs.length := by rw [hw]; rfl
  let e' : Env := { S.e with objs := S.e.objs ++ [some x] }
  let w' : EV := { w with nobjs := w.nobjs + 1, robj := fun j => w.robj (j + 1), fobj := fun j => w.fobj (j + 1) }
  let S' : Sh := { S with e := e', vEnv := upd S.vEnv t (some w') }
  have hne : S.vEnv t ≠ none := by rw [hS.vEnv, hE]; simp
  refine ⟨S', w.nobjs, { v with env := some w' }, p, by rw [hn], rfl, rfl, Next.quiet hS ?_ ?_ rfl rfl (by simp [S', e']), k⟩
  · refine ⟨?_, ?_, hI.file, ?_, hI.small, hI.fresh, hI.dying, ?_⟩
    · have : mkEV S'.e S'.fs S'.ref = w' := by
        simp only [w', hw]
        simp only [mkEV, S', e', List.length_append, List.length_singleton, EV.mk.injEq, true_and]
        exact ⟨funext fun j => by rw [Nat.add_assoc, Nat.add_comm 1 j], funext fun j => by rw [Nat.add_assoc, Nat.add_comm 1 j]⟩
      rw [this]
      exact hI.env.hold hne _
    · refine hI.obj.push ?_ ?_
      · rw [hw] at h1; exact h1
      · rw [hw] at h2; exact h2
    · exact hI.why' (fun u x hx => ⟨x, hx, rfl⟩) (fun _ _ _ _ => rfl) upd_ne (fun u x hx => ⟨x, hx, rfl⟩) rfl (fun _ _ => rfl)
    · intro u o' s h hu hn'
      have := hI.known u o' s h hu (Classical.byContradiction fun hc => upd_ne u hc hn')
      simp only [S', e', List.length_append, List.length_singleton]
      omega
  · exact view_upd hS.view S' _ v.obj v.blk v.rfs v.sole v.dying rfl (upd_self hS.vObj) rfl (upd_self hS.vBlk) (upd_self hS.vRfs)
      (upd_self hS.vSole) (upd_self hS.vDying)

/-- The owner of a file object changes its memory. -/
theorem ok_setObj {β : Type} {f : Env → M (Env × β)} {next : β → Code} {x : OV} {c : Option Obj} {b : β} (hx : v.obj = some x)
    (hf : ∀ e : Env, e.objs[x.h]? = some x.conc → f e = .ok ({ e with objs := e.objs.set x.h c }, b))
    (k : Ok t o (next b) { v with obj := some { x with conc := c } } p) : Ok t o (.act f next) v p := by
  intro S hS
  have hI := hS.inv
  have hx' := hS.vObj.trans hx
  obtain ⟨h1, h2, h3⟩ := hI.obj.snap t x hx'
  let e' : Env := { S.e with objs := S.e.objs.set x.h c }
  let S' : Sh := { S with e := e', vObj := upd S.vObj t (some { x with conc := c }) }
  refine ⟨S', b, { v with obj := some { x with conc := c } }, p, hf S.e h1, rfl, rfl,
    Next.quiet hS ?_ ?_ rfl rfl (by simp [S', e']), k⟩
  · refine ⟨?_, ?_, hI.file, ?_, hI.small, hI.fresh, hI.dying, ?_⟩
    · have : mkEV S'.e S'.fs S'.ref = mkEV S.e S.fs S.ref := by simp [mkEV, S', e']
      rw [this]
      exact hI.env
    · refine hI.obj.set hx' rfl (by simp [S', e']) ⟨?_, h2, h3⟩ ?_
      · show (S.e.objs.set x.h c)[x.h]? = some c
        rw [List.getElem?_set_self (hI.obj.lt hx')]
      · intro j _ hj
        exact ⟨List.getElem?_set_ne (Ne.symm hj), rfl, rfl⟩
    · refine hI.why' (fun u x hx => ⟨x, hx, rfl⟩) (fun _ _ _ _ => rfl) (fun _ h => h) (fun u y hy => ?_) rfl (fun _ _ => rfl)
      by_cases e : u = t
      · subst e
        rw [hx'] at hy; injection hy with hy; subst hy
        exact ⟨_, upd_same _ _ _, rfl⟩
      · exact ⟨y, (upd_other _ _ e).trans hy, rfl⟩
    · intro u o' s h hu hn
      have := hI.known u o' s h hu hn
      simpa [S', e'] using this
  · exact view_upd hS.view S' v.env _ v.blk v.rfs v.sole v.dying (upd_self hS.vEnv) rfl rfl (upd_self hS.vBlk) (upd_self hS.vRfs)
      (upd_self hS.vSole) (upd_self hS.vDying)

/-! ## References -/

theorem ok_lockR {next : Code} (hj : Just v i) (hB : v.blk = none) (hR : v.rfs = none)
    (k : ∀ n, Ok t o next { v with rfs := some ⟨i, n⟩ } p) : Ok t o (.lock (.refs i) next) v p := by
  refine ⟨⟨hB, hR⟩, fun S hS => ?_⟩
  have hl := hj.live hS
  refine ⟨hl, fun ho => ?_⟩
  let S' : Sh := { S with oR := upd S.oR i (some t), vRfs := upd S.vRfs t (some ⟨i, (S.G i).length⟩) }
  have hI := hS.inv
  refine ⟨S', { v with rfs := some ⟨i, (S.G i).length⟩ }, p, rfl, rfl, own_refs S i (some t), ?_, k _⟩
  refine Next.quiet hS ?_ ?_ rfl rfl (Nat.le_refl _)
  · exact ⟨hI.env, hI.obj, hI.file.lockR hl ho (hS.vRfs.trans hR) (hj.busy hS), hI.why, hI.small, hI.fresh, hI.dying, hI.known⟩
  · exact view_upd hS.view S' v.env v.obj v.blk _ v.sole v.dying (upd_self hS.vEnv) (upd_self hS.vObj) rfl (upd_self hS.vBlk) rfl
      (upd_self hS.vSole) (upd_self hS.vDying)

theorem ok_unlockR {next : Code} {n : Nat} (hR : v.rfs = some ⟨i, n⟩) (k : Ok t o next { v with rfs := none } p) :
    Ok t o (.unlock (.refs i) next) v p := by
  intro S hS
  have hI := hS.inv
  have hr := hS.vRfs.trans hR
  obtain ⟨h1, _, h3, _⟩ := hI.file.rfsView t _ hr
  let S' : Sh := { S with oR := upd S.oR i none, vRfs := upd S.vRfs t none }
  refine ⟨h3, h1, S', { v with rfs := none }, p, rfl, rfl, own_refs S i none, ?_, k⟩
  refine Next.quiet hS ?_ ?_ rfl rfl (Nat.le_refl _)
  · exact ⟨hI.env, hI.obj, hI.file.unlockR hr, hI.why, hI.small, hI.fresh, hI.dying, hI.known⟩
  · exact view_upd hS.view S' v.env v.obj v.blk _ v.sole v.dying (upd_self hS.vEnv) (upd_self hS.vObj) rfl (upd_self hS.vBlk) rfl
      (upd_self hS.vSole) (upd_self hS.vDying)

theorem mkEV_name (e : Env) (fs : FS) (ref : RefId → Option Nat) (n : Bytes) (x : Option Nat) :
    mkEV e fs (upd ref (.name n) x) = { mkEV e fs ref with rname := upd (mkEV e fs ref).rname n x } := by
  simp only [mkEV, EV.mk.injEq, true_and]
  exact ⟨funext fun m => by simp [upd], funext fun m => by simp [upd], trivial⟩

theorem upd_objName (ref : RefId → Option Nat) (n : Bytes) (x : Option Nat) (j : Nat) : upd ref (.name n) x (.obj j) = ref (.obj j) := by
  simp [upd]

theorem mkEV_obj (e : Env) (fs : FS) (ref : RefId → Option Nat) (x : Option Nat) :
    mkEV e fs (upd ref (.obj e.objs.length) x) = { mkEV e fs ref with robj := upd (mkEV e fs ref).robj 0 x } := by
  simp only [mkEV, EV.mk.injEq, true_and]
  exact ⟨funext fun m => by simp [upd], funext fun m => by simp [upd], trivial⟩

theorem mkEV_objLt {e : Env} {fs : FS} {ref : RefId → Option Nat} {h : Nat} (x : Option Nat) (hlt : h < e.objs.length) :
    mkEV e fs (upd ref (.obj h) x) = mkEV e fs ref := by
  have : ∀ k, ¬ e.objs.length + k = h := fun k => by omega
  simp [mkEV, upd, this]

theorem mkEV_files (e : Env) (fs : FS) (ref : RefId → Option Nat) (j : Nat) (f : FileState) :
    mkEV (setFile e j f) fs ref = mkEV e fs ref := by
  simp [mkEV, setFile]

/-- `++refs_` for a name of a file that nobody else knows of. -/
theorem ok_addName {next : Unit → Code} {w : EV} {n : Nat} {m : Bytes} (hE : v.env = some w) (hR : v.rfs = some ⟨i, n⟩)
    (hs : v.sole = some i) (hB : v.blk = none) (hd : v.dying = none) (hm : w.rname m = none)
    (k : Ok t o (next ())
      { v with env := some { w with rname := upd w.rname m (some i) }, rfs := some ⟨i, n + 1⟩, sole := none } p) :
    Ok t o (.act (fun e => do return (← Ref e (some i), ())) next) v p := by
  intro S hS
  have hI := hS.inv
  have hw := hS.ev hE
  have hr := hS.vRfs.trans hR
  have hs' := hS.vSole.trans hs
  obtain ⟨h1, h2, ⟨f, h3⟩, _⟩ := hI.file.rfsView t _ hr
  have h3' : S.e.files[i]? = some (some f) := h3
  have hG := (hI.file.sole t i hs').2
  have hrf := hI.file.refs i f h3'
  rw [hG] at hrf
  have hrf' : f.refs = 0 := hrf
  have hne : S.vEnv t ≠ none := by rw [hS.vEnv, hE]; simp
  let w' : EV := { w with rname := upd w.rname m (some i) }
  let S' : Sh := { S with e := setFile S.e i { f with refs := f.refs + 1 }, ref := upd S.ref (.name m) (some i),
                          G := upd S.G i (.name m :: S.G i), vEnv := upd S.vEnv t (some w'), vRfs := upd S.vRfs t (some ⟨i, n + 1⟩),
                          vSole := upd S.vSole t none }
  refine ⟨S', (), { v with env := some w', rfs := some ⟨i, n + 1⟩, sole := none }, p, ?_, rfl, rfl,
    Next.quiet hS ?_ ?_ rfl rfl (Nat.le_refl _), k⟩
  · have : ¬ f.refs + 1 > 2147483647 := by rw [hrf']; decide
    simp only [Ref, getFile, h3', bind, Except.bind, if_neg this]
    rfl
  · refine ⟨?_, ?_, ?_, ?_, hI.small, ?_, ?_, ?_⟩
    · have : mkEV S'.e S'.fs S'.ref = w' := by
        show mkEV (setFile S.e i _) S.fs (upd S.ref (.name m) (some i)) = w'
        rw [mkEV_files, mkEV_name, ← hw]
      rw [this]
      exact hI.env.hold hne _
    · exact hI.obj.congr fun j hj => ⟨rfl, upd_objName S.ref m (some i) j⟩
    · refine hI.file.addRef hr h3' (by rw [hw] at hm; exact hm) ?_ (.inr hs')
      intro _ _ m' hm'
      rw [← hI.file.gRef, hG] at hm'
      cases hm'
    · refine hI.why' (fun u x hx => ⟨x, hx, rfl⟩) (fun u r hu hst => ?_) upd_ne (fun u x hx => ⟨x, hx, rfl⟩) rfl (fun u hu => ?_)
      · refine upd_other _ _ ?_
        rintro rfl
        have := hI.env.uniq u t hst hne
        subst this
        exact hu (hS.vBlk.trans hB)
      · refine upd_other _ _ ?_
        rintro rfl
        exact hu (hS.vBlk.trans hB)
    · intro j hj
      apply hI.fresh
      simpa [S', setFile] using hj
    · intro u j hu
      show upd S.vSole t none u = some j
      rw [upd_other]
      · exact hI.dying u j hu
      · rintro rfl; rw [show S'.vDying u = none from hS.vDying.trans hd] at hu; cases hu
    · intro u o' s h hu hn
      exact hI.known u o' s h hu (Classical.byContradiction fun hc => upd_ne u hc hn)
  · exact view_upd hS.view S' _ v.obj v.blk _ _ v.dying rfl (upd_self hS.vObj) rfl (upd_self hS.vBlk) rfl rfl (upd_self hS.vDying)

/-- `++refs_` for a file object that is being made. -/
theorem ok_addObj {next : Unit → Code} {w : EV} {n : Nat} (hE : v.env = some w) (hR : v.rfs = some ⟨i, n⟩)
    (hs : v.sole = none) (hB : v.blk = none) (hm : ∀ k, w.robj k = none) (hb : w.nobjs + 2 < 2 ^ 31)
    (k : Ok t o (next ())
      { v with env := some { w with robj := upd w.robj 0 (some i) }, rfs := some ⟨i, n + 1⟩ } p) :
    Ok t o (.act (fun e => do return (← Ref e (some i), ())) next) v p := by
  intro S hS
  have hI := hS.inv
  have hw := hS.ev hE
  have hr := hS.vRfs.trans hR
  have hs' := hS.vSole.trans hs
  obtain ⟨h1, h2, ⟨f, h3⟩, _⟩ := hI.file.rfsView t _ hr
  have h3' : S.e.files[i]? = some (some f) := h3
  have hrf := hI.file.refs i f h3'
  have hm' : ∀ k, S.ref (.obj (S.e.objs.length + k)) = none := by
    intro k
    have := hm k
    rw [hw] at this
    exact this
  have hb' : S.e.objs.length + 2 < 2 ^ 31 := by rw [hw] at hb; exact hb
  have hcount := hI.file.count_le (i := i) (k := S.e.objs.length) (by
    intro h' hh
    refine Classical.byContradiction fun hlt => ?_
    have := hm' (h' - S.e.objs.length)
    rw [show S.e.objs.length + (h' - S.e.objs.length) = h' by omega, hh] at this
    cases this)
  have hne : S.vEnv t ≠ none := by rw [hS.vEnv, hE]; simp
  let w' : EV := { w with robj := upd w.robj 0 (some i) }
  let S' : Sh := { S with e := setFile S.e i { f with refs := f.refs + 1 }, ref := upd S.ref (.obj S.e.objs.length) (some i),
                          G := upd S.G i (.obj S.e.objs.length :: S.G i), vEnv := upd S.vEnv t (some w'),
                          vRfs := upd S.vRfs t (some ⟨i, n + 1⟩), vSole := upd S.vSole t none }
  refine ⟨S', (), { v with env := some w', rfs := some ⟨i, n + 1⟩ }, p, ?_, rfl, rfl,
    Next.quiet hS ?_ ?_ rfl rfl (Nat.le_refl _), k⟩
  · have : ¬ f.refs + 1 > 2147483647 := by omega
    simp only [Ref, getFile, h3', bind, Except.bind, if_neg this]
    rfl
  · refine ⟨?_, ?_, ?_, ?_, hI.small, ?_, ?_, ?_⟩
    · have : mkEV S'.e S'.fs S'.ref = w' := by
        show mkEV (setFile S.e i _) S.fs (upd S.ref (.obj S.e.objs.length) (some i)) = w'
        rw [mkEV_files, mkEV_obj, ← hw]
      rw [this]
      exact hI.env.hold hne _
    · refine hI.obj.congr fun j hj => ⟨rfl, upd_other _ _ ?_⟩
      intro e
      injection e with e
      have hj' : j < S.e.objs.length := hj
      omega
    · refine hI.file.addRef hr h3' (hm' 0) ?_ (.inl hs')
      intro _ e
      cases e
    · refine hI.why' (fun u x hx => ⟨x, hx, rfl⟩) (fun u r hu hst => ?_) upd_ne (fun u x hx => ⟨x, hx, rfl⟩) rfl (fun u hu => ?_)
      · refine upd_other _ _ ?_
        rintro rfl
        rcases hst with ⟨x, hx, e⟩ | ⟨x, hx⟩
        · have := hI.obj.lt hx; omega
        · have := (hI.obj.share u _ _ hx).1; omega
      · refine upd_other _ _ ?_
        rintro rfl
        exact hu (hS.vBlk.trans hB)
    · intro j hj
      apply hI.fresh
      simpa [S', setFile] using hj
    · intro u j hu
      have := hI.dying u j hu
      show upd S.vSole t none u = some j
      rw [upd_other]
      · exact this
      · rintro rfl; rw [hs'] at this; cases this
    · intro u o' s h hu hn
      exact hI.known u o' s h hu (Classical.byContradiction fun hc => upd_ne u hc hn)
  · have := view_upd hS.view S' (some w') v.obj v.blk (some ⟨i, n + 1⟩) none v.dying rfl (upd_self hS.vObj) rfl (upd_self hS.vBlk) rfl rfl
      (upd_self hS.vDying)
    rw [← hs] at this
    exact this

/-- `--refs_` for a name. -/
theorem ok_dropName {next : Unit → Code} {w : EV} {n : Nat} {m : Bytes} (hE : v.env = some w) (hR : v.rfs = some ⟨i, n⟩)
    (hs : v.sole = none) (hB : v.blk = none) (hm : w.rname m = some i)
    (k : Ok t o (next ()) { v with env := some { w with rname := upd w.rname m none }, rfs := some ⟨i, n - 1⟩,
                                   sole := if n - 1 = 0 then some i else none } p) :
    Ok t o (.act (decRefs i) next) v p := by
  intro S hS
  have hI := hS.inv
  have hw := hS.ev hE
  have hr := hS.vRfs.trans hR
  have hs' := hS.vSole.trans hs
  obtain ⟨h1, h2, ⟨f, h3⟩, _⟩ := hI.file.rfsView t _ hr
  have h3' : S.e.files[i]? = some (some f) := h3
  have hm' : S.ref (.name m) = some i := by rw [hw] at hm; exact hm
  have hne : S.vEnv t ≠ none := by rw [hS.vEnv, hE]; simp
  let w' : EV := { w with rname := upd w.rname m none }
  let S' : Sh := { S with e := setFile S.e i { f with refs := f.refs - 1 }, ref := upd S.ref (.name m) none,
                          G := upd S.G i ((S.G i).erase (.name m)), vEnv := upd S.vEnv t (some w'),
                          vRfs := upd S.vRfs t (some ⟨i, n - 1⟩), vSole := upd S.vSole t (if n - 1 = 0 then some i else none) }
  refine ⟨S', (), _, p, ?_, rfl, rfl, Next.quiet hS ?_ ?_ rfl rfl (Nat.le_refl _), k⟩
  · simp only [decRefs, getFile, h3', bind, Except.bind]
    rfl
  · refine ⟨?_, ?_, hI.file.dropRef hr h3' hm' hs', ?_, hI.small, ?_, ?_, ?_⟩
    · have : mkEV S'.e S'.fs S'.ref = w' := by
        show mkEV (setFile S.e i _) S.fs (upd S.ref (.name m) none) = w'
        rw [mkEV_files, mkEV_name, ← hw]
      rw [this]
      exact hI.env.hold hne _
    · exact hI.obj.congr fun j hj => ⟨rfl, upd_objName S.ref m none j⟩
    · refine hI.why' (fun u x hx => ⟨x, hx, rfl⟩) (fun u r hu hst => ?_) upd_ne (fun u x hx => ⟨x, hx, rfl⟩) rfl (fun u hu => ?_)
      · refine upd_other _ _ ?_
        rintro rfl
        have := hI.env.uniq u t hst hne
        subst this
        exact hu (hS.vBlk.trans hB)
      · refine upd_other _ _ ?_
        rintro rfl
        exact hu (hS.vBlk.trans hB)
    · intro j hj
      apply hI.fresh
      simpa [S', setFile] using hj
    · intro u j hu
      have := hI.dying u j hu
      show upd S.vSole t _ u = some j
      rw [upd_other]
      · exact this
      · rintro rfl; rw [hs'] at this; cases this
    · intro u o' s h hu hn
      exact hI.known u o' s h hu (Classical.byContradiction fun hc => upd_ne u hc hn)
  · exact view_upd hS.view S' (some w') v.obj v.blk (some ⟨i, n - 1⟩) _ v.dying rfl (upd_self hS.vObj) rfl (upd_self hS.vBlk) rfl rfl
      (upd_self hS.vDying)

/-- `--refs_` for the own file object. -/
theorem ok_dropObj {next : Unit → Code} {x : OV} {n : Nat} (hx : v.obj = some x) (hR : v.rfs = some ⟨i, n⟩)
    (hs : v.sole = none) (hB : v.blk = none) (hm : x.ref = some i)
    (k : Ok t o (next ()) { v with obj := some { x with ref := none }, rfs := some ⟨i, n - 1⟩,
                                   sole := if n - 1 = 0 then some i else none } p) :
    Ok t o (.act (decRefs i) next) v p := by
  intro S hS
  have hI := hS.inv
  have hx' := hS.vObj.trans hx
  have hr := hS.vRfs.trans hR
  have hs' := hS.vSole.trans hs
  obtain ⟨h1, h2, ⟨f, h3⟩, _⟩ := hI.file.rfsView t _ hr
  have h3' : S.e.files[i]? = some (some f) := h3
  obtain ⟨a1, a2, a3⟩ := hI.obj.snap t x hx'
  have hm' : S.ref (.obj x.h) = some i := a3.trans hm
  let x' : OV := { x with ref := none }
  let S' : Sh := { S with e := setFile S.e i { f with refs := f.refs - 1 }, ref := upd S.ref (.obj x.h) none,
                          G := upd S.G i ((S.G i).erase (.obj x.h)), vObj := upd S.vObj t (some x'),
                          vRfs := upd S.vRfs t (some ⟨i, n - 1⟩), vSole := upd S.vSole t (if n - 1 = 0 then some i else none) }
  refine ⟨S', (), _, p, ?_, rfl, rfl, Next.quiet hS ?_ ?_ rfl rfl (Nat.le_refl _), k⟩
  · simp only [decRefs, getFile, h3', bind, Except.bind]
    rfl
  · refine ⟨?_, ?_, hI.file.dropRef hr h3' hm' hs', ?_, hI.small, ?_, ?_, ?_⟩
    · have : mkEV S'.e S'.fs S'.ref = mkEV S.e S.fs S.ref := by
        show mkEV (setFile S.e i _) S.fs (upd S.ref (.obj x.h) none) = _
        rw [mkEV_files, mkEV_objLt _ (hI.obj.lt hx')]
      rw [this]
      exact hI.env
    · refine hI.obj.set hx' rfl rfl ⟨a1, a2, upd_same _ _ _⟩ ?_
      intro j _ hj
      exact ⟨rfl, rfl, upd_other _ _ (by intro e; injection e with e; exact hj e)⟩
    · refine hI.why' (fun u x hx => ⟨x, hx, rfl⟩) (fun u r hu hst => ?_) (fun _ h => h) (fun u y hy => ?_) rfl (fun u hu => ?_)
      · refine upd_other _ _ ?_
        rintro rfl
        rcases hst with ⟨y, hy, e⟩ | ⟨y, hy⟩
        · have := hI.obj.uniq u t y x hy hx' e
          subst this
          exact hu (hS.vBlk.trans hB)
        · exact (hI.obj.share u _ _ hy).2.2 t x hx' rfl
      · by_cases e : u = t
        · subst e
          rw [hx'] at hy; injection hy with hy; subst hy
          exact ⟨_, upd_same _ _ _, rfl⟩
        · exact ⟨y, (upd_other _ _ e).trans hy, rfl⟩
      · refine upd_other _ _ ?_
        rintro rfl
        exact hu (hS.vBlk.trans hB)
    · intro j hj
      apply hI.fresh
      simpa [S', setFile] using hj
    · intro u j hu
      have := hI.dying u j hu
      show upd S.vSole t _ u = some j
      rw [upd_other]
      · exact this
      · rintro rfl; rw [hs'] at this; cases this
    · exact hI.known
  · exact view_upd hS.view S' v.env (some x') v.blk (some ⟨i, n - 1⟩) _ v.dying (upd_self hS.vEnv) rfl rfl (upd_self hS.vBlk) rfl rfl
      (upd_self hS.vDying)

/-- The test after `--refs_`. -/
theorem ok_testRefs {next : Bool → Code} {n : Nat} (hR : v.rfs = some ⟨i, n⟩) (k : Ok t o (next (decide (n = 0))) v p) :
    Ok t o (.act (testRefs i) next) v p := by
  apply ok_read
  intro S hS
  have hr := hS.vRfs.trans hR
  obtain ⟨h1, h2, ⟨f, h3⟩, _⟩ := hS.inv.file.rfsView t _ hr
  have h3' : S.e.files[i]? = some (some f) := h3
  have h2' : (S.G i).length = n := h2
  have hrf := hS.inv.file.refs i f h3'
  rw [h2'] at hrf
  refine ⟨_, ?_, k⟩
  have h4 : decide (f.refs ≥ 0) = true := by
    rw [decide_eq_true_eq, hrf]; omega
  have h5 : decide (f.refs ≤ 0) = decide (n = 0) := by
    rw [decide_eq_decide, hrf]; omega
  simp only [testRefs, getFile, h3', bind, Except.bind, cassert, h4, h5]
  rfl

/-- The reference of a name becomes one of another name. -/
theorem ok_moveName {c : Code} {w : EV} {a b : Bytes} (hc : ¬ c.IsRet) (ho : ∀ l k, c ≠ .lock l k) (hE : v.env = some w) (hB : v.blk = none)
    (ha : w.rname a = some i) (hb : w.rname b = none)
    (hp : ∃ r, p = .done r)
    (k : Ok t o c { v with env := some { w with rname := upd (upd w.rname b (some i)) a none } } p) : Ok t o c v p := by
  refine ok_ghost hc (fun l k' e => absurd e (ho l k')) fun S hS => ?_
  have hI := hS.inv
  have hw := hS.ev hE
  have ha' : S.ref (.name a) = some i := by rw [hw] at ha; exact ha
  have hb' : S.ref (.name b) = none := by rw [hw] at hb; exact hb
  have hne : S.vEnv t ≠ none := by rw [hS.vEnv, hE]; simp
  let w' : EV := { w with rname := upd (upd w.rname b (some i)) a none }
  let S' : Sh := { S with ref := upd (upd S.ref (.name b) (some i)) (.name a) none,
                          G := upd S.G i (.name b :: (S.G i).erase (.name a)), vEnv := upd S.vEnv t (some w') }
  refine ⟨S', { v with env := some w' }, p, ⟨Next.quiet hS ?_ ?_ rfl rfl (Nat.le_refl _), rfl, rfl, rfl, ?_⟩, k⟩
  · refine ⟨?_, ?_, hI.file.moveRef ha' hb', ?_, hI.small, hI.fresh, hI.dying, ?_⟩
    · have : mkEV S'.e S'.fs S'.ref = w' := by
        show mkEV S.e S.fs (upd (upd S.ref (.name b) (some i)) (.name a) none) = w'
        rw [mkEV_name, mkEV_name, ← hw]
      rw [this]
      exact hI.env.hold hne _
    · exact hI.obj.congr fun j hj => ⟨rfl, (upd_objName (upd S.ref (.name b) (some i)) a none j).trans (upd_objName S.ref b (some i) j)⟩
    · refine hI.why' (fun u x hx => ⟨x, hx, rfl⟩) (fun u r hu hst => ?_) upd_ne (fun u x hx => ⟨x, hx, rfl⟩) rfl (fun _ _ => rfl)
      cases r with
      | name n =>
        have := hI.env.uniq u t hst hne
        subst this
        exact absurd (hS.vBlk.trans hB) hu
      | obj h => exact (upd_objName (upd S.ref (.name b) (some i)) a none h).trans (upd_objName S.ref b (some i) h)
    · intro u o' s h hu hn
      exact hI.known u o' s h hu (Classical.byContradiction fun hc => upd_ne u hc hn)
  · exact view_upd hS.view S' _ v.obj v.blk v.rfs v.sole v.dying rfl (upd_self hS.vObj) rfl (upd_self hS.vBlk) (upd_self hS.vRfs)
      (upd_self hS.vSole) (upd_self hS.vDying)
  · intro h
    obtain ⟨r, hr⟩ := hp
    exact absurd hr (h r)

/-! ## Moments -/

/-- What the thread knows after a moment. -/
def View.after (v : View) (fs : FS) : View :=
  { v with env := v.env.map fun w => { w with name := fs.name, opened := fs.opened, made := fs.made, fobj := fun k => fs.obj (w.nobjs + k) },
           obj := v.obj.map fun x => { x with abs := fs.obj x.h },
           blk := v.blk.map fun b => { b with data := fs.data b.i } }

/-- The moment changes only what the thread may change. -/
structure Frame (v : View) (nobjs : Nat) (fs fs' : FS) : Prop where
  name : v.env = none → fs'.name = fs.name ∧ fs'.opened = fs.opened ∧ fs'.made = fs.made ∧
    ∀ k, nobjs ≤ k → fs'.obj k = fs.obj k
  obj : ∀ k, k < nobjs → fs'.obj k ≠ fs.obj k → ∃ x, v.obj = some x ∧ x.h = k
  data : ∀ j, fs'.data j ≠ fs.data j → ∃ b, v.blk = some b ∧ b.i = j
  small : ∀ j, fs'.data j ≠ fs.data j → (fs'.data j).length < 2 ^ 64

theorem Frame.refl (v : View) (n : Nat) (fs : FS) : Frame v n fs fs :=
  ⟨fun _ => ⟨rfl, rfl, rfl, fun _ _ => rfl⟩, fun _ _ h => absurd rfl h, fun _ h => absurd rfl h, fun _ h => absurd rfl h⟩

theorem ok_moment {c : Code} (hc : ¬ c.IsRet) (ho : ∀ l k, c = .lock l k → Ordered v l)
    (h : ∀ S, Pre t o v p S → ∃ fs p', Moment o S.fs p fs p' ∧ Frame v S.e.objs.length S.fs fs ∧
      ((∀ r, p' ≠ .done r) → fs.Allowed o) ∧ (∀ s x, p' = .done (.opened s (some x)) → v.env ≠ none) ∧
      Ok t o c (v.after fs) p') : Ok t o c v p := by
  refine ok_ghost hc ho fun S hS => ?_
  obtain ⟨fs, p', hm, hF, hA, hkn, k⟩ := h S hS
  have hI := hS.inv
  let g : EV → EV := fun w => { w with name := fs.name, opened := fs.opened, made := fs.made, fobj := fun k => fs.obj (w.nobjs + k) }
  let S' : Sh := { S with fs := fs, now := upd S.now t (some (o, p')), vEnv := upd S.vEnv t (v.after fs).env,
                          vObj := upd S.vObj t (v.after fs).obj, vBlk := upd S.vBlk t (v.after fs).blk }
  have hfst : ∀ u, (S'.now u).map Prod.fst = (S.now u).map Prod.fst := fst_upd hS.now p'
  have hview : ∀ u, S'.view u = if u = t then v.after fs else S.view u :=
    view_upd hS.view S' (v.after fs).env (v.after fs).obj (v.after fs).blk v.rfs v.sole v.dying rfl rfl rfl rfl (upd_self hS.vRfs)
      (upd_self hS.vSole) (upd_self hS.vDying)
  have hEnvNe : ∀ u, S'.vEnv u = none ↔ S.vEnv u = none := by
    intro u
    by_cases e : u = t
    · subst e
      show upd S.vEnv u (v.after fs).env u = none ↔ _
      rw [upd_same, hS.vEnv]
      simp [View.after]
    · rw [show S'.vEnv u = S.vEnv u from upd_other _ _ e]
  have hEnv : EnvInv (mkEV S'.e S'.fs S'.ref) S'.ex S'.oE S'.vEnv S'.now := by
    refine EnvInv.now' ?_ hfst
    show EnvInv (mkEV S.e fs S.ref) S.ex S.oE (upd S.vEnv t (v.after fs).env) S.now
    cases hE : v.env with
    | none =>
      obtain ⟨a1, a2, a3, a4⟩ := hF.name hE
      have h1 : mkEV S.e fs S.ref = mkEV S.e S.fs S.ref := by
        unfold mkEV
        rw [a1, a2, a3]
        congr 1
        funext k
        exact a4 _ (Nat.le_add_right _ _)
      have h2 : (v.after fs).env = none := by simp [View.after, hE]
      rw [h1, h2, ← upd_self (hS.vEnv.trans hE)]
      exact hI.env
    | some w =>
      have hw := hS.ev hE
      have h2 : (v.after fs).env = some (mkEV S.e fs S.ref) := by
        simp [View.after, hE, hw, mkEV]
      rw [h2]
      exact hI.env.hold (by rw [hS.vEnv, hE]; simp) _
  have hObj : ObjInv S'.e.objs S'.fs.obj S'.ref S'.vObj S'.vShare S'.now := by
    refine ObjInv.now' ?_ hfst
    show ObjInv S.e.objs fs.obj S.ref (upd S.vObj t (v.after fs).obj) S.vShare S.now
    cases hO : v.obj with
    | none =>
      have h2 : (v.after fs).obj = none := by simp [View.after, hO]
      rw [h2, ← upd_self (hS.vObj.trans hO)]
      refine hI.obj.congr fun k hk => ⟨?_, rfl⟩
      refine Classical.byContradiction fun hne => ?_
      obtain ⟨x, hx, _⟩ := hF.obj k hk hne
      rw [hO] at hx
      cases hx
    | some x =>
      have h2 : (v.after fs).obj = some { x with abs := fs.obj x.h } := by simp [View.after, hO]
      rw [h2]
      obtain ⟨b1, b2, b3⟩ := hI.obj.snap t x (hS.vObj.trans hO)
      refine hI.obj.set (hS.vObj.trans hO) rfl rfl ⟨b1, rfl, b3⟩ fun k hk hne => ⟨rfl, ?_, rfl⟩
      refine Classical.byContradiction fun hne' => ?_
      obtain ⟨y, hy, e⟩ := hF.obj k hk hne'
      rw [hO] at hy
      injection hy with hy
      subst hy
      exact hne e.symm
  have hFile : FileInv S'.e.files S'.e.freed S'.fs.data S'.oR S'.oB S'.ref S'.G S'.vBlk S'.vRfs S'.vSole
      (fun i => ∃ t, S'.vDying t = some i) := hI.file.data' hS.vBlk hF.data
  refine ⟨S', v.after fs, p', ⟨⟨⟨hEnv, hObj, hFile, ?_, ?_, ?_, hI.dying, ?_⟩, hview, rfl, .single hm, Nat.le_refl _⟩, rfl, rfl, rfl,
    hA⟩, k⟩
  · refine hI.why' (fun u x hx => ?_) (fun _ _ _ _ => rfl) (fun u hu => fun hn => hu ((hEnvNe u).mp hn)) (fun u x hx => ?_) rfl
      (fun _ _ => rfl)
    · rcases upd_eq_some hx with ⟨rfl, e⟩ | ⟨_, e⟩
      · rw [hS.vBlk]
        cases hb : v.blk with
        | none => simp [View.after, hb] at e
        | some b =>
          simp only [View.after, hb, Option.map_some] at e
          injection e with e
          subst e
          exact ⟨b, rfl, rfl⟩
      · exact ⟨x, e, rfl⟩
    · by_cases e : u = t
      · subst e
        rw [hS.vObj] at hx
        exact ⟨{ x with abs := fs.obj x.h }, (upd_same _ _ _).trans (by simp only [View.after, hx, Option.map_some]), rfl⟩
      · exact ⟨x, (upd_other _ _ e).trans hx, rfl⟩
  · intro j
    by_cases e : fs.data j = S.fs.data j
    · show (fs.data j).length < _
      rw [e]; exact hI.small j
    · exact hF.small j e
  · intro j hj
    show fs.data j = []
    have h1 : fs.data j = S.fs.data j := by
      refine Classical.byContradiction fun hne => ?_
      obtain ⟨b, hb, e⟩ := hF.data j hne
      obtain ⟨_, ⟨f, hf, _⟩, _⟩ := hI.file.blkView t b (hS.vBlk.trans hb)
      have := (List.getElem?_eq_some_iff.mp hf).1
      rw [e] at this
      have hj' : S.e.files.length ≤ j := hj
      omega
    rw [h1]
    exact hI.fresh j hj
  · intro u o' s x hu hn
    rcases upd_eq_some hu with ⟨rfl, e⟩ | ⟨_, e⟩
    · injection e with e
      injection e with _ e
      exact absurd (hS.vEnv.symm.trans ((hEnvNe u).mp hn)) (hkn s x e)
    · exact hI.known u o' s x e ((hEnvNe u).mp hn)

end MemConc
end Lsmdb
