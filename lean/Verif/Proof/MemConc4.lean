import Verif.Proof.MemConc3

/-!
# The rules of the logic: blocks_mutex_, deletion, mutex_
-/

namespace Lsmdb
namespace MemConc
open MemEnv Spec
open CacheConc (Tid Prog)

variable {t : Tid} {o : Op} {v : View} {p : Phase} {S : Sh} {i : Nat}

/-- The thread may use the file: nobody else can delete it. -/
def Just (v : View) (i : Nat) : Prop :=
  (∃ w n, v.env = some w ∧ w.rname n = some i) ∨ (∃ x, v.obj = some x ∧ x.ref = some i) ∨
    (∃ h x, v.share = some (h, x) ∧ x.file = i) ∨ v.sole = some i

theorem Just.why (hS : Pre t o v p S) (hj : Just v i) :
    (∃ r, S.ref r = some i ∧ Stable (S.vEnv t) (S.vObj t) (S.vShare t) r) ∨ S.vSole t = some i := by
  rcases hj with ⟨w, n, h1, h2⟩ | ⟨x, h1, h2⟩ | ⟨h, x, h1, h2⟩ | h1
  · left
    rw [hS.ev h1] at h2
    exact ⟨.name n, h2, by rw [hS.vEnv, h1]; show some w ≠ none; simp⟩
  · left
    obtain ⟨_, _, h3⟩ := hS.inv.obj.snap t x (hS.vObj.trans h1)
    exact ⟨.obj x.h, h3.trans h2, .inl ⟨x, hS.vObj.trans h1, rfl⟩⟩
  · left
    obtain ⟨a1, a2, a3⟩ := hS.inv.obj.share t h x (hS.vShare.trans h1)
    have := (hS.inv.obj.free h a1 a3).2
    rw [a2] at this
    exact ⟨.obj h, by rw [this, ← h2]; rfl, .inr ⟨x, hS.vShare.trans h1⟩⟩
  · exact .inr (hS.vSole.trans h1)

theorem Just.live (hS : Pre t o v p S) (hj : Just v i) : ∃ f, S.e.files[i]? = some (some f) := by
  rcases hj.why hS with ⟨r, h1, _⟩ | h1
  · apply hS.inv.file.live
    intro e
    have := (hS.inv.file.gRef r i).mpr h1
    rw [e] at this
    cases this
  · exact (hS.inv.file.sole t i h1).1

theorem Just.notDying (hS : Pre t o v p S) (hj : Just v i) (hd : v.dying = none) : ¬ ∃ u, S.vDying u = some i := by
  rintro ⟨u, hu⟩
  have h1 := hS.inv.dying u i hu
  rcases hj.why hS with ⟨r, h2, _⟩ | h2
  · have := (hS.inv.file.gRef r i).mpr h2
    rw [(hS.inv.file.sole u i h1).2] at this
    cases this
  · have := hS.inv.file.soleUniq u t i h1 h2
    subst this
    rw [hS.vDying, hd] at hu
    cases hu

theorem Just.busy (hS : Pre t o v p S) (hj : Just v i) : S.G i ≠ [] ∨ S.vSole t = some i := by
  rcases hj.why hS with ⟨r, h2, _⟩ | h2
  · left
    intro e
    have := (hS.inv.file.gRef r i).mpr h2
    rw [e] at this
    cases this
  · exact .inr h2

theorem own_blocks (S : Sh) (i : Nat) (x : Option Tid) : ({ S with oB := upd S.oB i x } : Sh).own = upd S.own (.blocks i) x := by
  funext l
  cases l with
  | env => simp [Sh.own, upd]
  | refs j => simp [Sh.own, upd]
  | blocks j => simp [Sh.own, upd]

theorem own_refs (S : Sh) (i : Nat) (x : Option Tid) : ({ S with oR := upd S.oR i x } : Sh).own = upd S.own (.refs i) x := by
  funext l
  cases l with
  | env => simp [Sh.own, upd]
  | refs j => simp [Sh.own, upd]
  | blocks j => simp [Sh.own, upd]

theorem own_env (S : Sh) (x : Option Tid) : ({ S with oE := x } : Sh).own = upd S.own .env x := by
  funext l
  cases l with
  | env => simp [Sh.own, upd]
  | refs j => simp [Sh.own, upd]
  | blocks j => simp [Sh.own, upd]

/-! ## blocks_mutex_ -/

theorem ok_lockB {next : Code} (hj : Just v i) (hd : v.dying = none) (hB : v.blk = none) (hR : v.rfs = none)
    (k : ∀ c d, Holds c d → d.length < 2 ^ 64 → Ok t o next { v with blk := some ⟨i, c, d⟩ } p) :
    Ok t o (.lock (.blocks i) next) v p := by
  refine ⟨⟨hB, hR⟩, fun S hS => ?_⟩
  obtain ⟨f, hf⟩ := hj.live hS
  refine ⟨⟨f, hf⟩, fun ho => ?_⟩
  have ho' : S.oB i = none := ho
  let b : BV := ⟨i, ⟨f.blocks, f.size⟩, S.fs.data i⟩
  let S' : Sh := { S with oB := upd S.oB i (some t), vBlk := upd S.vBlk t (some b) }
  have hI := hS.inv
  refine ⟨S', { v with blk := some b }, p, rfl, rfl, own_blocks S i (some t), ?_,
    k _ _ (hI.file.content i f hf ho' (hj.notDying hS hd)) (hI.small i)⟩
  refine Next.quiet hS ?_ ?_ rfl rfl (Nat.le_refl _)
  · refine ⟨hI.env, hI.obj, hI.file.lockB hf ho' (hS.vBlk.trans hB), ?_, hI.small, hI.fresh, hI.dying, hI.known⟩
    intro u w hu
    rcases upd_eq_some hu with ⟨rfl, e⟩ | ⟨_, e⟩
    · injection e with e; subst e; have hw := hj.why hS; exact hw
    · exact hI.why u w e
  · exact view_upd hS.view S' v.env v.obj _ v.rfs v.sole v.dying (upd_self hS.vEnv) (upd_self hS.vObj) rfl rfl (upd_self hS.vRfs)
      (upd_self hS.vSole) (upd_self hS.vDying)

theorem ok_step {β : Type} {f : Content → M (Content × β)} {next : β → Code} {c c' : Content} {d : Bytes} {b : β}
    (hv : v.blk = some ⟨i, c, d⟩) (hf : f c = .ok (c', b)) (k : Ok t o (next b) { v with blk := some ⟨i, c', d⟩ } p) :
    Ok t o (.act (onContent i f) next) v p := by
  intro S hS
  have hI := hS.inv
  have hb := hS.vBlk.trans hv
  obtain ⟨h1, ⟨g, h2, h3⟩, h4⟩ := hI.file.blkView t _ hb
  have h2' : S.e.files[i]? = some (some g) := h2
  have h3' : (⟨g.blocks, g.size⟩ : Content) = c := h3
  let S' : Sh := { S with e := setFile S.e i { g with blocks := c'.blocks, size := c'.size }, vBlk := upd S.vBlk t (some ⟨i, c', d⟩) }
  refine ⟨S', b, _, p, ?_, rfl, rfl, Next.quiet hS ?_ ?_ rfl rfl (Nat.le_refl _), k⟩
  · simp only [onContent, getFile, h2', bind, Except.bind, h3', hf]
    rfl
  · refine ⟨?_, hI.obj, hI.file.stepB c' h2' hb, ?_, hI.small, ?_, hI.dying, hI.known⟩
    · have : mkEV S'.e S'.fs S'.ref = mkEV S.e S.fs S.ref := by
        simp [mkEV, S', setFile]
      show EnvInv (mkEV S'.e S'.fs S'.ref) _ _ _ _
      rw [this]
      exact hI.env
    · intro u w hu
      rcases upd_eq_some hu with ⟨rfl, e⟩ | ⟨_, e⟩
      · injection e with e; subst e; have hw := hI.why u _ hb; exact hw
      · exact hI.why u w e
    · intro j hj
      apply hI.fresh
      simpa [S', setFile] using hj
  · exact view_upd hS.view S' v.env v.obj _ v.rfs v.sole v.dying (upd_self hS.vEnv) (upd_self hS.vObj) rfl rfl (upd_self hS.vRfs)
      (upd_self hS.vSole) (upd_self hS.vDying)

theorem ok_steps {β : Type} {prog : Prog Content β} {k : β → Code} {c c' : Content} {d : Bytes} {b : β}
    (hv : v.blk = some ⟨i, c, d⟩) (hf : prog.run c = .ok (c', b)) (hk : Ok t o (k b) { v with blk := some ⟨i, c', d⟩ } p) :
    Ok t o (steps i prog k) v p := by
  induction prog generalizing c v with
  | done a =>
    simp only [Prog.run] at hf
    injection hf with hf
    injection hf with h1 h2
    subst h1; subst h2
    have : { v with blk := some (BV.mk i c d) } = v := by rw [← hv]
    rw [this] at hk
    exact hk
  | step f next ih =>
    simp only [Prog.run, bind, Except.bind] at hf
    cases e : f c with
    | error x => rw [e] at hf; cases hf
    | ok y =>
      rw [e] at hf
      exact ok_step hv (c' := y.1) (b := y.2) e (ih y.2 rfl hf hk)

theorem ok_unlockB {next : Code} {c : Content} {d : Bytes} (hv : v.blk = some ⟨i, c, d⟩) (hc : Holds c d)
    (k : Ok t o next { v with blk := none } p) : Ok t o (.unlock (.blocks i) next) v p := by
  intro S hS
  have hI := hS.inv
  have hb := hS.vBlk.trans hv
  obtain ⟨h1, ⟨g, h2, h3⟩, h4⟩ := hI.file.blkView t _ hb
  let S' : Sh := { S with oB := upd S.oB i none, vBlk := upd S.vBlk t none }
  refine ⟨⟨g, h2⟩, h1, S', { v with blk := none }, p, rfl, rfl, own_blocks S i none, Next.quiet hS ?_ ?_ rfl rfl (Nat.le_refl _), k⟩
  · refine ⟨hI.env, hI.obj, hI.file.unlockB hb (fun _ => hc), ?_, hI.small, hI.fresh, hI.dying, hI.known⟩
    intro u w hu
    rcases upd_eq_some hu with ⟨_, e⟩ | ⟨_, e⟩
    · cases e
    · exact hI.why u w e
  · exact view_upd hS.view S' v.env v.obj _ v.rfs v.sole v.dying (upd_self hS.vEnv) (upd_self hS.vObj) rfl rfl (upd_self hS.vRfs)
      (upd_self hS.vSole) (upd_self hS.vDying)

/-- The file is about to be deleted. -/
theorem ok_unlockDying {next : Code} {c : Content} {d : Bytes} (hv : v.blk = some ⟨i, c, d⟩) (hs : v.sole = some i)
    (hd : v.dying = none) (k : Ok t o next { v with blk := none, dying := some i } p) : Ok t o (.unlock (.blocks i) next) v p := by
  intro S hS
  have hI := hS.inv
  have hb := hS.vBlk.trans hv
  obtain ⟨h1, ⟨g, h2, h3⟩, h4⟩ := hI.file.blkView t _ hb
  let S' : Sh := { S with oB := upd S.oB i none, vBlk := upd S.vBlk t none, vDying := upd S.vDying t (some i) }
  refine ⟨⟨g, h2⟩, h1, S', { v with blk := none, dying := some i }, p, rfl, rfl, own_blocks S i none,
    Next.quiet hS ?_ ?_ rfl rfl (Nat.le_refl _), k⟩
  · refine ⟨hI.env, hI.obj, ?_, ?_, hI.small, hI.fresh, ?_, hI.known⟩
    · have h5 := hI.file.dying (D' := fun j => ∃ u, upd S.vDying t (some i) u = some j) (by
        rintro j f hj hn ⟨u, hu⟩
        refine hn ⟨u, ?_⟩
        rw [upd_other]
        · exact hu
        · rintro rfl; rw [hS.vDying, hd] at hu; cases hu)
      exact h5.unlockB hb (fun hn => absurd ⟨t, upd_same _ _ _⟩ hn)
    · intro u w hu
      rcases upd_eq_some hu with ⟨_, e⟩ | ⟨_, e⟩
      · cases e
      · exact hI.why u w e
    · intro u j hu
      rcases upd_eq_some hu with ⟨rfl, e⟩ | ⟨_, e⟩
      · injection e with e; subst e; exact hS.vSole.trans hs
      · exact hI.dying u j e
  · exact view_upd hS.view S' v.env v.obj _ v.rfs v.sole _ (upd_self hS.vEnv) (upd_self hS.vObj) rfl rfl (upd_self hS.vRfs)
      (upd_self hS.vSole) rfl

theorem ok_free {next : Code} (hs : v.sole = some i) (hB : v.blk = none) (hR : v.rfs = none)
    (k : Ok t o next { v with sole := none, dying := none } p) : Ok t o (.free i next) v p := by
  intro S hS
  have hI := hS.inv
  have hs' := hS.vSole.trans hs
  obtain ⟨⟨f, hf⟩, hG⟩ := hI.file.sole t i hs'
  have hoR : S.oR i = none := by
    cases e : S.oR i with
    | none => rfl
    | some u =>
      obtain ⟨w, h1, h2⟩ := hI.file.rfsOwn u i e
      obtain ⟨_, h3, _, h4⟩ := hI.file.rfsView u w h1
      rw [h2] at h3 h4
      rcases h4 with h4 | h4
      · rw [hG] at h3; exact absurd h3.symm h4
      · have := hI.file.soleUniq u t i h4 hs'
        subst this
        rw [hS.vRfs, hR] at h1
        cases h1
  have hoB : S.oB i = none := by
    cases e : S.oB i with
    | none => rfl
    | some u =>
      obtain ⟨w, h1, h2⟩ := hI.file.blkOwn u i e
      rcases hI.why u w h1 with ⟨r, h3, _⟩ | h3
      · rw [h2, ← hI.file.gRef, hG] at h3; cases h3
      · rw [h2] at h3
        have := hI.file.soleUniq u t i h3 hs'
        subst this
        rw [hS.vBlk, hB] at h1
        cases h1
  let e' : Env := { S.e with files := S.e.files.set i none, freed := S.e.freed ++ [i] }
  let S' : Sh := { S with e := e', vSole := upd S.vSole t none, vDying := upd S.vDying t none }
  refine ⟨⟨f, hf⟩, hoR, hoB, S', { v with sole := none, dying := none }, p, rfl, rfl, rfl,
    Next.quiet hS ?_ ?_ rfl rfl (Nat.le_refl _), k⟩
  · refine ⟨?_, hI.obj, ?_, ?_, hI.small, ?_, ?_, hI.known⟩
    · have : mkEV S'.e S'.fs S'.ref = mkEV S.e S.fs S.ref := by
        simp [mkEV, S', e']
      show EnvInv (mkEV S'.e S'.fs S'.ref) _ _ _ _
      rw [this]
      exact hI.env
    · refine (hI.file.free hf hs' hoR hoB).dying ?_
      rintro j g hj hn ⟨u, hu⟩
      have hji : j ≠ i := by
        rintro rfl
        rw [List.getElem?_set_self (List.getElem?_eq_some_iff.mp hf).1] at hj
        cases hj
      refine hn ⟨u, ?_⟩
      show upd S.vDying t none u = some j
      rw [upd_other]
      · exact hu
      · rintro rfl
        have := hI.dying u j hu
        rw [hs'] at this
        injection this with this
        exact hji this.symm
    · intro u w hu
      rcases hI.why u w hu with h1 | h1
      · exact .inl h1
      · right
        show upd S.vSole t none u = some w.i
        rw [upd_other]
        · exact h1
        · rintro rfl; rw [show S.vBlk u = none from hS.vBlk.trans hB] at hu; cases hu
    · intro j hj
      apply hI.fresh
      simpa [S', e'] using hj
    · intro u j hu
      rcases upd_eq_some hu with ⟨_, e⟩ | ⟨ne, e⟩
      · cases e
      · show upd S.vSole t none u = some j
        rw [upd_other _ _ ne]; exact hI.dying u j e
  · exact view_upd hS.view S' v.env v.obj v.blk v.rfs _ _ (upd_self hS.vEnv) (upd_self hS.vObj) rfl (upd_self hS.vBlk)
      (upd_self hS.vRfs) rfl rfl

/-! ## mutex_ -/

theorem ok_lockEnv {next : Code} (hT : target o = none) (hd : o ≠ .destroyEnv) (hE : v.env = none) (hB : v.blk = none)
    (hR : v.rfs = none) (k : ∀ w, Clean w → Ok t o next { v with env := some w } p) : Ok t o (.lock .env next) v p := by
  refine ⟨⟨hE, hB, hR⟩, fun S hS => ?_⟩
  have hI := hS.inv
  have hex : S.ex = true := by
    cases e : S.ex with
    | true => rfl
    | false => exact absurd ((hI.env.ex e).2 t o p hS.now hT) hd
  refine ⟨hex, fun ho => ?_⟩
  have ho' : S.oE = none := ho
  have hEnv := hI.env
  rw [ho'] at hEnv
  obtain ⟨_, h2, h3⟩ := hEnv.lock hS.now hT hd
  let w := mkEV S.e S.fs S.ref
  let S' : Sh := { S with oE := some t, vEnv := upd S.vEnv t (some w) }
  refine ⟨S', { v with env := some w }, p, rfl, rfl, own_env S (some t), Next.quiet hS ?_ ?_ rfl rfl (Nat.le_refl _), k w h2⟩
  · refine ⟨h3, hI.obj, hI.file, ?_, hI.small, hI.fresh, hI.dying, ?_⟩
    · intro u x hu
      by_cases e : u = t
      · subst e; rw [show S.vBlk u = none from hS.vBlk.trans hB] at hu; cases hu
      · rw [show S'.vEnv u = S.vEnv u from upd_other _ _ e]
        exact hI.why u x hu
    · intro u o' s h hu hn
      by_cases e : u = t
      · subst e; rw [show S'.vEnv u = some w from upd_same _ _ _] at hn; cases hn
      · rw [show S'.vEnv u = S.vEnv u from upd_other _ _ e] at hn
        exact hI.known u o' s h hu hn
  · exact view_upd hS.view S' _ v.obj v.blk v.rfs v.sole v.dying rfl (upd_self hS.vObj) rfl (upd_self hS.vBlk) (upd_self hS.vRfs)
      (upd_self hS.vSole) (upd_self hS.vDying)

theorem ok_unlockEnv {next : Code} {w : EV} (hE : v.env = some w) (hw : Clean w) (hd : o ≠ .destroyEnv) (hB : v.blk = none)
    (hp : ∀ s h, p = .done (.opened s (some h)) → h < w.nobjs) (k : Ok t o next { v with env := none } p) :
    Ok t o (.unlock .env next) v p := by
  intro S hS
  have hI := hS.inv
  have hw' := hS.ev hE
  obtain ⟨h1, h2, h3⟩ := hI.env.unlock (by rw [hS.vEnv, hE]; simp) hS.now hd (by rw [← hw']; exact hw)
  let S' : Sh := { S with oE := none, vEnv := upd S.vEnv t none }
  refine ⟨h1, h2, S', { v with env := none }, p, rfl, rfl, own_env S none, Next.quiet hS ?_ ?_ rfl rfl (Nat.le_refl _), k⟩
  · refine ⟨h3, hI.obj, hI.file, ?_, hI.small, hI.fresh, hI.dying, ?_⟩
    · intro u x hu
      by_cases e : u = t
      · subst e; rw [show S.vBlk u = none from hS.vBlk.trans hB] at hu; cases hu
      · rw [show S'.vEnv u = S.vEnv u from upd_other _ _ e]
        exact hI.why u x hu
    · intro u o' s h hu hn
      by_cases e : u = t
      · subst e
        have := hS.now.symm.trans hu
        injection this with this
        injection this with _ this
        have := hp s h this
        rw [hw'] at this
        exact this
      · rw [show S'.vEnv u = S.vEnv u from upd_other _ _ e] at hn
        exact hI.known u o' s h hu hn
  · exact view_upd hS.view S' _ v.obj v.blk v.rfs v.sole v.dying rfl (upd_self hS.vObj) rfl (upd_self hS.vBlk) (upd_self hS.vRfs)
      (upd_self hS.vSole) (upd_self hS.vDying)

theorem ok_gone {next : Code} {w : EV} (hE : v.env = some w) (hw : Clean w) (hd : o = .destroyEnv) (hB : v.blk = none)
    (hp : ∀ s h, p ≠ .done (.opened s (some h))) (k : Ok t o next { v with env := none } p) :
    Ok t o (.gone next) v p := by
  refine ⟨hd, fun S hS => ?_⟩
  have hI := hS.inv
  have hw' := hS.ev hE
  obtain ⟨h1, h2, h3⟩ := hI.env.gone (by rw [hS.vEnv, hE]; simp) (hd ▸ hS.now) (by rw [← hw']; exact hw)
  let S' : Sh := { S with ex := false, vEnv := upd S.vEnv t none }
  refine ⟨h1, h2, S', { v with env := none }, p, rfl, rfl, rfl, Next.quiet hS ?_ ?_ rfl rfl (Nat.le_refl _), k⟩
  · refine ⟨h3, hI.obj, hI.file, ?_, hI.small, hI.fresh, hI.dying, ?_⟩
    · intro u x hu
      by_cases e : u = t
      · subst e; rw [show S.vBlk u = none from hS.vBlk.trans hB] at hu; cases hu
      · rw [show S'.vEnv u = S.vEnv u from upd_other _ _ e]
        exact hI.why u x hu
    · intro u o' s h hu hn
      by_cases e : u = t
      · subst e
        have := hS.now.symm.trans hu
        injection this with this
        injection this with _ this
        exact absurd this (hp s h)
      · rw [show S'.vEnv u = S.vEnv u from upd_other _ _ e] at hn
        exact hI.known u o' s h hu hn
  · exact view_upd hS.view S' _ v.obj v.blk v.rfs v.sole v.dying rfl (upd_self hS.vObj) rfl (upd_self hS.vBlk) (upd_self hS.vRfs)
      (upd_self hS.vSole) (upd_self hS.vDying)

end MemConc
end Lsmdb
