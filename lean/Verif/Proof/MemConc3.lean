import Verif.Proof.MemConc2

/-!
# Steps on the map and on file objects keep the invariant
-/

namespace Lsmdb
namespace MemConc
open MemEnv Spec
open CacheConc (Tid Prog)

variable {t : Tid} {o : Op} {v : View} {p : Phase} {S : Sh}

/-! ## now -/

theorem fst_upd {now : Tid → Option (Op × Phase)} (h : now t = some (o, p)) (p' : Phase) (u : Tid) :
    (upd now t (some (o, p')) u).map Prod.fst = (now u).map Prod.fst := by
  unfold upd
  split
  · rename_i e; subst e; rw [h]; rfl
  · rfl

theorem now_of {now now' : Tid → Option (Op × Phase)} (h : ∀ u, (now' u).map Prod.fst = (now u).map Prod.fst) {u : Tid} {o : Op}
    {p : Phase} (hu : now' u = some (o, p)) : ∃ p', now u = some (o, p') := by
  have := h u
  rw [hu] at this
  cases e : now u with
  | none => rw [e] at this; cases this
  | some x =>
    rw [e] at this
    injection this with this
    exact ⟨x.2, by rw [show x = (x.1, x.2) from rfl, ← this]⟩

theorem EnvInv.now' {w : EV} {ex : Bool} {oE : Option Tid} {vEnv : Tid → Option EV} {now now' : Tid → Option (Op × Phase)}
    (h : EnvInv w ex oE vEnv now) (hn : ∀ u, (now' u).map Prod.fst = (now u).map Prod.fst) : EnvInv w ex oE vEnv now' := by
  refine { h with view := ?_, destroy := ?_, ex := ?_, opEnv := ?_ }
  · intro t ht
    rcases h.view t ht with h1 | ⟨q, h1⟩
    · exact .inl h1
    · right
      exact now_of (fun u => (hn u).symm) h1
  · intro t q ht
    obtain ⟨q', ht'⟩ := now_of hn ht
    obtain ⟨h1, h2⟩ := h.destroy t q' ht'
    refine ⟨h1, fun u o' q2 hu hnu => ?_⟩
    obtain ⟨q3, hu'⟩ := now_of hn hnu
    exact h2 u o' q3 hu hu'
  · intro he
    obtain ⟨h1, h2⟩ := h.ex he
    refine ⟨h1, fun u o' q hu hT => ?_⟩
    obtain ⟨q', hu'⟩ := now_of hn hu
    exact h2 u o' q' hu' hT
  · intro t ht
    obtain ⟨o', q, h1, h2⟩ := h.opEnv t ht
    obtain ⟨q', h3⟩ := now_of (fun u => (hn u).symm) h1
    exact ⟨o', q', h3, h2⟩

theorem ObjInv.now' {objs : List (Option Obj)} {fobj : Nat → Option Obj} {ref : RefId → Option Nat} {vObj : Tid → Option OV}
    {vShare : Tid → Option (Nat × Obj)} {now now' : Tid → Option (Op × Phase)} (h : ObjInv objs fobj ref vObj vShare now)
    (hn : ∀ u, (now' u).map Prod.fst = (now u).map Prod.fst) : ObjInv objs fobj ref vObj vShare now' := by
  refine { h with opObj := ?_, opShare := ?_ }
  · intro t w ht
    obtain ⟨o', q, h1, h2⟩ := h.opObj t w ht
    obtain ⟨q', h3⟩ := now_of (fun u => (hn u).symm) h1
    exact ⟨o', q', h3, h2⟩
  · intro t h' w ht
    obtain ⟨o', q, h1, h2⟩ := h.opShare t h' w ht
    obtain ⟨q', h3⟩ := now_of (fun u => (hn u).symm) h1
    exact ⟨o', q', h3, h2⟩

/-! ## The map -/

/-- The holder changes what `mutex_` guards. -/
theorem EnvInv.hold {w : EV} {ex : Bool} {oE : Option Tid} {vEnv : Tid → Option EV} {now : Tid → Option (Op × Phase)}
    (h : EnvInv w ex oE vEnv now) (ht : vEnv t ≠ none) (w' : EV) : EnvInv w' ex oE (upd vEnv t (some w')) now := by
  have other : ∀ u, u ≠ t → vEnv u = none := by
    intro u hu
    cases e : vEnv u with
    | none => rfl
    | some y => exact absurd (h.uniq u t (by rw [e]; simp) ht) hu
  have iff : ∀ u, upd vEnv t (some w') u ≠ none → vEnv u ≠ none := by
    intro u hu
    by_cases e : u = t
    · subst e; exact ht
    · rw [upd_other _ _ e] at hu; exact hu
  refine { h with snap := ?_, uniq := ?_, own := ?_, view := ?_, free := ?_, ex := ?_, opEnv := ?_ }
  · intro u y hu
    rcases upd_eq_some hu with ⟨_, e⟩ | ⟨ne, e⟩
    · injection e with e; exact e.symm
    · rw [other u ne] at e; cases e
  · intro u u' hu hu'; exact h.uniq u u' (iff u hu) (iff u' hu')
  · intro u hu
    by_cases e : u = t
    · subst e; rw [upd_same]; simp
    · rw [upd_other _ _ e]; exact h.own u hu
  · intro u hu; exact h.view u (iff u hu)
  · intro hf; have := hf t; rw [upd_same] at this; cases this
  · intro he; exact absurd ((h.ex he).1 t) ht
  · intro u hu; exact h.opEnv u (iff u hu)

theorem EnvInv.lock {w : EV} {ex : Bool} {vEnv : Tid → Option EV} {now : Tid → Option (Op × Phase)}
    (h : EnvInv w ex none vEnv now) (hn : now t = some (o, p)) (hT : target o = none) (hd : o ≠ .destroyEnv) :
    ex = true ∧ Clean w ∧ EnvInv w ex (some t) (upd vEnv t (some w)) now := by
  have nobody : ∀ u, vEnv u = none := by
    intro u
    cases e : vEnv u with
    | none => rfl
    | some y =>
      rcases h.view u (by rw [e]; simp) with h1 | ⟨q, h1⟩
      · cases h1
      · by_cases eu : u = t
        · subst eu; rw [hn] at h1; injection h1 with h1; injection h1 with h1; exact absurd h1 hd
        · exact absurd hT ((h.destroy u q h1).2 t o p (Ne.symm eu) hn)
  have hex : ex = true := by
    cases e : ex with
    | true => rfl
    | false => exact absurd ((h.ex e).2 t o p hn hT) hd
  refine ⟨hex, h.free nobody, ?_⟩
  have iff : ∀ u, upd vEnv t (some w) u ≠ none → u = t := by
    intro u hu
    by_cases e : u = t
    · exact e
    · rw [upd_other _ _ e] at hu; exact absurd (nobody u) hu
  refine ⟨?_, ?_, ?_, ?_, ?_, ?_, ?_, ?_⟩
  · intro u y hu
    rcases upd_eq_some hu with ⟨_, e⟩ | ⟨ne, e⟩
    · injection e with e; exact e.symm
    · rw [nobody u] at e; cases e
  · intro u u' hu hu'; rw [iff u hu, iff u' hu']
  · intro u hu; injection hu with hu; subst hu; rw [upd_same]; simp
  · intro u hu; left; rw [iff u hu]
  · intro hf; have := hf t; rw [upd_same] at this; cases this
  · intro u q hu
    refine ⟨?_, (h.destroy u q hu).2⟩
    intro e; injection e with e; subst e
    rw [hn] at hu; injection hu with hu; injection hu with hu; exact hd hu
  · intro he; rw [hex] at he; cases he
  · intro u hu; rw [iff u hu]; exact ⟨o, p, hn, hT⟩

theorem EnvInv.unlock {w : EV} {ex : Bool} {oE : Option Tid} {vEnv : Tid → Option EV} {now : Tid → Option (Op × Phase)}
    (h : EnvInv w ex oE vEnv now) (ht : vEnv t ≠ none) (hn : now t = some (o, p)) (hd : o ≠ .destroyEnv) (hc : Clean w) :
    ex = true ∧ oE = some t ∧ EnvInv w ex none (upd vEnv t none) now := by
  have nobody : ∀ u, upd vEnv t none u = none := by
    intro u
    by_cases e : u = t
    · subst e; exact upd_same _ _ _
    · rw [upd_other _ _ e]
      cases e' : vEnv u with
      | none => rfl
      | some y => exact absurd (h.uniq u t (by rw [e']; simp) ht) e
  refine ⟨?_, ?_, ?_, ?_, ?_, ?_, fun _ => hc, ?_, ?_, fun u hu => absurd (nobody u) hu⟩
  · cases e : ex with
    | true => rfl
    | false => exact absurd ((h.ex e).1 t) ht
  · rcases h.view t ht with h1 | ⟨q, h1⟩
    · exact h1
    · rw [hn] at h1; injection h1 with h1; injection h1 with h1; exact absurd h1 hd
  · intro u y hu; rw [nobody u] at hu; cases hu
  · intro u u' hu; exact absurd (nobody u) hu
  · intro u hu; cases hu
  · intro u hu; exact absurd (nobody u) hu
  · intro u q hu; exact ⟨by intro e; (cases e), (h.destroy u q hu).2⟩
  · intro he; exact ⟨nobody, (h.ex he).2⟩

/-- The end of the destruction of the Env. -/
theorem EnvInv.gone {w : EV} {ex : Bool} {oE : Option Tid} {vEnv : Tid → Option EV} {now : Tid → Option (Op × Phase)}
    (h : EnvInv w ex oE vEnv now) (ht : vEnv t ≠ none) (hn : now t = some (.destroyEnv, p)) (hc : Clean w) :
    ex = true ∧ oE = none ∧ EnvInv w false oE (upd vEnv t none) now := by
  have nobody : ∀ u, upd vEnv t none u = none := by
    intro u
    by_cases e : u = t
    · subst e; exact upd_same _ _ _
    · rw [upd_other _ _ e]
      cases e' : vEnv u with
      | none => rfl
      | some y => exact absurd (h.uniq u t (by rw [e']; simp) ht) e
  have hoE : oE = none := by
    cases e : oE with
    | none => rfl
    | some u =>
      have := h.uniq u t (h.own u e) ht
      subst this
      exact absurd e (h.destroy u p hn).1
  refine ⟨?_, hoE, ?_, ?_, ?_, ?_, fun _ => hc, h.destroy, ?_, fun u hu => absurd (nobody u) hu⟩
  · cases e : ex with
    | true => rfl
    | false => exact absurd ((h.ex e).1 t) ht
  · intro u y hu; rw [nobody u] at hu; cases hu
  · intro u u' hu; exact absurd (nobody u) hu
  · intro u hu; rw [hoE] at hu; cases hu
  · intro u hu; exact absurd (nobody u) hu
  · intro _
    refine ⟨nobody, fun u o' q hu hT => ?_⟩
    by_cases e : u = t
    · subst e; rw [hn] at hu; injection hu with hu; injection hu with hu _; exact hu.symm
    · exact absurd hT ((h.destroy t p hn).2 u o' q e hu)

/-! ## File objects -/

theorem ObjInv.lt {objs : List (Option Obj)} {fobj : Nat → Option Obj} {ref : RefId → Option Nat} {vObj : Tid → Option OV}
    {vShare : Tid → Option (Nat × Obj)} {now : Tid → Option (Op × Phase)} (h : ObjInv objs fobj ref vObj vShare now) {x : OV}
    (ht : vObj t = some x) : x.h < objs.length := (List.getElem?_eq_some_iff.mp (h.snap t x ht).1).1

theorem ObjInv.congr {objs : List (Option Obj)} {fobj fobj' : Nat → Option Obj} {ref ref' : RefId → Option Nat}
    {vObj : Tid → Option OV} {vShare : Tid → Option (Nat × Obj)} {now : Tid → Option (Op × Phase)}
    (h : ObjInv objs fobj ref vObj vShare now)
    (hc : ∀ k, k < objs.length → fobj' k = fobj k ∧ ref' (.obj k) = ref (.obj k)) : ObjInv objs fobj' ref' vObj vShare now := by
  refine { h with snap := ?_, free := ?_, share := ?_ }
  · intro u x hu
    obtain ⟨c1, c2⟩ := hc x.h (h.lt hu)
    rw [c1, c2]
    exact h.snap u x hu
  · intro k hk hn
    obtain ⟨c1, c2⟩ := hc k hk
    rw [c1, c2]
    exact h.free k hk hn
  · intro u k w hu
    obtain ⟨h1, h2, h3⟩ := h.share u k w hu
    exact ⟨h1, by rw [(hc k h1).1]; exact h2, h3⟩

/-- The owner of a file object changes it. -/
theorem ObjInv.set {objs objs' : List (Option Obj)} {fobj fobj' : Nat → Option Obj} {ref ref' : RefId → Option Nat}
    {vObj : Tid → Option OV} {vShare : Tid → Option (Nat × Obj)} {now : Tid → Option (Op × Phase)} {x x' : OV}
    (h : ObjInv objs fobj ref vObj vShare now) (ht : vObj t = some x) (hx : x'.h = x.h) (hl : objs'.length = objs.length)
    (h0 : objs'[x.h]? = some x'.conc ∧ fobj' x.h = x'.abs ∧ ref' (.obj x.h) = x'.ref)
    (hc : ∀ k, k < objs.length → k ≠ x.h → objs'[k]? = objs[k]? ∧ fobj' k = fobj k ∧ ref' (.obj k) = ref (.obj k)) :
    ObjInv objs' fobj' ref' (upd vObj t (some x')) vShare now := by
  have ne : ∀ {u y}, u ≠ t → vObj u = some y → y.h ≠ x.h := fun hu hy e => hu (h.uniq _ t _ _ hy ht e)
  have of : ∀ {u y}, upd vObj t (some x') u = some y → ∃ y', vObj u = some y' ∧ y'.h = y.h := by
    intro u y hu
    rcases upd_eq_some hu with ⟨rfl, e⟩ | ⟨_, e⟩
    · cases e; exact ⟨x, ht, hx.symm⟩
    · exact ⟨y, e, rfl⟩
  have fwd : ∀ {u y}, vObj u = some y → ∃ y', upd vObj t (some x') u = some y' ∧ y'.h = y.h := by
    intro u y hu
    by_cases e : u = t
    · subst e; rw [ht] at hu; cases hu; exact ⟨x', upd_same _ _ _, hx⟩
    · exact ⟨y, by rw [upd_other _ _ e]; exact hu, rfl⟩
  refine ⟨?_, ?_, ?_, ?_, ?_, ?_⟩
  · intro u y hu
    rcases upd_eq_some hu with ⟨rfl, e⟩ | ⟨hne, e⟩
    · cases e; rw [hx]; exact h0
    · obtain ⟨c1, c2, c3⟩ := hc y.h (h.lt e) (ne hne e)
      rw [c1, c2, c3]
      exact h.snap u y e
  · intro u u' y y' hu hu' e
    obtain ⟨z, hz, ez⟩ := of hu
    obtain ⟨z', hz', ez'⟩ := of hu'
    exact h.uniq u u' z z' hz hz' (by rw [ez, ez', e])
  · intro k hk hn
    have hkx : k ≠ x.h := by
      rintro rfl
      exact hn t x' (upd_same _ _ _) hx
    rw [hl] at hk
    obtain ⟨c1, c2, c3⟩ := hc k hk hkx
    rw [c1, c2, c3]
    refine h.free k hk (fun u y hu e => ?_)
    obtain ⟨z, hz, ez⟩ := fwd hu
    exact hn u z hz (ez.trans e)
  · intro u k w hu
    obtain ⟨h1, h2, h3⟩ := h.share u k w hu
    obtain ⟨c1, c2, c3⟩ := hc k h1 (Ne.symm (h3 t x ht))
    refine ⟨hl ▸ h1, by rw [c2]; exact h2, fun u' y hy e => ?_⟩
    obtain ⟨z, hz, ez⟩ := of hy
    exact h3 u' z hz (ez.trans e)
  · intro u y hu
    obtain ⟨z, hz, ez⟩ := of hu
    rw [← ez]
    exact h.opObj u z hz
  · exact h.opShare

/-- A new file object. -/
theorem ObjInv.push {objs : List (Option Obj)} {fobj : Nat → Option Obj} {ref : RefId → Option Nat}
    {vObj : Tid → Option OV} {vShare : Tid → Option (Nat × Obj)} {now : Tid → Option (Op × Phase)} {w : Obj}
    (h : ObjInv objs fobj ref vObj vShare now) (h1 : fobj objs.length = some w) (h2 : ref (.obj objs.length) = some w.file) :
    ObjInv (objs ++ [some w]) fobj ref vObj vShare now := by
  refine { h with snap := ?_, free := ?_, share := ?_ }
  · intro u x hu
    rw [List.getElem?_append_left (h.lt hu)]
    exact h.snap u x hu
  · intro k hk hn
    by_cases e : k < objs.length
    · rw [List.getElem?_append_left e]
      exact h.free k e hn
    · have : k = objs.length := by simp at hk; omega
      subst this
      rw [h1, h2]
      simp
  · intro u k w' hu
    obtain ⟨a1, a2, a3⟩ := h.share u k w' hu
    exact ⟨by simp; omega, a2, a3⟩

/-! ## Before and after a step -/

theorem Pre.vEnv (hS : Pre t o v p S) : S.vEnv t = v.env := congrArg View.env hS.view
theorem Pre.vObj (hS : Pre t o v p S) : S.vObj t = v.obj := congrArg View.obj hS.view
theorem Pre.vShare (hS : Pre t o v p S) : S.vShare t = v.share := congrArg View.share hS.view
theorem Pre.vBlk (hS : Pre t o v p S) : S.vBlk t = v.blk := congrArg View.blk hS.view
theorem Pre.vRfs (hS : Pre t o v p S) : S.vRfs t = v.rfs := congrArg View.rfs hS.view
theorem Pre.vSole (hS : Pre t o v p S) : S.vSole t = v.sole := congrArg View.sole hS.view

theorem Pre.vDying (hS : Pre t o v p S) : S.vDying t = v.dying := congrArg View.dying hS.view

theorem Pre.ev (hS : Pre t o v p S) {w : EV} (hw : v.env = some w) : w = mkEV S.e S.fs S.ref :=
  hS.inv.env.snap t w (hS.vEnv.trans hw)

theorem Next.quiet {v' : View} {S' : Sh} (hS : Pre t o v p S) (inv : Inv S') (view : ∀ u, S'.view u = if u = t then v' else S.view u)
    (now : S'.now = S.now) (fs : S'.fs = S.fs) (grows : S.e.objs.length ≤ S'.e.objs.length) : Next t o v' p p S S' := by
  refine ⟨inv, view, ?_, ?_, grows⟩
  · rw [now]
    funext u
    unfold upd
    split
    · rename_i e; rw [e]; exact hS.now
    · rfl
  · rw [fs]; exact .refl

/-- The view after an update of some of its parts. -/
theorem view_upd (hv : S.view t = v) (S' : Sh) (a : Option EV) (b : Option OV) (d : Option BV) (r : Option RV) (s y : Option Nat)
    (hE : S'.vEnv = upd S.vEnv t a) (hO : S'.vObj = upd S.vObj t b) (hSh : S'.vShare = S.vShare) (hB : S'.vBlk = upd S.vBlk t d)
    (hR : S'.vRfs = upd S.vRfs t r) (hSo : S'.vSole = upd S.vSole t s)
    (hD : S'.vDying = upd S.vDying t y) (u : Tid) :
    S'.view u = if u = t then ⟨a, b, v.share, d, r, s, y⟩ else S.view u := by
  unfold Sh.view
  rw [hE, hO, hSh, hB, hR, hSo, hD]
  split
  · rename_i e; subst e
    simp only [upd_same]
    rw [← hv]; rfl
  · rename_i e
    simp only [upd_other _ _ e]

theorem upd_self {α β : Type} [DecidableEq α] {f : α → β} {a : α} {b : β} (h : f a = b) : f = upd f a b := by
  funext x
  unfold upd
  split
  · rename_i e; rw [e, h]
  · rfl

end MemConc
end Lsmdb
