import Verif.Proof.MemConc8

/-!
# Soundness: runs of the threads are runs of the atomic file system
-/

namespace Lsmdb
namespace MemConc
open MemEnv Spec
open CacheConc (Tid Prog)

variable {w w' : World} {S S' : Sh} {H : Hist} {t : Tid} {o : Op} {p : Phase}

/-- The threads are where the logic says they are. -/
structure Sim (w : World) (S : Sh) (H : Hist) : Prop where
  env : S.e = w.env
  ex : S.ex = w.exists_
  own : S.own = w.owner
  inv : Inv S
  atom : Atomic ⟨S.fs, S.now⟩ H
  idle : ∀ t, w.pc t = .idle → S.now t = none ∧ S.view t = {}
  run : ∀ t c, w.pc t = .run c → ∃ o p, S.now t = some (o, p) ∧ Ok t o c (S.view t) p
  pend : ∀ t, pending H t = (S.now t).map Prod.fst
  handles : ∀ t s h, Ev.ret t (.opened s (some h)) ∈ H → h < S.e.objs.length
  gone : S.ex = false → ∃ t, Ev.call t .destroyEnv ∈ H

theorem pending_mem {t : Tid} {o : Op} : ∀ {H : Hist}, pending H t = some o → Ev.call t o ∈ H := by
  intro H
  induction H with
  | nil => intro h; cases h
  | cons e H ih =>
    cases e with
    | call u o' =>
      simp only [pending]
      intro h
      by_cases hu : u = t
      · rw [if_pos hu] at h; injection h with h; subst hu; subst h; exact List.mem_cons_self ..
      · rw [if_neg hu] at h; exact List.mem_cons_of_mem _ (ih h)
    | ret u r =>
      simp only [pending]
      intro h
      by_cases hu : u = t
      · rw [if_pos hu] at h; cases h
      · rw [if_neg hu] at h; exact List.mem_cons_of_mem _ (ih h)

theorem Sim.called (s : Sim w S H) (h : S.now t = some (o, p)) : Ev.call t o ∈ H :=
  pending_mem (by rw [s.pend, h]; rfl)

theorem Disciplined.suffix {H' : Hist} (h : Disciplined H) (hs : H' <:+ H) : Disciplined H' :=
  fun a H'' h1 h2 => h a H'' (h1.trans hs) h2

theorem Sim.pre (s : Sim w S H) (d : Disciplined H) (h : S.now t = some (o, p)) : Pre t o (S.view t) p S :=
  ⟨s.inv, rfl, h, fun hp => d _ H (List.suffix_refl _) s.atom t o p h hp⟩

theorem Moments.atomic {fs fs' : FS} {p p' : Phase} (m : Moments o fs p fs' p') {now : Tid → Option (Op × Phase)}
    (h : now t = some (o, p)) (a : Atomic ⟨fs, now⟩ H) : Atomic ⟨fs', upd now t (some (o, p'))⟩ H := by
  induction m with
  | refl => rw [← upd_self h]; exact a
  | tail _ m ih =>
    have := Atomic.moment (t := t) (o := o) (ih h) (upd_same _ _ _) m
    have e : ∀ q q' : Phase, upd (upd now t (some (o, q))) t (some (o, q')) = upd now t (some (o, q')) := by
      intro q q'
      funext u
      unfold upd
      split <;> rfl
    simp only [e] at this
    exact this

theorem at_pc (w : World) (t : Tid) (q : Pc) (u : Tid) : (w.at t q).pc u = if u = t then q else w.pc u := rfl

/-- A step inside of a call. -/
theorem Sim.step (s : Sim w S H) {c c' : Code} {v' : View} {p' : Phase} (hn : S.now t = some (o, p))
    (n : Next t o v' p p' S S') (k : Ok t o c' v' p') (hpc : ∀ u, w'.pc u = if u = t then .run c' else w.pc u)
    (he : S'.e = w'.env) (hx : S'.ex = w'.exists_) (ho : S'.own = w'.owner) (hg : S'.ex = S.ex ∨ o = .destroyEnv) : Sim w' S' H where
  env := he
  ex := hx
  own := ho
  inv := n.inv
  atom := by
    have := n.moments.atomic hn s.atom
    rw [← n.now] at this
    exact this
  idle := by
    intro u hu
    rw [hpc] at hu
    by_cases e : u = t
    · rw [if_pos e] at hu; cases hu
    · rw [if_neg e] at hu
      rw [n.now, upd_other _ _ e, n.view, if_neg e]
      exact s.idle u hu
  run := by
    intro u d hu
    rw [hpc] at hu
    by_cases e : u = t
    · rw [if_pos e] at hu
      injection hu with hu
      subst hu; subst e
      refine ⟨o, p', ?_, ?_⟩
      · rw [n.now, upd_same]
      · rw [n.view, if_pos rfl]; exact k
    · rw [if_neg e] at hu
      rw [n.now, upd_other _ _ e, n.view, if_neg e]
      exact s.run u d hu
  pend := by
    intro u
    rw [s.pend, n.now]
    exact (fst_upd hn p' u).symm
  handles := fun u st h hm => Nat.lt_of_lt_of_le (s.handles u st h hm) n.grows
  gone := by
    intro hf
    rcases hg with hg | hg
    · exact s.gone (hg ▸ hf)
    · subst hg; exact ⟨t, s.called hn⟩

theorem Sim.internal (s : Sim w S H) (d : Disciplined H) (st : Step w none w') : ∃ S', Sim w' S' H := by
  cases st with
  | @act t β f next e b h eq =>
    obtain ⟨o, p, hn, k⟩ := s.run t _ h
    obtain ⟨S', b', v', p', h1, h2, h3, h4, h5⟩ := k S (s.pre d hn)
    rw [s.env, eq] at h1
    injection h1 with h1
    injection h1 with h1 h1'
    subst h1'
    refine ⟨S', s.step (c := .act f next) hn h4 h5 (fun u => rfl) h1.symm (h2.trans s.ex) (h3.trans s.own) (.inl h2)⟩
  | @lock t l next h hl free =>
    obtain ⟨o, p, hn, k⟩ := s.run t _ h
    obtain ⟨S', v', p', h1, h2, h3, h4, h5⟩ := (k.2 S (s.pre d hn)).2 (by rw [s.own]; exact free)
    refine ⟨S', s.step (c := .lock l next) hn h4 h5 (fun u => rfl) (h1.trans s.env) (h2.trans s.ex) ?_ (.inl h2)⟩
    rw [h3, s.own]; rfl
  | @unlock t l next h hl mine =>
    obtain ⟨o, p, hn, k⟩ := s.run t _ h
    obtain ⟨_, _, S', v', p', h1, h2, h3, h4, h5⟩ := k S (s.pre d hn)
    refine ⟨S', s.step (c := .unlock l next) hn h4 h5 (fun u => rfl) (h1.trans s.env) (h2.trans s.ex) ?_ (.inl h2)⟩
    rw [h3, s.own]; rfl
  | @free t i next h hl hr hb =>
    obtain ⟨o, p, hn, k⟩ := s.run t _ h
    obtain ⟨_, _, _, S', v', p', h1, h2, h3, h4, h5⟩ := k S (s.pre d hn)
    refine ⟨S', s.step (c := .free i next) hn h4 h5 (fun u => rfl) ?_ (h2.trans s.ex) (h3.trans s.own) (.inl h2)⟩
    rw [h1, s.env]; rfl
  | @gone t next h hl hm =>
    obtain ⟨o, p, hn, k⟩ := s.run t _ h
    obtain ⟨_, _, S', v', p', h1, h2, h3, h4, h5⟩ := k.2 S (s.pre d hn)
    exact ⟨S', s.step (c := .gone next) hn h4 h5 (fun u => rfl) (h1.trans s.env) h2 (h3.trans s.own) (.inr k.1)⟩

/-! ## Returns -/

theorem Sim.ret (s : Sim w S H) {r : Res} (st : Step w (some (.ret t r)) w') : ∃ S', Sim w' S' (.ret t r :: H) := by
  cases st with
  | ret h =>
    obtain ⟨o, p, hn, hp, e1, e2, e3, e4, e5, e6⟩ := s.run t _ h
    subst hp
    let S' : Sh := { S with now := upd S.now t none, vObj := upd S.vObj t none, vShare := upd S.vShare t none }
    have hI := s.inv
    have vE : S.vEnv t = none := e1
    have vB : S.vBlk t = none := e2
    have nowO : ∀ {u q}, upd S.now t none u = some q → u ≠ t ∧ S.now u = some q := by
      intro u q hu
      rcases upd_eq_some hu with ⟨_, e⟩ | ⟨ne, e⟩
      · cases e
      · exact ⟨ne, e⟩
    have nowI : ∀ {u q}, u ≠ t → S.now u = some q → upd S.now t none u = some q := by
      intro u q hu hq; rw [upd_other _ _ hu]; exact hq
    have objO : ∀ {u x}, upd S.vObj t none u = some x → u ≠ t ∧ S.vObj u = some x := by
      intro u q hu
      rcases upd_eq_some hu with ⟨_, e⟩ | ⟨ne, e⟩
      · cases e
      · exact ⟨ne, e⟩
    have shO : ∀ {u x}, upd S.vShare t none u = some x → u ≠ t ∧ S.vShare u = some x := by
      intro u q hu
      rcases upd_eq_some hu with ⟨_, e⟩ | ⟨ne, e⟩
      · cases e
      · exact ⟨ne, e⟩
    have env' : EnvInv (mkEV S.e S.fs S.ref) S.ex S.oE S.vEnv (upd S.now t none) := by
      refine { hI.env with view := ?_, destroy := ?_, ex := ?_, opEnv := ?_ }
      · intro u hu
        rcases hI.env.view u hu with h1 | ⟨q, h1⟩
        · exact .inl h1
        · exact .inr ⟨q, nowI (by rintro rfl; exact hu vE) h1⟩
      · intro u q hu
        obtain ⟨_, h1⟩ := nowO hu
        obtain ⟨h2, h3⟩ := hI.env.destroy u q h1
        exact ⟨h2, fun u' o' q' hne hu' => h3 u' o' q' hne (nowO hu').2⟩
      · intro he
        obtain ⟨h1, h2⟩ := hI.env.ex he
        exact ⟨h1, fun u o' q hu => h2 u o' q (nowO hu).2⟩
      · intro u hu
        obtain ⟨o', q, h1, h2⟩ := hI.env.opEnv u hu
        exact ⟨o', q, nowI (by rintro rfl; exact hu vE) h1, h2⟩
    have obj' : ObjInv S.e.objs S.fs.obj S.ref (upd S.vObj t none) (upd S.vShare t none) (upd S.now t none) := by
      refine ⟨?_, ?_, ?_, ?_, ?_, ?_⟩
      · intro u x hu; exact hI.obj.snap u x (objO hu).2
      · intro u u' x x' hu hu'; exact hI.obj.uniq u u' x x' (objO hu).2 (objO hu').2
      · intro k hk hno
        by_cases hown : ∃ x, S.vObj t = some x ∧ x.h = k
        · obtain ⟨x, hx, rfl⟩ := hown
          obtain ⟨h1, h2, h3⟩ := hI.obj.snap t x hx
          obtain ⟨h4, h5⟩ := e6 x hx
          rw [h1, h2, h3, h4, h5]
          exact ⟨rfl, rfl⟩
        · refine hI.obj.free k hk fun u x hu hk' => ?_
          by_cases e : u = t
          · subst e; exact hown ⟨x, hu, hk'⟩
          · exact hno u x (by rw [upd_other _ _ e]; exact hu) hk'
      · intro u k x hu
        obtain ⟨h1, h2, h3⟩ := hI.obj.share u k x (shO hu).2
        exact ⟨h1, h2, fun u' y hy => h3 u' y (objO hy).2⟩
      · intro u x hu
        obtain ⟨ne, hu⟩ := objO hu
        obtain ⟨o', q, h1, h2⟩ := hI.obj.opObj u x hu
        exact ⟨o', q, nowI ne h1, h2⟩
      · intro u k x hu
        obtain ⟨ne, hu⟩ := shO hu
        obtain ⟨o', q, h1, h2⟩ := hI.obj.opShare u k x hu
        exact ⟨o', q, nowI ne h1, h2⟩
    have inv' : Inv S' := by
      refine ⟨env', obj', hI.file, ?_, hI.small, hI.fresh, hI.dying, ?_⟩
      · intro u x hu
        have ne : u ≠ t := by rintro rfl; rw [show S'.vBlk u = none from vB] at hu; cases hu
        rw [show S'.vObj u = S.vObj u from upd_other _ _ ne, show S'.vShare u = S.vShare u from upd_other _ _ ne]
        exact hI.why u x hu
      · intro u o' s' h' hu
        exact hI.known u o' s' h' (nowO hu).2
    have view' : ∀ u, S'.view u = if u = t then {} else S.view u := by
      intro u
      by_cases e : u = t
      · subst e
        rw [if_pos rfl]
        unfold Sh.view
        simp only [S', upd_same]
        rw [show S.vEnv u = none from e1, show S.vBlk u = none from e2, show S.vRfs u = none from e3, show S.vSole u = none from e4,
          show S.vDying u = none from e5]
      · rw [if_neg e]
        unfold Sh.view
        simp only [S', upd_other _ _ e]
    refine ⟨S', s.env, s.ex, s.own, inv', .ret s.atom hn, ?_, ?_, ?_, ?_, ?_⟩
    · intro u hu
      rw [at_pc] at hu
      rw [view']
      by_cases e : u = t
      · rw [if_pos e, e]; exact ⟨upd_same _ _ _, rfl⟩
      · rw [if_neg e] at hu ⊢
        rw [show S'.now u = S.now u from upd_other _ _ e]
        exact s.idle u hu
    · intro u c hu
      rw [at_pc] at hu
      rw [view']
      by_cases e : u = t
      · rw [if_pos e] at hu; cases hu
      · rw [if_neg e] at hu ⊢
        rw [show S'.now u = S.now u from upd_other _ _ e]
        exact s.run u c hu
    · intro u
      show (if t = u then none else pending H u) = (upd S.now t none u).map Prod.fst
      by_cases e : t = u
      · subst e; rw [if_pos rfl, upd_same]; rfl
      · rw [if_neg e, upd_other _ _ (Ne.symm e)]; exact s.pend u
    · intro u s' h' hm
      rcases List.mem_cons.mp hm with e | hm
      · injection e with g1 g2
        subst g1; subst g2
        exact hI.known u o s' h' hn vE
      · exact s.handles u s' h' hm
    · intro hf
      obtain ⟨u, hu⟩ := s.gone hf
      exact ⟨u, List.mem_cons_of_mem _ hu⟩

/-! ## Calls -/

/-- A call begins, with what its thread may know. -/
theorem Sim.begin (s : Sim w S H) (hpc : w.pc t = .idle) (v : View) (hv : Starts o v)
    (hd : v.blk = none ∧ v.rfs = none ∧ v.sole = none ∧ v.dying = none)
    (env' : EnvInv (mkEV S.e S.fs S.ref) S.ex S.oE (upd S.vEnv t v.env) (upd S.now t (some (o, .start))))
    (obj' : ObjInv S.e.objs S.fs.obj S.ref (upd S.vObj t v.obj) (upd S.vShare t v.share) (upd S.now t (some (o, .start)))) :
    ∃ S', Sim (w.at t (.run (code o))) S' (.call t o :: H) := by
  obtain ⟨hn, hv0⟩ := s.idle t hpc
  have hI := s.inv
  let S' : Sh := { S with now := upd S.now t (some (o, .start)), vEnv := upd S.vEnv t v.env, vObj := upd S.vObj t v.obj,
                          vShare := upd S.vShare t v.share }
  have vB : S.vBlk t = none := congrArg View.blk hv0
  have inv' : Inv S' := by
    refine ⟨env', obj', hI.file, ?_, hI.small, hI.fresh, hI.dying, ?_⟩
    · intro u x hu
      have ne : u ≠ t := by rintro rfl; rw [show S'.vBlk u = none from vB] at hu; cases hu
      rw [show S'.vObj u = S.vObj u from upd_other _ _ ne, show S'.vShare u = S.vShare u from upd_other _ _ ne,
        show S'.vEnv u = S.vEnv u from upd_other _ _ ne]
      exact hI.why u x hu
    · intro u o' s' h' hu hE
      rcases upd_eq_some hu with ⟨_, e⟩ | ⟨ne, e⟩
      · cases e
      · refine hI.known u o' s' h' e ?_
        rw [show S'.vEnv u = S.vEnv u from upd_other _ _ ne] at hE
        exact hE
  have view' : ∀ u, S'.view u = if u = t then v else S.view u := by
    intro u
    by_cases e : u = t
    · subst e
      rw [if_pos rfl]
      unfold Sh.view
      simp only [S', upd_same]
      rw [show S.vBlk u = none from vB, show S.vRfs u = none from congrArg View.rfs hv0,
        show S.vSole u = none from congrArg View.sole hv0, show S.vDying u = none from congrArg View.dying hv0]
      obtain ⟨a, b, c, d, e, f, g⟩ := v
      obtain ⟨h1, h2, h3, h4⟩ := hd
      cases h1; cases h2; cases h3; cases h4
      rfl
    · rw [if_neg e]
      unfold Sh.view
      simp only [S', upd_other _ _ e]
  refine ⟨S', s.env, s.ex, s.own, inv', .call s.atom hn, ?_, ?_, ?_, ?_, ?_⟩
  · intro u hu
    rw [at_pc] at hu
    rw [view']
    by_cases e : u = t
    · rw [if_pos e] at hu; cases hu
    · rw [if_neg e] at hu ⊢
      rw [show S'.now u = S.now u from upd_other _ _ e]
      exact s.idle u hu
  · intro u c hu
    rw [at_pc] at hu
    rw [view']
    by_cases e : u = t
    · rw [if_pos e] at hu ⊢
      injection hu with hu
      subst hu; subst e
      exact ⟨o, .start, upd_same _ _ _, code_ok hv⟩
    · rw [if_neg e] at hu ⊢
      rw [show S'.now u = S.now u from upd_other _ _ e]
      exact s.run u c hu
  · intro u
    show (if t = u then some o else pending H u) = (upd S.now t (some (o, .start)) u).map Prod.fst
    by_cases e : t = u
    · subst e; rw [if_pos rfl, upd_same]; rfl
    · rw [if_neg e, upd_other _ _ (Ne.symm e)]; exact s.pend u
  · intro u s' h' hm
    rcases List.mem_cons.mp hm with e | hm
    · cases e
    · exact s.handles u s' h' hm
  · intro hf
    obtain ⟨u, hu⟩ := s.gone hf
    exact ⟨u, List.mem_cons_of_mem _ hu⟩

theorem Sim.call (s : Sim w S H) (st : Step w (some (.call t o)) w') (pm : Permitted H o) (d : Disciplined (.call t o :: H)) :
    ∃ S', Sim w' S' (.call t o :: H) := by
  cases st with
  | call _ hpc =>
    obtain ⟨hn, hv0⟩ := s.idle t hpc
    have hI := s.inv
    have ha : S.fs.Allowed o :=
      d _ _ (List.suffix_refl _) (.call s.atom hn) t o .start (upd_same _ _ _) (by intro r e; cases e)
    have vE : S.vEnv t = none := congrArg View.env hv0
    have vO : S.vObj t = none := congrArg View.obj hv0
    have vS : S.vShare t = none := congrArg View.share hv0
    have nowI : ∀ {u q}, S.now u = some q → upd S.now t (some (o, .start)) u = some q := by
      intro u q hq
      rw [upd_other _ _ (by rintro rfl; rw [hn] at hq; cases hq)]; exact hq
    have nowO : ∀ {u q}, upd S.now t (some (o, .start)) u = some q → (u = t ∧ q = (o, .start)) ∨ (u ≠ t ∧ S.now u = some q) := by
      intro u q hu
      rcases upd_eq_some hu with ⟨e, e'⟩ | ⟨ne, e⟩
      · exact .inl ⟨e, by injection e' with e'; exact e'.symm⟩
      · exact .inr ⟨ne, e⟩
    have noDestroy : target o = none → ∀ u q, S.now u ≠ some (.destroyEnv, q) :=
      fun hT u q hu => pm.notDestroyed hT u (s.called hu)
    -- the invariants when the thread gets nothing
    have envSame : (target o = none → o ≠ .destroyEnv) → EnvInv (mkEV S.e S.fs S.ref) S.ex S.oE S.vEnv (upd S.now t (some (o, .start))) := by
      intro hne
      have hnd : o ≠ .destroyEnv := by rintro rfl; exact hne rfl rfl
      refine { hI.env with view := ?_, destroy := ?_, ex := ?_, opEnv := ?_ }
      · intro u hu
        rcases hI.env.view u hu with h1 | ⟨q, h1⟩
        · exact .inl h1
        · exact .inr ⟨q, nowI h1⟩
      · intro u q hu
        rcases nowO hu with ⟨_, e⟩ | ⟨_, hu1⟩
        · injection e with e; exact absurd e.symm hnd
        · obtain ⟨h2, h3⟩ := hI.env.destroy u q hu1
          refine ⟨h2, fun u' o' q' hne hu' => ?_⟩
          rcases nowO hu' with ⟨_, e⟩ | ⟨_, hu'⟩
          · injection e with e _
            subst e
            exact fun hT => noDestroy hT u q hu1
          · exact h3 u' o' q' hne hu'
      · intro he
        obtain ⟨h1, h2⟩ := hI.env.ex he
        refine ⟨h1, fun u o' q hu hT => ?_⟩
        rcases nowO hu with ⟨_, e⟩ | ⟨_, hu⟩
        · injection e with e _
          subst e
          obtain ⟨u', hu'⟩ := s.gone he
          exact absurd hu' (pm.notDestroyed hT u')
        · exact h2 u o' q hu hT
      · intro u hu
        obtain ⟨o', q, h1, h2⟩ := hI.env.opEnv u hu
        exact ⟨o', q, nowI h1, h2⟩
    have objSame : ObjInv S.e.objs S.fs.obj S.ref S.vObj S.vShare (upd S.now t (some (o, .start))) := by
      refine { hI.obj with opObj := ?_, opShare := ?_ }
      · intro u x hu
        obtain ⟨o', q, h1, h2⟩ := hI.obj.opObj u x hu
        exact ⟨o', q, nowI h1, h2⟩
      · intro u k x hu
        obtain ⟨o', q, h1, h2⟩ := hI.obj.opShare u k x hu
        exact ⟨o', q, nowI h1, h2⟩
    have uE : upd S.vEnv t none = S.vEnv := (upd_self vE).symm
    have uO : upd S.vObj t none = S.vObj := (upd_self vO).symm
    have uS : upd S.vShare t none = S.vShare := (upd_self vS).symm
    cases hT : target o with
    | none =>
      by_cases hd : o = .destroyEnv
      · subst hd
        have hex : S.ex = true := by
          cases e : S.ex with
          | true => rfl
          | false => obtain ⟨u, hu⟩ := s.gone e; exact absurd hu (pm.notDestroyed hT u)
        have nobody : ∀ u, S.vEnv u = none := by
          intro u
          cases e : S.vEnv u with
          | none => rfl
          | some y =>
            obtain ⟨o', q, h1, h2⟩ := hI.env.opEnv u (by rw [e]; simp)
            exact absurd h2 (pm.last rfl u o' (by rw [s.pend, h1]; rfl))
        have free : S.oE = none := by
          cases e : S.oE with
          | none => rfl
          | some u => exact absurd (nobody u) (hI.env.own u e)
        have hw := hI.env.free nobody
        have only : ∀ u, upd S.vEnv t (some (mkEV S.e S.fs S.ref)) u ≠ none → u = t := by
          intro u hu
          by_cases e : u = t
          · exact e
          · rw [upd_other _ _ e] at hu; exact absurd (nobody u) hu
        refine s.begin hpc (inEnv (mkEV S.e S.fs S.ref)) ?_ ⟨rfl, rfl, rfl, rfl⟩ ?_ ?_
        · unfold Starts; rw [hT]; exact .inl ⟨rfl, _, hw, rfl⟩
        · refine ⟨?_, ?_, ?_, ?_, ?_, ?_, ?_, ?_⟩
          · intro u y hu
            rcases upd_eq_some hu with ⟨_, e⟩ | ⟨ne, e⟩
            · injection e with e; exact e.symm
            · rw [nobody u] at e; cases e
          · intro u u' hu hu'; rw [only u hu, only u' hu']
          · intro u hu; rw [free] at hu; cases hu
          · intro u hu; right; rw [only u hu, upd_same]; exact ⟨_, rfl⟩
          · intro hf; have := hf t; rw [upd_same] at this; cases this
          · intro u q hu
            refine ⟨by (rw [free]; intro e; cases e), fun u' o' q' hne hu' => ?_⟩
            rcases nowO hu with ⟨rfl, _⟩ | ⟨_, hu⟩
            · rcases nowO hu' with ⟨e, _⟩ | ⟨_, hu'⟩
              · exact absurd e hne
              · exact pm.last rfl u' o' (by rw [s.pend, hu']; rfl)
            · exact absurd hu (noDestroy hT u q)
          · intro he; rw [hex] at he; cases he
          · intro u hu; rw [only u hu, upd_same]; exact ⟨_, _, rfl, hT⟩
        · rw [show (inEnv (mkEV S.e S.fs S.ref)).obj = none from rfl, show (inEnv (mkEV S.e S.fs S.ref)).share = none from rfl, uO, uS]
          exact objSame
      · refine s.begin hpc {} ?_ ⟨rfl, rfl, rfl, rfl⟩ ?_ ?_
        · unfold Starts; rw [hT]; exact .inr ⟨hd, rfl⟩
        · rw [show ({} : View).env = none from rfl, uE]; exact envSame (fun _ => hd)
        · rw [show ({} : View).obj = none from rfl, show ({} : View).share = none from rfl, uO, uS]; exact objSame
    | some h =>
      obtain ⟨u0, st0, hret⟩ := pm.known h hT
      have hlt := s.handles u0 st0 h hret
      have hnd : target o = none → o ≠ .destroyEnv := by intro e; rw [hT] at e; cases e
      by_cases hs : Shared o
      · have hx : ∃ x, S.fs.obj h = some x := by
          cases o <;> simp only [target, Option.some.injEq] at hT <;> first | (cases hT; done) | skip
          all_goals subst hT
          all_goals first | exact absurd hs id | skip
          · obtain ⟨i, h1⟩ := ha; exact ⟨_, h1⟩
          · obtain ⟨_, i, h1, _⟩ := ha; exact ⟨_, h1⟩
          · obtain ⟨i, h1⟩ := ha; exact ⟨_, h1⟩
          · obtain ⟨i, h1⟩ := ha; exact ⟨_, h1⟩
          · obtain ⟨i, h1⟩ := ha; exact ⟨_, h1⟩
        obtain ⟨x, hx⟩ := hx
        refine s.begin hpc (inShare h x) ?_ ⟨rfl, rfl, rfl, rfl⟩ ?_ ?_
        · unfold Starts; rw [hT]; exact .inl ⟨hs, x, rfl⟩
        · rw [show (inShare h x).env = none from rfl, uE]; exact envSame hnd
        · rw [show (inShare h x).obj = none from rfl, uO]
          refine { objSame with share := ?_, opShare := ?_ }
          · intro u k y hu
            rcases upd_eq_some hu with ⟨_, e⟩ | ⟨ne, e⟩
            · injection e with e
              injection e with e1 e2
              subst e1; subst e2
              refine ⟨hlt, hx, fun u' z hz hk => ?_⟩
              obtain ⟨o', q, h1, h2, h3⟩ := hI.obj.opObj u' z hz
              exact h3 (pm.shared h hT u' o' (by rw [s.pend, h1]; rfl) (by rw [h2, hk])).2
            · exact hI.obj.share u k y e
          · intro u k y hu
            rcases upd_eq_some hu with ⟨e', e⟩ | ⟨ne, e⟩
            · injection e with e
              injection e with e1 e2
              subst e1; subst e'
              exact ⟨o, .start, upd_same _ _ _, hT⟩
            · exact objSame.opShare u k y e
      · have nobody : ∀ u y, S.vObj u = some y → y.h ≠ h := by
          intro u y hu e
          obtain ⟨o', q, h1, h2, h3⟩ := hI.obj.opObj u y hu
          exact hs (pm.shared h hT u o' (by rw [s.pend, h1]; rfl) (by rw [h2, e])).1
        obtain ⟨f1, f2⟩ := hI.obj.free h hlt nobody
        let x : OV := ⟨h, S.fs.obj h, S.fs.obj h, (S.fs.obj h).map Obj.file⟩
        refine s.begin hpc (inObj h (S.fs.obj h) (S.fs.obj h) ((S.fs.obj h).map Obj.file)) ?_ ⟨rfl, rfl, rfl, rfl⟩ ?_ ?_
        · unfold Starts; rw [hT]; exact .inr ⟨hs, _, rfl⟩
        · rw [show (inObj h (S.fs.obj h) (S.fs.obj h) ((S.fs.obj h).map Obj.file)).env = none from rfl, uE]; exact envSame hnd
        · rw [show (inObj h (S.fs.obj h) (S.fs.obj h) ((S.fs.obj h).map Obj.file)).share = none from rfl, uS]
          show ObjInv _ _ _ (upd S.vObj t (some x)) _ _
          refine { objSame with snap := ?_, uniq := ?_, free := ?_, share := ?_, opObj := ?_ }
          · intro u y hu
            rcases upd_eq_some hu with ⟨_, e⟩ | ⟨ne, e⟩
            · injection e with e; subst e; exact ⟨f1, rfl, f2⟩
            · exact hI.obj.snap u y e
          · intro u u' y y' hu hu' e
            rcases upd_eq_some hu with ⟨e1, e2⟩ | ⟨ne, e2⟩
            · injection e2 with e2; subst e2
              rcases upd_eq_some hu' with ⟨e1', e2'⟩ | ⟨ne', e2'⟩
              · rw [e1, e1']
              · exact absurd e.symm (nobody u' y' e2')
            · rcases upd_eq_some hu' with ⟨e1', e2'⟩ | ⟨ne', e2'⟩
              · injection e2' with e2'; subst e2'
                exact absurd e (nobody u y e2)
              · exact hI.obj.uniq u u' y y' e2 e2' e
          · intro k hk hno
            refine hI.obj.free k hk fun u y hu => hno u y ?_
            rw [upd_other _ _ (by rintro rfl; rw [vO] at hu; cases hu)]
            exact hu
          · intro u k y hu
            obtain ⟨h1, h2, h3⟩ := hI.obj.share u k y hu
            refine ⟨h1, h2, fun u' z hz => ?_⟩
            rcases upd_eq_some hz with ⟨_, e⟩ | ⟨ne, e⟩
            · injection e with e; subst e
              rintro rfl
              obtain ⟨o', q, h4, h5⟩ := hI.obj.opShare u _ y hu
              exact hs (pm.shared h hT u o' (by rw [s.pend, h4]; rfl) h5).1
            · exact h3 u' z e
          · intro u y hu
            rcases upd_eq_some hu with ⟨e', e⟩ | ⟨ne, e⟩
            · injection e with e; subst e; subst e'
              exact ⟨o, .start, upd_same _ _ _, hT, hs⟩
            · exact objSame.opObj u y e

/-! ## Runs -/

theorem sim_init : ∃ S, Sim World.init S [] := by
  let S : Sh := { e := Env.init, ex := true, oE := none, oR := fun _ => none, oB := fun _ => none, fs := FS.init, now := fun _ => none,
                  ref := fun _ => none, G := fun _ => [], vEnv := fun _ => none, vObj := fun _ => none, vShare := fun _ => none,
                  vBlk := fun _ => none, vRfs := fun _ => none, vSole := fun _ => none, vDying := fun _ => none }
  refine ⟨S, rfl, rfl, ?_, ?_, .init, fun _ _ => ⟨rfl, rfl⟩, by (intro t c h; cases h), fun _ => rfl, by (intro _ _ _ h; cases h),
    by (intro h; cases h)⟩
  · funext l; cases l <;> rfl
  · refine ⟨⟨?_, ?_, ?_, ?_, ?_, ?_, ?_, ?_⟩, ⟨?_, ?_, ?_, ?_, ?_, ?_⟩, ⟨?_, ?_, ?_, ?_, ?_, ?_, ?_, ?_, ?_, ?_, ?_, ?_, ?_, ?_⟩, ?_, ?_, ?_, ?_, ?_⟩
    · intro _ _ h; cases h
    · intro _ _ h; exact absurd rfl h
    · intro _ h; cases h
    · intro _ h; exact absurd rfl h
    · intro _; exact ⟨List.Pairwise.nil, fun _ => rfl, rfl, rfl, fun _ => rfl, fun _ => rfl, fun _ => rfl⟩
    · intro _ _ h; cases h
    · intro h; cases h
    · intro _ h; exact absurd rfl h
    · intro _ _ h; cases h
    · intro _ _ _ _ h; cases h
    · intro _ h; cases h
    · intro _ _ _ h; cases h
    · intro _ _ h; cases h
    · intro _ _ _ h; cases h
    · intro r i; exact ⟨by intro h; (cases h), by intro h; (cases h)⟩
    · intro _; exact List.nodup_nil
    · intro _ _ _ h; cases h
    · intro _ _ h; cases h
    · intro _ _ h; cases h
    · intro _ h; exact absurd rfl h
    · intro i; simp [S, Env.init]
    · intro _ _ h; cases h
    · intro _ _ _ h; cases h
    · intro _ _ h; cases h
    · intro _ _ h; cases h
    · intro _ _ h; cases h
    · intro _ _ h; cases h
    · intro _ _ h; cases h
    · intro _ _ h; cases h
    · intro i; exact Nat.two_pow_pos 64
    · intro _ _; rfl
    · intro _ _ h; cases h
    · intro _ _ _ _ h; cases h

theorem Run.sim (r : Run w H) (d : Disciplined H) : ∃ S, Sim w S H := by
  induction r with
  | init => exact sim_init
  | internal _ s ih =>
    obtain ⟨S, h⟩ := ih d
    exact h.internal d s
  | call _ s pm ih =>
    obtain ⟨S, h⟩ := ih (d.suffix (List.suffix_cons _ _))
    exact h.call s pm d
  | ret _ s ih =>
    obtain ⟨S, h⟩ := ih (d.suffix (List.suffix_cons _ _))
    exact h.ret s

end MemConc
end Lsmdb
