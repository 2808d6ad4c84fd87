import Verif.Proof.PosixConc4

/-! Calls and returns keep the accounts. -/

namespace Lsmdb
namespace Posix

open MemEnv (St lit)

namespace Conc

open Prog

variable {ext extm : Nat → Prop} {L : Lim → Int} {c : Conf} {fo mo : Nat → Owner} {lo : Bytes → Owner} {gs : List Ghost}

theorem _root_.Lsmdb.Posix.Ghost.Empty.notF {g : Ghost} (h : g.Empty) (a : Nat) : a ∉ g.F := by rw [h.F]; simp
theorem _root_.Lsmdb.Posix.Ghost.Empty.notM {g : Ghost} (h : g.Empty) (a : Nat) : a ∉ g.M := by rw [h.M]; simp
theorem _root_.Lsmdb.Posix.Ghost.Empty.notN {g : Ghost} (h : g.Empty) (a : Bytes) : a ∉ g.N := by rw [h.N]; simp

/-- A call that takes no object for itself begins. -/
theorem Inv.beginStay (H : Inv ext extm L c fo mo lo gs) {t : Nat} (ht : c.th[t]? = some .idle) {home : Home} {p : Prog Fin}
    {B : List Nat} (hp : p.wp (Done home) (Ghost.none B)) (hown : ∀ h, home ≠ .own h)
    (hreads : ∀ h, home = .reads h → ∃ o, c.objs[h]? = some (some o) ∧ ((∃ f, o = .rand f) ∨ ∃ f, o = .mmap f) ∧ ∀ i ∈ B, o.ownsFd i)
    (hB : (∀ h, home ≠ .reads h) → B = []) :
    Inv ext extm L { c with th := c.th.set t (.run home p) } fo mo lo (gs.set t (Ghost.none B)) := by
  obtain ⟨g, hg⟩ := H.ghost ht
  have hE := H.idle t g ht hg
  refine ⟨?_, H.res, H.locks, H.F.same hg (fun a => ?_), H.M.same hg (fun a => ?_), H.N.same hg (fun a => ?_), H.ok, ?_, ?_, ?_, ?_, ?_,
    ?_, fun l => (H.lim l).same hg (hE.grant l).symm (hE.pend l).symm, ?_⟩
  · simp only [List.length_set]; exact H.len
  · rw [hE.F]; exact Iff.rfl
  · rw [hE.M]; exact Iff.rfl
  · rw [hE.N]; exact Iff.rfl
  · intro u home' q x hu hx
    rcases get_set hu with ⟨hne, hu1⟩ | ⟨rfl, e⟩
    · rw [List.getElem?_set_ne (Ne.symm hne)] at hx; exact H.run u home' q x hu1 hx
    · cases e
      have hx' := get_some_eq hx (set_get_self hg); subst hx'
      exact hp
  · intro u x hu hx
    rcases get_set hu with ⟨hne, hu1⟩ | ⟨rfl, e⟩
    · rw [List.getElem?_set_ne (Ne.symm hne)] at hx; exact H.idle u x hu1 hx
    · cases e
  · intro u h q hu
    rcases get_set hu with ⟨hne, hu1⟩ | ⟨rfl, e⟩
    · exact H.own u h q hu1
    · cases e; exact absurd rfl (hown h)
  · intro u v h q q' hu hv
    rcases get_set hu with ⟨hne, hu1⟩ | ⟨rfl, e⟩
    · rcases get_set hv with ⟨hne', hv1⟩ | ⟨rfl, e'⟩
      · exact H.own_one u v h q q' hu1 hv1
      · cases e'; exact absurd rfl (hown h)
    · cases e; exact absurd rfl (hown h)
  · intro u h q x hu hx
    rcases get_set hu with ⟨hne, hu1⟩ | ⟨rfl, e⟩
    · rw [List.getElem?_set_ne (Ne.symm hne)] at hx; exact H.reads u h q x hu1 hx
    · cases e
      have hx' := get_some_eq hx (set_get_self hg); subst hx'
      exact hreads h rfl
  · intro u home' q x hu hn hx
    rcases get_set hu with ⟨hne, hu1⟩ | ⟨rfl, e⟩
    · rw [List.getElem?_set_ne (Ne.symm hne)] at hx; exact H.noB u home' q x hu1 hn hx
    · cases e
      have hx' := get_some_eq hx (set_get_self hg); subst hx'
      exact hB hn
  · intro l
    simp only [List.length_set]; exact H.room l

/-- A call that has an object for itself begins. -/
theorem Inv.beginOwn (H : Inv ext extm L c fo mo lo gs) {t h : Nat} (ht : c.th[t]? = some .idle) {p : Prog Fin}
    {o : Obj} {g' : Ghost} (ho : c.objs[h]? = some (some o)) (hp : p.wp (Done (.own h)) g') (hH : Has g' o) (hB : g'.B = [])
    (hr : ∀ (u : Nat) q, c.th[u]? ≠ some (.run (.reads h) q)) :
    ∃ fo' mo' lo' gs', Inv ext extm L { c with objs := c.objs.set h none, th := c.th.set t (.run (.own h) p) } fo' mo' lo' gs' ∧
      ∀ i, fo' i = if fo i = .obj h then .thr t else fo i := by
  obtain ⟨g, hg⟩ := H.ghost ht
  have hE := H.idle t g ht hg
  refine ⟨moveO fo (.obj h) (.thr t), moveO mo (.obj h) (.thr t), moveO lo (.obj h) (.thr t), gs.set t g', ⟨?_, ?_, ?_,
    H.F.take hg ho hE.notF hH.F, H.M.take hg ho hE.notM hH.M, H.N.take hg ho hE.notN hH.N, ?_, ?_, ?_, ?_, ?_, ?_, ?_, ?_, ?_⟩, fun _ => rfl⟩
  · simp only [List.length_set]; exact H.len
  · exact H.res.congr (fun i => (moveO_free fo (by simp) (by simp) i).symm) fun i => (moveO_free mo (by simp) (by simp) i).symm
  · intro n
    rw [moveO_free lo (by simp) (by simp)]; exact H.locks n
  · intro h' x hx
    rcases get_set hx with ⟨_, hx1⟩ | ⟨_, hx1⟩
    · exact H.ok h' x hx1
    · cases hx1
  · intro u home' q x hu hx
    rcases get_set hu with ⟨hne, hu1⟩ | ⟨rfl, e⟩
    · rw [List.getElem?_set_ne (Ne.symm hne)] at hx; exact H.run u home' q x hu1 hx
    · cases e
      have hx' := get_some_eq hx (set_get_self hg); subst hx'
      exact hp
  · intro u x hu hx
    rcases get_set hu with ⟨hne, hu1⟩ | ⟨rfl, e⟩
    · rw [List.getElem?_set_ne (Ne.symm hne)] at hx; exact H.idle u x hu1 hx
    · cases e
  · intro u h' q hu
    rcases get_set hu with ⟨hne, hu1⟩ | ⟨rfl, e⟩
    · have h1 := H.own u h' q hu1
      show (c.objs.set h none)[h']? = some none
      rw [List.getElem?_set_ne]
      · exact h1
      · rintro rfl
        rw [ho] at h1; cases h1
    · cases e; exact set_get_self ho
  · intro u v h' q q' hu hv
    rcases get_set hu with ⟨hne, hu1⟩ | ⟨rfl, e⟩ <;> rcases get_set hv with ⟨hne', hv1⟩ | ⟨rfl, e'⟩
    · exact H.own_one u v h' q q' hu1 hv1
    · cases e'
      have h1 := H.own u h q hu1
      rw [ho] at h1; cases h1
    · cases e
      have h1 := H.own v h q' hv1
      rw [ho] at h1; cases h1
    · rfl
  · intro u h' q x hu hx
    rcases get_set hu with ⟨hne, hu1⟩ | ⟨rfl, e⟩
    · rw [List.getElem?_set_ne (Ne.symm hne)] at hx
      obtain ⟨a, ha, hb⟩ := H.reads u h' q x hu1 hx
      refine ⟨a, ?_, hb⟩
      show (c.objs.set h none)[h']? = some (some a)
      rw [List.getElem?_set_ne]
      · exact ha
      · rintro rfl
        exact hr u q hu1
    · cases e
  · intro u home' q x hu hn hx
    rcases get_set hu with ⟨hne, hu1⟩ | ⟨rfl, e⟩
    · rw [List.getElem?_set_ne (Ne.symm hne)] at hx; exact H.noB u home' q x hu1 hn hx
    · cases e
      have hx' := get_some_eq hx (set_get_self hg); subst hx'
      exact hB
  · intro l
    have h1 := cnt_drop (pred l) ho
    have h2 := hE.grant l
    have h3 := hE.pend l
    have h4 := hH.grant l
    have h5 := hH.pend l
    rw [slots_eq] at h4
    show LimInv (L l) (c.sh.lim l) (cnt (pred l) (c.objs.set h none)) _ _ _
    refine (H.lim l).upd hg ?_ ?_ (.inl ?_)
    · simp only [h4, h5]; split <;> omega
    · simp only [h2, h3, h4, h5]; omega
    · simp only [h2, h4]; omega
  · intro l
    simp only [List.length_set]; exact H.room l

/-- A call returns; `objs'` are the objects afterwards. -/
theorem Inv.finishStay (H : Inv ext extm L c fo mo lo gs) {t : Nat} {home : Home} {p : Prog Fin} {g : Ghost}
    (ht : c.th[t]? = some (.run home p)) (hg : gs[t]? = some g) (hE : g.Empty) :
    Inv ext extm L { c with th := c.th.set t .idle } fo mo lo gs := by
  refine ⟨?_, H.res, H.locks, H.F, H.M, H.N, H.ok, ?_, ?_, ?_, ?_, ?_, ?_, H.lim, ?_⟩
  · simp only [List.length_set]; exact H.len
  · intro u home' q x hu hx
    rcases get_set hu with ⟨hne, hu1⟩ | ⟨rfl, e⟩
    · exact H.run u home' q x hu1 hx
    · cases e
  · intro u x hu hx
    rcases get_set hu with ⟨hne, hu1⟩ | ⟨rfl, e⟩
    · exact H.idle u x hu1 hx
    · have hx' := get_some_eq hx hg; subst hx'
      exact hE
  · intro u h q hu
    rcases get_set hu with ⟨hne, hu1⟩ | ⟨rfl, e⟩
    · exact H.own u h q hu1
    · cases e
  · intro u v h q q' hu hv
    rcases get_set hu with ⟨hne, hu1⟩ | ⟨rfl, e⟩
    · rcases get_set hv with ⟨hne', hv1⟩ | ⟨rfl, e'⟩
      · exact H.own_one u v h q q' hu1 hv1
      · cases e'
    · cases e
  · intro u h q x hu hx
    rcases get_set hu with ⟨hne, hu1⟩ | ⟨rfl, e⟩
    · exact H.reads u h q x hu1 hx
    · cases e
  · intro u home' q x hu hn hx
    rcases get_set hu with ⟨hne, hu1⟩ | ⟨rfl, e⟩
    · exact H.noB u home' q x hu1 hn hx
    · cases e
  · intro l
    simp only [List.length_set]; exact H.room l

/-- A call returns and leaves an object in place `h`. -/
theorem Inv.finishGive (H : Inv ext extm L c fo mo lo gs) {t h : Nat} {home : Home} {p : Prog Fin} {g : Ghost} {o : Obj}
    {objs' : List (Option Obj)} (ht : c.th[t]? = some (.run home p)) (hg : gs[t]? = some g) (hH : Has g o) (hok : ObjOk o)
    (hobj : ∀ x, c.objs[h]? ≠ some (some x)) (hnew : objs'[h]? = some (some o))
    (hold : ∀ (h' : Nat) x, h' ≠ h → (objs'[h']? = some (some x) ↔ c.objs[h']? = some (some x)))
    (hnone : ∀ (u h' : Nat) q, u ≠ t → c.th[u]? = some (.run (.own h') q) → objs'[h']? = some none)
    (hcnt : ∀ l, cnt (pred l) objs' = cnt (pred l) c.objs + slots o l) :
    ∃ fo' mo' lo' gs', Inv ext extm L { c with objs := objs', th := c.th.set t .idle } fo' mo' lo' gs' ∧
      ∀ i, fo' i = if fo i = .thr t then .obj h else fo i := by
  refine ⟨moveO fo (.thr t) (.obj h), moveO mo (.thr t) (.obj h), moveO lo (.thr t) (.obj h), gs.set t (Ghost.none []), ⟨?_, ?_, ?_,
    H.F.give hg hobj hnew hold (none_empty []).notF hH.F, H.M.give hg hobj hnew hold (none_empty []).notM hH.M,
    H.N.give hg hobj hnew hold (none_empty []).notN hH.N, ?_, ?_, ?_, ?_, ?_, ?_, ?_, ?_, ?_⟩, fun _ => rfl⟩
  · simp only [List.length_set]; exact H.len
  · exact H.res.congr (fun i => (moveO_free fo (by simp) (by simp) i).symm) fun i => (moveO_free mo (by simp) (by simp) i).symm
  · intro n
    rw [moveO_free lo (by simp) (by simp)]; exact H.locks n
  · intro h' x hx
    by_cases hh : h' = h
    · subst hh
      cases get_some_eq hx hnew
      exact hok
    · exact H.ok h' x ((hold h' x hh).1 hx)
  · intro u home' q x hu hx
    rcases get_set hu with ⟨hne, hu1⟩ | ⟨rfl, e⟩
    · rw [List.getElem?_set_ne (Ne.symm hne)] at hx; exact H.run u home' q x hu1 hx
    · cases e
  · intro u x hu hx
    rcases get_set hu with ⟨hne, hu1⟩ | ⟨rfl, e⟩
    · rw [List.getElem?_set_ne (Ne.symm hne)] at hx; exact H.idle u x hu1 hx
    · have hx' := get_some_eq hx (set_get_self hg); subst hx'
      exact none_empty []
  · intro u h' q hu
    rcases get_set hu with ⟨hne, hu1⟩ | ⟨rfl, e⟩
    · exact hnone u h' q hne hu1
    · cases e
  · intro u v h' q q' hu hv
    rcases get_set hu with ⟨hne, hu1⟩ | ⟨rfl, e⟩
    · rcases get_set hv with ⟨hne', hv1⟩ | ⟨rfl, e'⟩
      · exact H.own_one u v h' q q' hu1 hv1
      · cases e'
    · cases e
  · intro u h' q x hu hx
    rcases get_set hu with ⟨hne, hu1⟩ | ⟨rfl, e⟩
    · rw [List.getElem?_set_ne (Ne.symm hne)] at hx
      obtain ⟨a, ha, hb⟩ := H.reads u h' q x hu1 hx
      refine ⟨a, (hold h' a ?_).2 ha, hb⟩
      rintro rfl
      exact hobj a ha
    · cases e
  · intro u home' q x hu hn hx
    rcases get_set hu with ⟨hne, hu1⟩ | ⟨rfl, e⟩
    · rw [List.getElem?_set_ne (Ne.symm hne)] at hx; exact H.noB u home' q x hu1 hn hx
    · cases e
  · intro l
    have h1 := hcnt l
    have h4 := hH.grant l
    have h5 := hH.pend l
    have e1 : (Ghost.none []).grant l = 0 := rfl
    have e2 : (Ghost.none []).pend l = 0 := rfl
    show LimInv (L l) (c.sh.lim l) (cnt (pred l) objs') _ _ _
    refine (H.lim l).upd hg ?_ ?_ (.inl ?_)
    · simp only [e1, e2]; omega
    · simp only [e1, e2, h4, h5]; omega
    · simp only [e1, h4]; omega
  · intro l
    simp only [List.length_set]; exact H.room l

theorem set_id {β : Type} {l : List β} {h : Nat} {x : β} (e : l[h]? = some x) : l.set h x = l := by
  apply List.ext_getElem?
  intro j
  by_cases hj : h = j
  · subst hj; rw [set_get_self e, e]
  · rw [List.getElem?_set_ne hj]

theorem cnt_fill (p : Obj → Bool) : ∀ (l : List (Option Obj)) (h : Nat) (o : Obj), l[h]? = some none →
    cnt p (l.set h (some o)) = cnt p l + if p o then 1 else 0 := by
  intro l
  induction l with
  | nil => intro h o e; exact nomatch e
  | cons y l ih =>
    intro h o e
    cases h with
    | zero =>
      simp only [List.getElem?_cons_zero, Option.some.injEq] at e
      subst e
      rw [List.set_cons_zero, cnt_cons p (some o), cnt_cons p Option.none, cnt_one]
      have h0 : cnt p [Option.none] = 0 := rfl
      omega
    | succ h =>
      simp only [List.getElem?_cons_succ] at e
      have := ih h o e
      rw [List.set_cons_succ, cnt_cons p y, cnt_cons p y l]
      omega

/-- Where the descriptors of a call go when it returns. -/
def place (c : Conf) : Home → Nat
  | .own h => h
  | _ => c.objs.length

/-- Every return keeps the accounts; only descriptors of the call change hands, and go to the object of the call. -/
theorem Inv.finishO (H : Inv ext extm L c fo mo lo gs) {t : Nat} {home : Home} {a : Fin} (ht : c.th[t]? = some (.run home (.ret a))) :
    ∃ fo' mo' lo' gs', Inv ext extm L (c.finish t home a).1 fo' mo' lo' gs' ∧ (∀ i, fo i ≠ .thr t → fo' i = fo i) ∧
      ∀ i, fo i = .thr t → fo' i = .obj (place c home) := by
  obtain ⟨g, hg⟩ := H.ghost ht
  have hD : Done home a g := H.run t home _ g ht hg
  cases a with
  | new o =>
    obtain ⟨rfl, hH, hok⟩ := hD
    have give : ∃ fo' mo' lo' gs', Inv ext extm L { c with objs := c.objs ++ [some o], th := c.th.set t .idle } fo' mo' lo' gs' ∧
        ∀ i, fo' i = if fo i = .thr t then .obj c.objs.length else fo i := by
      refine H.finishGive (h := c.objs.length) (objs' := c.objs ++ [some o]) ht hg hH hok (fun x hx => ?_) (by simp) (fun h' x hne => ?_)
        (fun u h' q hu hq => ?_) fun l => ?_
      · rw [List.getElem?_eq_none (Nat.le_refl _)] at hx; cases hx
      · constructor
        · intro hx
          rcases get_push hx with hx | ⟨hx, _⟩
          · exact hx
          · exact absurd hx hne
        · exact push_get
      · exact push_get (H.own u h' q hq)
      · rw [cnt_push, slots_eq]
    obtain ⟨fo', mo', lo', gs', H', hf⟩ := give
    exact ⟨fo', mo', lo', gs', H', fun i hi => by rw [hf, if_neg hi], fun i hi => by rw [hf, if_pos hi]; rfl⟩
  | back o r =>
    cases o with
    | none =>
      have hE : g.Empty := hD
      have hobjs : (c.finish t home (.back none r)).1 = { c with th := c.th.set t .idle } := by
        unfold Conf.finish
        cases home with
        | none => rfl
        | reads h => rfl
        | own h =>
          have h1 := H.own t h _ ht
          simp only []
          congr 1
          exact set_id h1
      rw [hobjs]
      refine ⟨_, _, _, _, H.finishStay ht hg hE, fun _ _ => rfl, fun i hi => ?_⟩
      obtain ⟨g', hg', hm⟩ := (H.F.thr t i).1 hi
      cases get_some_eq hg' hg
      exact absurd hm (hE.notF i)
    | some o =>
      obtain ⟨⟨h, rfl⟩, hH, hok⟩ := hD
      have hn := H.own t h _ ht
      have give : ∃ fo' mo' lo' gs', Inv ext extm L { c with objs := c.objs.set h (some o), th := c.th.set t .idle } fo' mo' lo' gs' ∧
          ∀ i, fo' i = if fo i = .thr t then .obj h else fo i := by
        refine H.finishGive (h := h) (objs' := c.objs.set h (some o)) ht hg hH hok (fun x hx => ?_) (set_get_self hn) (fun h' x hne => ?_)
          (fun u h' q hu hq => ?_) fun l => ?_
        · rw [hn] at hx; cases hx
        · rw [List.getElem?_set_ne (Ne.symm hne)]
        · have h1 := H.own u h' q hq
          rw [List.getElem?_set_ne]
          · exact h1
          · rintro rfl
            exact hu (H.own_one u t h q _ hq ht)
        · rw [slots_eq]
          exact cnt_fill (pred l) c.objs h o hn
      obtain ⟨fo', mo', lo', gs', H', hf⟩ := give
      exact ⟨fo', mo', lo', gs', H', fun i hi => by rw [hf, if_neg hi], fun i hi => by rw [hf, if_pos hi]; rfl⟩

theorem Inv.finishF (H : Inv ext extm L c fo mo lo gs) {t : Nat} {home : Home} {a : Fin} (ht : c.th[t]? = some (.run home (.ret a))) :
    ∃ fo' mo' lo' gs', Inv ext extm L (c.finish t home a).1 fo' mo' lo' gs' ∧ ∀ i, fo i ≠ .thr t → fo' i = fo i := by
  obtain ⟨fo', mo', lo', gs', H', hf, _⟩ := H.finishO ht
  exact ⟨fo', mo', lo', gs', H', hf⟩

theorem Inv.finish (H : Inv ext extm L c fo mo lo gs) {t : Nat} {home : Home} {a : Fin} (ht : c.th[t]? = some (.run home (.ret a))) :
    ∃ fo' mo' lo' gs', Inv ext extm L (c.finish t home a).1 fo' mo' lo' gs' := by
  obtain ⟨fo', mo', lo', gs', H', _⟩ := H.finishF ht
  exact ⟨fo', mo', lo', gs', H'⟩

/-- Something to start with that owns what the object owns. -/
theorem has_exists {o : Obj} (ho : ObjOk o) : ∃ g, Has g o ∧ g.B = [] := by
  have mk : ∀ (i : Nat), (∀ j, o.ownsFd j ↔ j = i) → (∀ j, ¬ o.ownsMap j) → (∀ n, ¬ ownsName o n) → (∀ l, slots o l = 0) →
      ∃ g, Has g o ∧ g.B = [] := fun i h1 h2 h3 h4 => ⟨(Ghost.none []).addF i, has_fd h1 h2 h3 h4, rfl⟩
  cases o with
  | seq f =>
    obtain ⟨i, hi⟩ := ho
    exact mk i (fun j => by show f.fd = j ↔ j = i; omega) (fun _ h => h) (fun _ h => h) fun l => by cases l <;> rfl
  | logger fd =>
    obtain ⟨i, hi⟩ := ho
    exact mk i (fun j => by show fd = j ↔ j = i; omega) (fun _ h => h) (fun _ h => h) fun l => by cases l <;> rfl
  | lock fd n =>
    obtain ⟨i, hi⟩ := ho
    refine ⟨((Ghost.none []).addF i).addN n, ⟨fun j => ?_, fun j => ?_, fun m => ?_, fun l => by cases l <;> rfl, fun _ => rfl⟩, rfl⟩
    · show j ∈ [i] ↔ fd = j
      rw [List.mem_singleton]; omega
    · exact ⟨fun h => (nomatch h), fun h => h.elim⟩
    · show m ∈ [n] ↔ m = n
      exact List.mem_singleton
  | mmap f =>
    refine ⟨((Ghost.none []).addM f.mmap_base).addG .mmap,
      ⟨fun j => ⟨fun h => (nomatch h), fun h => h.elim⟩, fun j => ?_, fun m => ⟨fun h => (nomatch h), fun h => h.elim⟩,
        fun l => by cases l <;> rfl, fun _ => rfl⟩, rfl⟩
    show j ∈ [f.mmap_base] ↔ f.mmap_base = j
    rw [List.mem_singleton]; exact eq_comm
  | wr f =>
    rcases ho.1 with hf | ⟨i, hi⟩
    · refine ⟨Ghost.none [], ⟨fun j => ⟨fun h => (nomatch h), fun h => ?_⟩, fun j => ⟨fun h => (nomatch h), fun h => h.elim⟩,
        fun m => ⟨fun h => (nomatch h), fun h => h.elim⟩, fun l => by cases l <;> rfl, fun _ => rfl⟩, rfl⟩
      have h : f.fd = j := h
      omega
    · exact mk i (fun j => by show f.fd = j ↔ j = i; omega) (fun _ h => h) (fun _ h => h) fun l => by cases l <;> rfl
  | rand f =>
    have ho : if f.has_permanent_fd then ∃ i : Nat, f.fd = i else f.fd = -1 := ho
    by_cases hp : f.has_permanent_fd = true
    · simp only [if_pos hp] at ho
      obtain ⟨i, hi⟩ := ho
      refine ⟨((Ghost.none []).addF i).addG .fd, ⟨fun j => ?_, fun j => ⟨fun h => (nomatch h), fun h => h.elim⟩,
        fun m => ⟨fun h => (nomatch h), fun h => h.elim⟩, fun l => ?_, fun _ => rfl⟩, rfl⟩
      · show j ∈ [i] ↔ f.has_permanent_fd = true ∧ f.fd = j
        rw [List.mem_singleton]
        exact ⟨fun h => ⟨hp, by omega⟩, fun h => by have := h.2; omega⟩
      · cases l
        · rfl
        · show 1 = if f.has_permanent_fd = true then 1 else 0
          rw [if_pos hp]
    · refine ⟨Ghost.none [], ⟨fun j => ⟨fun h => (nomatch h), fun h => absurd h.1 hp⟩, fun j => ⟨fun h => (nomatch h), fun h => h.elim⟩,
        fun m => ⟨fun h => (nomatch h), fun h => h.elim⟩, fun l => ?_, fun _ => rfl⟩, rfl⟩
      cases l
      · rfl
      · show 0 = if f.has_permanent_fd = true then 1 else 0
        rw [if_neg hp]

theorem objOf_eq {c : Conf} {op : POp} {h : Nat} {o : Obj} (hh : handle op = some h) (ho : c.objs[h]? = some (some o)) :
    c.objOf op = some o := by
  unfold Conf.objOf
  rw [hh]
  simp only [Option.bind_some, ho, Option.join_some]

theorem mem_of_get {β : Type} {l : List β} {t : Nat} {x : β} (h : l[t]? = some x) : x ∈ l := List.mem_of_getElem? h

/-- The owner of a descriptor after a call was made. -/
def ownAfter (op : POp) (t : Nat) (x : Owner) : Owner :=
  match homeOf op with
  | .own h => if x = .obj h then .thr t else x
  | _ => x

/-- Every call keeps the accounts; only descriptors of its object change hands. -/
theorem Inv.beginF (strerror : Strerror) (full : Bool) (fuel : Nat) (H : Inv ext extm L c fo mo lo gs) {t : Nat} {op : POp}
    (ht : c.th[t]? = some .idle) (ha : c.Allowed op) :
    ∃ fo' mo' lo' gs', Inv ext extm L (c.begin strerror full fuel t op) fo' mo' lo' gs' ∧
      ∀ i, fo' i = ownAfter op t (fo i) := by
  obtain ⟨hw, ha⟩ := ha
  -- a call without an object
  have stay : homeOf op = .none → Start op (c.objOf op) (Ghost.none []) →
      ∃ fo' mo' lo' gs', Inv ext extm L (c.begin strerror full fuel t op) fo' mo' lo' gs' ∧
      ∀ i, fo' i = ownAfter op t (fo i) := by
    intro hh hs
    have hb : c.begin strerror full fuel t op =
        { c with th := c.th.set t (.run (homeOf op) (body strerror full fuel op (c.objOf op))) } := by
      unfold Conf.begin; rw [hh]
    rw [hb]
    exact ⟨_, _, _, _, H.beginStay ht (wp_body strerror full fuel hs) (by rw [hh]; simp) (by rw [hh]; simp) (fun _ => rfl),
      fun i => by unfold ownAfter; rw [hh]⟩
  -- a call with an object of its own
  have own : ∀ h o, handle op = some h → isShared op = false → c.objs[h]? = some (some o) →
      (∀ g, Has g o → ObjOk o → Start op (some o) g) →
      (∀ (u : Nat) q, c.th[u]? ≠ some (.run (.reads h) q)) →
      ∃ fo' mo' lo' gs', Inv ext extm L (c.begin strerror full fuel t op) fo' mo' lo' gs' ∧
      ∀ i, fo' i = ownAfter op t (fo i) := by
    intro h o hh hs ho hst hr
    have hom : homeOf op = .own h := by unfold homeOf; rw [hh, hs]; rfl
    obtain ⟨g', hH, hB⟩ := has_exists (H.ok h o ho)
    have hp := wp_body strerror full fuel (hst g' hH (H.ok h o ho))
    rw [hom] at hp
    have hb : c.begin strerror full fuel t op =
        { c with objs := c.objs.set h none, th := c.th.set t (.run (.own h) (body strerror full fuel op (some o))) } := by
      unfold Conf.begin; rw [hom, objOf_eq hh ho]
    rw [hb]
    obtain ⟨fo', mo', lo', gs', H', hf⟩ := H.beginOwn ht ho hp hH hB hr
    exact ⟨fo', mo', lo', gs', H', fun i => by unfold ownAfter; rw [hom]; exact hf i⟩
  -- nobody reads an object that is not of the kind that is read
  have noread : ∀ h o, c.objs[h]? = some (some o) → (∀ f, o ≠ .rand f) → (∀ f, o ≠ .mmap f) →
      ∀ (u : Nat) q, c.th[u]? ≠ some (.run (.reads h) q) := by
    intro h o ho h1 h2 u q hu
    obtain ⟨g, hg⟩ := H.ghost hu
    obtain ⟨a, ha, hk, _⟩ := H.reads u h q g hu hg
    cases get_some_eq ha ho
    rcases hk with ⟨f, rfl⟩ | ⟨f, rfl⟩
    · exact h1 f rfl
    · exact h2 f rfl
  cases op with
  | newSequential n => exact stay rfl ⟨hw, _, rfl⟩
  | newRandomAccess n => exact stay rfl ⟨hw, _, rfl⟩
  | newWritable n => exact stay rfl ⟨hw, _, rfl⟩
  | newAppendable n => exact stay rfl ⟨hw, _, rfl⟩
  | newLogger n => exact stay rfl ⟨hw, _, rfl⟩
  | fileExists n => exact stay rfl ⟨hw, _, rfl⟩
  | getChildren n => exact stay rfl ⟨hw, _, rfl⟩
  | removeFile n => exact stay rfl ⟨hw, _, rfl⟩
  | createDir n => exact stay rfl ⟨hw, _, rfl⟩
  | removeDir n => exact stay rfl ⟨hw, _, rfl⟩
  | getFileSize n => exact stay rfl ⟨hw, _, rfl⟩
  | renameFile a b => exact stay rfl ⟨hw, _, rfl⟩
  | lockFile n => exact stay rfl ⟨hw, _, rfl⟩
  | unlockFile h =>
    obtain ⟨fd, n, ho⟩ := ha
    exact own h _ rfl rfl ho (fun g h1 h2 => ⟨hw, fd, n, rfl, h1, h2⟩) (noread h _ ho (by simp) (by simp))
  | seqRead h n =>
    obtain ⟨f, ho⟩ := ha
    exact own h _ rfl rfl ho (fun g h1 h2 => ⟨hw, f, rfl, h1, h2⟩) (noread h _ ho (by simp) (by simp))
  | seqSkip h n =>
    obtain ⟨f, ho⟩ := ha
    exact own h _ rfl rfl ho (fun g h1 h2 => ⟨hw, f, rfl, h1, h2⟩) (noread h _ ho (by simp) (by simp))
  | write h wop =>
    obtain ⟨f, ho⟩ := ha
    exact own h _ rfl rfl ho (fun g h1 h2 => ⟨hw, f, rfl, h1, h2⟩) (noread h _ ho (by simp) (by simp))
  | delete h =>
    obtain ⟨⟨o, ho, hl⟩, hr⟩ := ha
    exact own h o rfl rfl ho (fun g h1 h2 => ⟨hw, o, rfl, hl, h1, h2⟩) (fun u q hu => hr _ (mem_of_get hu) rfl)
  | randRead h off n =>
    have go : ∀ (o : Obj) (B : List Nat), c.objs[h]? = some (some o) → Start (.randRead h off n) (some o) (Ghost.none B) →
        ((∃ f, o = .rand f) ∨ ∃ f, o = .mmap f) → (∀ i ∈ B, o.ownsFd i) →
        ∃ fo' mo' lo' gs', Inv ext extm L (c.begin strerror full fuel t (.randRead h off n)) fo' mo' lo' gs' ∧
          ∀ i, fo' i = ownAfter (.randRead h off n) t (fo i) := by
      intro o B ho hs hk hB
      have hp := wp_body strerror full fuel hs
      have hb : c.begin strerror full fuel t (.randRead h off n) =
          { c with th := c.th.set t (.run (.reads h) (body strerror full fuel (.randRead h off n) (some o))) } := by
        unfold Conf.begin; rw [objOf_eq (op := .randRead h off n) rfl ho]; rfl
      rw [hb]
      refine ⟨_, _, _, _, H.beginStay ht (home := .reads h) (B := B) hp (by simp) (fun h' e => ?_) (fun hn => absurd rfl (hn h)), fun _ => rfl⟩
      cases e
      exact ⟨o, ho, hk, hB⟩
    rcases ha with ⟨f, ho⟩ | ⟨f, ho⟩
    · have hok := H.ok h _ ho
      have hok : if f.has_permanent_fd then ∃ i : Nat, f.fd = i else f.fd = -1 := hok
      by_cases hp : f.has_permanent_fd = true
      · simp only [if_pos hp] at hok
        obtain ⟨i, hi⟩ := hok
        refine go _ [i] ho ⟨hw, none_empty _, .inl ⟨f, rfl, ?_⟩⟩ (.inl ⟨f, rfl⟩) fun j hj => ?_
        · simp only [if_pos hp]
          exact ⟨i, hi, List.mem_cons_self⟩
        · rw [List.mem_singleton] at hj
          subst hj
          exact ⟨hp, hi⟩
      · simp only [if_neg hp] at hok
        refine go _ [] ho ⟨hw, none_empty _, .inl ⟨f, rfl, ?_⟩⟩ (.inl ⟨f, rfl⟩) fun j hj => nomatch hj
        simp only [if_neg hp]
        exact hok
    · exact go _ [] ho ⟨hw, none_empty _, .inr ⟨f, rfl⟩⟩ (.inr ⟨f, rfl⟩) fun j hj => nomatch hj

theorem Inv.begin (strerror : Strerror) (full : Bool) (fuel : Nat) (H : Inv ext extm L c fo mo lo gs) {t : Nat} {op : POp}
    (ht : c.th[t]? = some .idle) (ha : c.Allowed op) :
    ∃ fo' mo' lo' gs', Inv ext extm L (c.begin strerror full fuel t op) fo' mo' lo' gs' := by
  obtain ⟨fo', mo', lo', gs', H', _⟩ := H.beginF strerror full fuel ht ha
  exact ⟨fo', mo', lo', gs', H'⟩

/-- All runs keep the accounts. -/
theorem Inv.all (strerror : Strerror) (full : Bool) {c c' : Conf} {es : List Ev} (hrun : Run strerror full c es c')
    (H : ∃ fo mo lo gs, Inv ext extm L c fo mo lo gs) : ∃ fo mo lo gs, Inv ext extm L c' fo mo lo gs := by
  induction hrun with
  | nil => exact H
  | step h h' ih =>
    obtain ⟨fo, mo, lo, gs, H'⟩ := ih
    cases h' with
    | call t op fuel ht ha => exact H'.begin strerror full fuel ht ha
    | move t home cmd k r sh w ht he => exact H'.step ht he
    | ret t home a ht => exact H'.finish ht

theorem Inv.init {w : World} (hc : w.calls = []) (hq : ∀ x ∈ w.choices, KeepsFds x) {L1 L2 : Int} {n : Nat} (h1 : Room L1 n)
    (h2 : Room L2 n) : ∃ fo mo lo gs, Inv w.k.isOpen w.k.isMapped (fun | .mmap => L1 | .fd => L2) (Conf.init w L1 L2 n) fo mo lo gs := by
  classical
  have noobj : ∀ (h : Nat) (o : Obj), (Conf.init w L1 L2 n).objs[h]? ≠ some (some o) := fun h o e => nomatch e
  have idle : ∀ (t : Nat) (x : Thread), (Conf.init w L1 L2 n).th[t]? = some x → x = .idle := by
    intro t x hx
    exact List.eq_of_mem_replicate (List.mem_of_getElem? hx)
  have gh : ∀ (t : Nat) (g : Ghost), (List.replicate n (Ghost.none []))[t]? = some g → g = Ghost.none [] := by
    intro t x hx
    exact List.eq_of_mem_replicate (List.mem_of_getElem? hx)
  have sum0 : ∀ (f : Ghost → Nat) (m : Nat), f (Ghost.none []) = 0 → held f (List.replicate m (Ghost.none [])) = 0 := by
    intro f m hf
    unfold held
    rw [List.map_replicate, hf]
    simp
  refine ⟨fun i => if w.k.isOpen i then .ext else .free, fun i => if w.k.isMapped i then .ext else .free, fun _ => .free,
    List.replicate n (Ghost.none []), ?_, ?_, ?_, ?_, ?_, ?_, ?_, ?_, ?_, ?_, ?_, ?_, ?_, ?_, ?_⟩
  · simp [Conf.init]
  · refine ⟨hq, fun i => ?_, fun i => ?_, fun fd err h => ?_⟩
    · show w.k.isOpen i ↔ _
      by_cases h : w.k.isOpen i
      · simp [h]
      · simp [h]
    · show w.k.isMapped i ↔ _
      by_cases h : w.k.isMapped i
      · simp [h]
      · simp [h]
    · have h : Call.close fd err ∈ w.calls := h
      rw [hc] at h; exact nomatch h
  · intro n
    exact ⟨fun h => (nomatch h), fun h => absurd rfl h⟩
  · refine ⟨fun i => ?_, fun h i => ⟨fun e => ?_, fun ⟨o, ho, _⟩ => absurd ho (noobj h o)⟩,
      fun t i => ⟨fun e => ?_, fun ⟨g, hg, hi⟩ => ?_⟩⟩
    · by_cases h : w.k.isOpen i <;> simp [h]
    · split at e <;> cases e
    · split at e <;> cases e
    · rw [gh t g hg] at hi; exact nomatch hi
  · refine ⟨fun i => ?_, fun h i => ⟨fun e => ?_, fun ⟨o, ho, _⟩ => absurd ho (noobj h o)⟩,
      fun t i => ⟨fun e => ?_, fun ⟨g, hg, hi⟩ => ?_⟩⟩
    · by_cases h : w.k.isMapped i <;> simp [h]
    · split at e <;> cases e
    · split at e <;> cases e
    · rw [gh t g hg] at hi; exact nomatch hi
  · refine ⟨fun i => ⟨fun e => (nomatch e), fun e => e.elim⟩, fun h i => ⟨fun e => (nomatch e), fun ⟨o, ho, _⟩ => absurd ho (noobj h o)⟩,
      fun t i => ⟨fun e => (nomatch e), fun ⟨g, hg, hi⟩ => ?_⟩⟩
    rw [gh t g hg] at hi; exact nomatch hi
  · exact fun h o ho => absurd ho (noobj h o)
  · intro t home p g ht; cases idle t _ ht
  · intro t g ht hg; rw [gh t g hg]; exact none_empty []
  · intro t h p ht; cases idle t _ ht
  · intro t u h p q ht; cases idle t _ ht
  · intro t h p g ht; cases idle t _ ht
  · intro t home p g ht; cases idle t _ ht
  · intro l
    have hl : (Conf.init w L1 L2 n).sh.lim l = (match l with | .mmap => L1 | .fd => L2) := by cases l <;> rfl
    have hn : cnt (pred l) (Conf.init w L1 L2 n).objs = 0 := rfl
    refine ⟨?_, ?_, fun g hg => ?_⟩
    · rw [sum0 _ _ rfl, sum0 _ _ rfl, hn]
      cases l <;> simp [Conf.init, Shared.lim]
    · rw [sum0 _ _ rfl, hn]
      simp; omega
    · rw [List.eq_of_mem_replicate hg]; simp [Ghost.none]
  · intro l
    have : (Conf.init w L1 L2 n).th.length = n := by simp [Conf.init]
    rw [this]
    cases l
    · exact h1
    · exact h2

theorem prog_ne {p : Prog Fin} : ∀ (cmd : Cmd) (k : cmd.Resp → Prog Fin) (r : cmd.Resp), p = .call cmd k → k r ≠ p := by
  induction p with
  | ret a => intro _ _ _ h; exact nomatch h
  | fault e => intro _ _ _ h; exact nomatch h
  | spin => intro _ _ _ h; exact nomatch h
  | call c k ih =>
    intro cmd k' r h he
    injection h with h1 h2
    subst h1
    have h2 := eq_of_heq h2
    subst h2
    exact ih r c k r he rfl |>.elim

end Conc
end Posix
end Lsmdb
