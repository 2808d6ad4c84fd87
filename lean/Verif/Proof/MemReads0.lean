import Verif.Spec.MemReads
import Verif.Proof.MemConc12

/-!
# Readers of a shared file: which file objects are of the file
-/

namespace Lsmdb
namespace MemConc
open MemEnv Spec
open CacheConc (Tid)

variable {H : Hist} {t : Tid} {o : Op} {a : Atom} {n : Bytes} {A : Nat → Bool} {g : Option Nat}

/-- The call creates files by the name. -/
def isNewOf (n : Bytes) : Op → Nat
  | .newWritable f => if f = n then 1 else 0
  | _ => 0

/-- The call appends `d` to the file. -/
def isApp (A : Nat → Bool) (d : Slice) : Op → Nat
  | .append h d' => if A h = true ∧ d' = d then 1 else 0
  | _ => 0

theorem costs_newOf (n : Bytes) : ∀ H, costs (isNewOf n) H = timesCreated n H := by
  intro H
  induction H with
  | nil => rfl
  | cons e H ih =>
    cases e with
    | ret => exact ih
    | call u o =>
      cases o with
      | newWritable f => simp only [costs, timesCreated, isNewOf, ih]
      | _ => simp only [costs, timesCreated, isNewOf, ih]; omega

theorem costs_app (A : Nat → Bool) (d : Slice) : ∀ H, costs (isApp A d) H = (appendedTo A H).count d := by
  intro H
  induction H with
  | nil => rfl
  | cons e H ih =>
    cases e with
    | ret => exact ih
    | call u o =>
      cases o with
      | append x d' =>
        simp only [costs, appendedTo, isApp, ih]
        cases A x
        · simp
        · simp only [if_true, List.count_cons, beq_iff_eq, true_and]
          omega
      | _ => simp only [costs, appendedTo, isApp, ih]; omega

/-- `A` are the file objects that were opened by the name `n`. -/
def Agrees (A : Nat → Bool) (n : Bytes) (H : Hist) : Prop :=
  ∀ o s h, Returned H o (.opened s (some h)) → (A h = true ↔ nameOf o = some n)

theorem Returned.mono {H' : Hist} {x : Res} (h : Returned H o x) (hs : H <:+ H') : Returned H' o x := by
  obtain ⟨t, H0, h1, h2⟩ := h
  exact ⟨t, H0, h1.trans hs, h2⟩

theorem Agrees.tail {e : Ev} (h : Agrees A n (e :: H)) : Agrees A n H := fun o s x hr => h o s x (hr.mono (List.suffix_cons _ _))

theorem OneFile.tail {e : Ev} (h : OneFile (e :: H) n) : OneFile H n := by
  refine ⟨?_, fun u b hm => h.renamed u b (List.mem_cons_of_mem _ hm), fun u b hm => h.replaced u b (List.mem_cons_of_mem _ hm)⟩
  have := h.once
  rw [← costs_newOf] at this ⊢
  cases e <;> simp only [costs] at this <;> omega

/-- The contents of the file, if it was created. -/
def cont (g : Option Nat) (fs : FS) : Bytes :=
  match g with
  | none => []
  | some i => fs.data i

/-- `g` is the file that was created by the name `n`, if it was; the file objects that were opened by the name are of this file, and the
others are not. -/
structure Owned (a : Atom) (H : Hist) (n : Bytes) (A : Nat → Bool) (g : Option Nat) : Prop where
  name : ∀ f i, a.fs.name f = some i → i < a.fs.made ∧ (g = some i ↔ f = n)
  file : ∀ i, g = some i → i < a.fs.made
  obj : ∀ h x, a.fs.obj h = some x → x.file < a.fs.made
  ret : ∀ o s h x, Returned H o (.opened s (some h)) → a.fs.obj h = some x → (g = some x.file ↔ A h = true)
  now : ∀ t o s h x, a.now t = some (o, .done (.opened s (some h))) → a.fs.obj h = some x → (g = some x.file ↔ nameOf o = some n)
  new : ∃ k, Total a.now (ahead (isNewOf n)) k ∧ (if g.isSome then 1 else 0) + k ≤ costs (isNewOf n) H

theorem Owned.init : Owned ⟨FS.init, fun _ => none⟩ [] n A none := by
  refine ⟨nofun, nofun, nofun, ?_, nofun, ⟨0, ⟨[], by simp, fun _ _ => rfl, rfl⟩, Nat.le_refl _⟩⟩
  intro o s h x _ hx
  cases hx

theorem Owned.call (i : Owned a H n A g) (h : a.now t = none) (o : Op) :
    Owned { a with now := upd a.now t (some (o, .start)) } (.call t o :: H) n A g := by
  refine ⟨i.name, i.file, i.obj, ?_, ?_, ?_⟩
  · intro o' s x y hr
    rcases returned_cons hr with hr | ⟨_, e, _⟩
    · exact i.ret o' s x y hr
    · cases e
  · intro u o' s x y hu
    rcases upd_eq_some hu with ⟨_, e⟩ | ⟨ne, e⟩
    · cases e
    · exact i.now u o' s x y e
  · obtain ⟨k, T, hb⟩ := i.new
    have := (T.upd t (some (o, .start))).2
    rw [h] at this
    refine ⟨_, this, ?_⟩
    simp only [ahead, costs, Nat.sub_zero]
    omega

theorem Owned.back {x : Res} (i : Owned a H n A g) (h : a.now t = some (o, .done x)) (hp : pending H t = some o)
    (hA : Agrees A n (.ret t x :: H)) : Owned { a with now := upd a.now t none } (.ret t x :: H) n A g := by
  refine ⟨i.name, i.file, i.obj, ?_, ?_, ?_⟩
  · intro o' s y z hr hz
    rw [hA o' s y hr]
    rcases returned_cons hr with hr' | ⟨u, e, hu⟩
    · rw [← hA o' s y hr]
      exact i.ret o' s y z hr' hz
    · injection e with e1 e2
      subst e1; subst e2
      rw [hp] at hu
      injection hu with hu
      subst hu
      exact i.now _ _ s y z h hz
  · intro u o' s y z hu
    rcases upd_eq_some hu with ⟨_, e⟩ | ⟨ne, e⟩
    · cases e
    · exact i.now u o' s y z e
  · obtain ⟨k, T, hb⟩ := i.new
    have := (T.upd t none).2
    rw [h] at this
    exact ⟨_, this, hb⟩

/-- File objects stay with their file; a new one is of the file of the name, and is the answer. -/
theorem Moment.files {fs fs' : FS} {p p' : Phase} (mm : Moment o fs p fs' p') : ∀ h x, fs'.obj h = some x →
    (∃ y, fs.obj h = some y ∧ y.file = x.file) ∨
    (h = fs.opened ∧ p' = .done (.opened .ok (some h)) ∧ ∃ f, nameOf o = some f ∧ fs'.name f = some x.file) := by
  have same : ∀ h x, fs.obj h = some x → (∃ y, fs.obj h = some y ∧ y.file = x.file) := fun h x e => ⟨x, e, rfl⟩
  have one : ∀ {k i q q' h x}, fs.obj k = some (.seq i q) → upd fs.obj k (some (.seq i q')) h = some x →
      ∃ y, fs.obj h = some y ∧ y.file = x.file := by
    intro k i q q' h x hk e
    rcases upd_eq_some e with ⟨rfl, e'⟩ | ⟨_, e⟩
    · injection e' with e'
      subst e'
      exact ⟨_, hk, rfl⟩
    · exact ⟨x, e, rfl⟩
  have new : ∀ {d : FS} {y : Obj} {f : Bytes} {r : Res}, d.obj = fs.obj → d.opened = fs.opened → nameOf o = some f → d.name f = some y.file →
      r = .opened .ok (some fs.opened) → ∀ h x, (d.withObj y).obj h = some x → (∃ y, fs.obj h = some y ∧ y.file = x.file) ∨
      (h = fs.opened ∧ Phase.done r = .done (.opened .ok (some h)) ∧ ∃ f, nameOf o = some f ∧ (d.withObj y).name f = some x.file) := by
    intro d y f r d1 d2 hf hn hr h x e
    have e : upd d.obj d.opened (some y) h = some x := e
    rcases upd_eq_some e with ⟨rfl, e'⟩ | ⟨_, e⟩
    · injection e' with e'
      subst e'
      exact .inr ⟨d2, by rw [hr, d2], f, hf, hn⟩
    · rw [d1] at e
      exact .inl ⟨x, e, rfl⟩
  intro h x
  cases mm with
  | beyond => exact fun e => .inl (same h x e)
  | check => exact fun e => .inl (same h x e)
  | move ho hx hh => exact fun e => .inl (one hx e)
  | op hs ha =>
    cases o with
    | newSequential f =>
      simp only [FS.Answer, FS.openAnswer] at ha
      simp only [FS.next]
      cases e : fs.name f with
      | none => exact fun e => .inl (same h x e)
      | some j => rw [e] at ha; exact new (f := f) (y := .seq j 0) rfl rfl rfl e ha h x
    | newRandomAccess f =>
      simp only [FS.Answer, FS.openAnswer] at ha
      simp only [FS.next]
      cases e : fs.name f with
      | none => exact fun e => .inl (same h x e)
      | some j => rw [e] at ha; exact new (f := f) (y := .rand j) rfl rfl rfl e ha h x
    | newWritable f =>
      simp only [FS.Answer] at ha
      simp only [FS.next]
      cases e : fs.name f with
      | none =>
        exact new (d := { fs with name := upd fs.name f (some fs.made), data := upd fs.data fs.made [], made := fs.made + 1 })
          (f := f) (y := .wr fs.made) rfl rfl rfl (upd_same _ _ _) ha h x
      | some j => exact new (f := f) (y := .wr j) rfl rfl rfl e ha h x
    | newAppendable f =>
      simp only [FS.Answer] at ha
      simp only [FS.next]
      cases e : fs.name f with
      | none =>
        exact new (d := { fs with name := upd fs.name f (some fs.made), data := upd fs.data fs.made [], made := fs.made + 1 })
          (f := f) (y := .wr fs.made) rfl rfl rfl (upd_same _ _ _) ha h x
      | some j => exact new (f := f) (y := .wr j) rfl rfl rfl e ha h x
    | seqRead y k =>
      simp only [FS.next]
      split
      · rename_i hj
        split
        · exact fun e => .inl (one hj e)
        · exact fun e => .inl (same h x e)
      · exact fun e => .inl (same h x e)
    | seqSkip y k => exact absurd trivial hs
    | append y d => simp only [FS.next]; split <;> exact fun e => .inl (same h x e)
    | renameFile y z =>
      simp only [FS.next]
      split
      · exact fun e => .inl (same h x e)
      · split <;> exact fun e => .inl (same h x e)
    | delete y =>
      intro e
      rcases upd_eq_some e with ⟨_, e⟩ | ⟨_, e⟩
      · cases e
      · exact .inl (same h x e)
    | _ => exact fun e => .inl (same h x e)

/-- The slices that the call appends to the file. -/
def adds (A : Nat → Bool) : Op → List Slice
  | .append h d => if A h then [d] else []
  | _ => []

/-- A file object that is used was returned. -/
theorem known_returned (r : Atomic a H) (ap : AllPermitted H) {h : Nat} : ∀ {H'}, H' <:+ H → pending H' t = some o → target o = some h →
    ∃ o' s, Returned H o' (.opened s (some h)) := by
  intro H'
  induction H' with
  | nil => intro _ hp; cases hp
  | cons e H' ih =>
    intro hs hp ht
    have hs' := (List.suffix_cons e H').trans hs
    cases e with
    | call u o2 =>
      simp only [pending] at hp
      split at hp
      · injection hp with hp
        subst hp
        obtain ⟨v, s, hm⟩ := (ap u o2 H' hs).known h ht
        obtain ⟨o', hr⟩ := r.returned (hs'.subset hm)
        exact ⟨o', s, hr⟩
      · exact ih hs' hp ht
    | ret u x =>
      simp only [pending] at hp
      split at hp
      · cases hp
      · exact ih hs' hp ht

/-- The object that a call uses is of the file if it was opened by the name. -/
theorem Owned.used (i : Owned a H n A g) (r : Atomic a H) (ap : AllPermitted H) {p : Phase} (h : a.now t = some (o, p)) {y : Nat} {x : Obj}
    (ht : target o = some y) (hx : a.fs.obj y = some x) : g = some x.file ↔ A y = true := by
  obtain ⟨o', s, hr⟩ := known_returned r ap (List.suffix_refl _) (by rw [r.pend, h]; rfl) ht
  exact i.ret o' s y x hr hx

/-- The names and the number of files that a moment leaves. -/
theorem Owned.names {fs : FS} {p p' : Phase} (i : Owned a H n A g) (r : Atomic a H) (hd : Disciplined H) (of : OneFile H n)
    (h : a.now t = some (o, p)) (mm : Moment o a.fs p fs p') : ∃ g' : Option Nat,
    (∀ f j, fs.name f = some j → j < fs.made ∧ (g' = some j ↔ f = n)) ∧ (∀ j, g' = some j → j < fs.made) ∧ a.fs.made ≤ fs.made ∧
    ((g' = g ∧ ahead (isNewOf n) (some (o, p)) = 0) ∨ (g = none ∧ g' = some a.fs.made ∧ ahead (isNewOf n) (some (o, p)) = 1)) := by
  have hpd : ∀ x, p ≠ .done x := by rintro x rfl; cases mm
  have ha := hd a H (List.suffix_refl _) r t o p h hpd
  have hc : Ev.call t o ∈ H := pending_mem (by rw [r.pend, h]; rfl)
  have same : ∀ {fs' : FS}, fs'.name = a.fs.name → fs'.made = a.fs.made → ahead (isNewOf n) (some (o, p)) = 0 → ∃ g' : Option Nat,
      (∀ f j, fs'.name f = some j → j < fs'.made ∧ (g' = some j ↔ f = n)) ∧ (∀ j, g' = some j → j < fs'.made) ∧ a.fs.made ≤ fs'.made ∧
      ((g' = g ∧ ahead (isNewOf n) (some (o, p)) = 0) ∨ (g = none ∧ g' = some a.fs.made ∧ ahead (isNewOf n) (some (o, p)) = 1)) := by
    intro fs' e1 e2 h0
    exact ⟨g, by rw [e1, e2]; exact i.name, by rw [e2]; exact i.file, by rw [e2], .inl ⟨rfl, h0⟩⟩
  cases mm with
  | beyond ho => subst ho; exact same rfl rfl rfl
  | check ho => subst ho; exact same rfl rfl rfl
  | move ho => subst ho; exact same rfl rfl rfl
  | op hs hans =>
    cases o with
    | newSequential f => simp only [FS.next]; split <;> exact same rfl rfl rfl
    | newRandomAccess f => simp only [FS.next]; split <;> exact same rfl rfl rfl
    | newAppendable f =>
      obtain ⟨_, ha⟩ := ha
      simp only [FS.next]
      split
      · rename_i hj; rw [hj] at ha; cases ha
      · exact same rfl rfl rfl
    | newWritable f =>
      obtain ⟨k, T, hb⟩ := i.new
      have hle := (T.upd t none).1
      rw [h] at hle
      rw [costs_newOf] at hb
      have := of.once
      simp only [ahead, isNewOf] at hle ⊢
      simp only [FS.next]
      by_cases hf : f = n
      · subst hf
        rw [if_pos rfl] at hle ⊢
        have hg : g = none := by
          cases g with
          | none => rfl
          | some x => simp at hb; omega
        subst hg
        split
        · refine ⟨some a.fs.made, ?_, ?_, Nat.le_succ _, .inr ⟨rfl, rfl, rfl⟩⟩
          · intro f' j hj
            show j < a.fs.made + 1 ∧ _
            have hj : upd a.fs.name f (some a.fs.made) f' = some j := hj
            rcases upd_eq_some hj with ⟨rfl, e⟩ | ⟨ne, e⟩
            · injection e with e
              subst e
              exact ⟨Nat.lt_succ_self _, ⟨fun _ => rfl, fun _ => rfl⟩⟩
            · have := i.name f' j e
              refine ⟨Nat.lt_succ_of_lt this.1, ⟨fun e' => ?_, fun e' => absurd e' ne⟩⟩
              injection e' with e'
              omega
          · intro j hj
            injection hj with hj
            show j < a.fs.made + 1
            omega
        · rename_i j hj
          have := (i.name f j hj).2.mpr rfl
          cases this
      · rw [if_neg hf] at hle ⊢
        split
        · refine ⟨g, ?_, ?_, Nat.le_succ _, .inl ⟨rfl, rfl⟩⟩
          · intro f' j hj
            show j < a.fs.made + 1 ∧ _
            have hj : upd a.fs.name f (some a.fs.made) f' = some j := hj
            rcases upd_eq_some hj with ⟨rfl, e⟩ | ⟨ne, e⟩
            · injection e with e
              subst e
              refine ⟨Nat.lt_succ_self _, ⟨fun e => ?_, fun e => absurd e hf⟩⟩
              have := i.file _ e
              omega
            · have := i.name f' j e
              exact ⟨Nat.lt_succ_of_lt this.1, this.2⟩
          · intro j hj
            exact Nat.lt_succ_of_lt (i.file j hj)
        · exact ⟨g, i.name, i.file, Nat.le_refl _, .inl ⟨rfl, rfl⟩⟩
    | removeFile f =>
      refine ⟨g, ?_, i.file, Nat.le_refl _, .inl ⟨rfl, rfl⟩⟩
      intro f' j hj
      rcases upd_eq_some hj with ⟨_, e⟩ | ⟨_, e⟩
      · cases e
      · exact i.name f' j e
    | renameFile x y =>
      simp only [FS.next]
      split
      · exact same rfl rfl rfl
      · rename_i j hj
        split
        · exact same rfl rfl rfl
        · refine ⟨g, ?_, i.file, Nat.le_refl _, .inl ⟨rfl, rfl⟩⟩
          have hx : x ≠ n := by rintro rfl; exact of.renamed _ _ hc
          have hy : y ≠ n := by rintro rfl; exact of.replaced _ _ hc
          intro f' k hk
          rcases upd_eq_some hk with ⟨_, e⟩ | ⟨_, e⟩
          · cases e
          · rcases upd_eq_some e with ⟨rfl, e'⟩ | ⟨_, e⟩
            · injection e' with e'
              subst e'
              have := i.name x j hj
              exact ⟨this.1, ⟨fun e => absurd (this.2.mp e) hx, fun e => absurd e hy⟩⟩
            · exact i.name f' k e
    | destroyEnv =>
      refine ⟨g, ?_, i.file, Nat.le_refl _, .inl ⟨rfl, rfl⟩⟩
      intro f' j hj
      cases hj
    | seqRead y k => simp only [FS.next]; split <;> (try split) <;> exact same rfl rfl rfl
    | seqSkip y k => exact absurd trivial hs
    | append y d => simp only [FS.next]; split <;> exact same rfl rfl rfl
    | _ => exact same rfl rfl rfl

/-- The contents that a moment leaves. -/
theorem Owned.cont {fs : FS} {p p' : Phase} {g' : Option Nat} (i : Owned a H n A g) (r : Atomic a H) (ap : AllPermitted H)
    (hd : Disciplined H) (of : OneFile H n) (h : a.now t = some (o, p)) (mm : Moment o a.fs p fs p')
    (hg : (g' = g ∧ ahead (isNewOf n) (some (o, p)) = 0) ∨ (g = none ∧ g' = some a.fs.made ∧ ahead (isNewOf n) (some (o, p)) = 1)) :
    MemConc.cont g' fs = MemConc.cont g a.fs ++ content (adds A o) := by
  have hpd : ∀ x, p ≠ .done x := by rintro x rfl; cases mm
  have ha := hd a H (List.suffix_refl _) r t o p h hpd
  have same : ∀ {fs' : FS}, fs'.data = a.fs.data → adds A o = [] → ahead (isNewOf n) (some (o, p)) = 0 →
      MemConc.cont g' fs' = MemConc.cont g a.fs ++ content (adds A o) := by
    intro fs' e1 e2 e3
    rcases hg with ⟨rfl, _⟩ | ⟨_, _, e⟩
    · rw [e2]
      simp only [MemConc.cont, e1, content, List.map_nil, List.flatten_nil, List.append_nil]
    · rw [e3] at e; cases e
  have oneOf : isNewOf n o ≤ 1 := by
    cases o <;> simp only [isNewOf] <;> (try split) <;> omega
  cases mm with
  | beyond ho => subst ho; exact same rfl rfl rfl
  | check ho => subst ho; exact same rfl rfl rfl
  | move ho => subst ho; exact same rfl rfl rfl
  | op hs hans =>
    cases o with
    | newSequential f => simp only [FS.next]; split <;> exact same rfl rfl rfl
    | newRandomAccess f => simp only [FS.next]; split <;> exact same rfl rfl rfl
    | newAppendable f =>
      obtain ⟨_, ha⟩ := ha
      simp only [FS.next]
      split
      · rename_i hj; rw [hj] at ha; cases ha
      · exact same rfl rfl rfl
    | newWritable f =>
      rw [show adds A (.newWritable f) = [] from rfl, show content [] = [] from rfl, List.append_nil]
      rcases hg with ⟨rfl, e⟩ | ⟨rfl, rfl, e⟩
      · have hf : f ≠ n := by
          rintro rfl
          simp [ahead, isNewOf] at e
        cases g' with
        | none => rfl
        | some j =>
          have hj := i.file j rfl
          simp only [FS.next]
          split
          · show upd a.fs.data a.fs.made [] j = a.fs.data j
            exact upd_other _ _ (by omega)
          · rename_i k hk
            show upd a.fs.data k [] j = a.fs.data j
            refine upd_other _ _ ?_
            rintro rfl
            exact hf ((i.name f _ hk).2.mp rfl)
      · have hf : f = n := by
          simp only [ahead, isNewOf] at e
          split at e
          · assumption
          · cases e
        subst hf
        simp only [FS.next]
        split
        · show upd a.fs.data a.fs.made [] a.fs.made = []
          exact upd_same _ _ _
        · rename_i j hj
          cases (i.name f j hj).2.mpr rfl
    | append y d =>
      obtain ⟨_, j, hj, _⟩ := ha
      have hu := i.used r ap h (y := y) rfl hj
      rcases hg with ⟨rfl, _⟩ | ⟨_, _, e⟩
      · simp only [FS.next, hj, adds]
        by_cases hA : A y = true
        · rw [if_pos hA]
          have hgj := hu.mpr hA
          have : g' = some j := hgj
          subst this
          show upd a.fs.data j _ j = a.fs.data j ++ _
          rw [upd_same]
          simp [content]
        · rw [if_neg hA]
          simp only [content, List.map_nil, List.flatten_nil, List.append_nil]
          cases g' with
          | none => rfl
          | some k =>
            show upd a.fs.data j _ k = a.fs.data k
            refine upd_other _ _ ?_
            rintro rfl
            exact hA (hu.mp rfl)
      · cases e
    | seqRead y k => simp only [FS.next]; split <;> (try split) <;> exact same rfl rfl rfl
    | seqSkip y k => exact absurd trivial hs
    | renameFile x y => simp only [FS.next]; split <;> (try split) <;> exact same rfl rfl rfl
    | _ => exact same rfl rfl rfl

/-- The invariant is kept, and the file grows by what the call appends to it. -/
theorem Owned.moment {fs : FS} {p p' : Phase} (i : Owned a H n A g) (r : Atomic a H) (ap : AllPermitted H)
    (hd : Disciplined H) (of : OneFile H n) (h : a.now t = some (o, p)) (mm : Moment o a.fs p fs p') :
    ∃ g', Owned ⟨fs, upd a.now t (some (o, p'))⟩ H n A g' ∧ MemConc.cont g' fs = MemConc.cont g a.fs ++ content (adds A o) ∧
      (∀ j, g = some j → g' = some j) := by
  obtain ⟨g', h1, h2, h3, h4⟩ := i.names r hd of h mm
  obtain ⟨κ, og⟩ := r.origin ap
  have keep : ∀ j, j < a.fs.made → (g' = some j ↔ g = some j) := by
    intro j hj
    rcases h4 with ⟨rfl, _⟩ | ⟨rfl, rfl, _⟩
    · exact Iff.rfl
    · constructor
      · intro e; injection e with e; omega
      · intro e; cases e
  have file : ∀ x y, fs.obj x = some y → y.file < fs.made := by
    intro x y hy
    rcases mm.files x y hy with ⟨z, hz, e⟩ | ⟨_, _, f, _, hf⟩
    · rw [← e]
      exact Nat.lt_of_lt_of_le (i.obj x z hz) h3
    · exact (h1 f _ hf).1
  refine ⟨g', ⟨h1, h2, file, ?_, ?_, ?_⟩, i.cont r ap hd of h mm h4, ?_⟩
  · intro o' s x y hr hy
    have hlt := (og.ret o' s x hr).1
    rcases mm.files x y hy with ⟨z, hz, e⟩ | ⟨e, _⟩
    · rw [← e, keep _ (i.obj x z hz)]
      exact i.ret o' s x z hr hz
    · omega
  · intro u o' s x y hu hy
    rcases upd_eq_some hu with ⟨_, e⟩ | ⟨ne, e⟩
    · injection e with e
      injection e with e1 e2
      subst e1
      rcases mm.files x y hy with ⟨z, hz, e⟩ | ⟨_, _, f, hf, hn⟩
      · exfalso
        have hlt := (og.obj x z hz).1
        rcases mm.objs with ⟨_, _, _, _, _, g4⟩ | ⟨_, g2, _⟩
        · rw [g4] at e2
          injection e2 with e2
          injection e2 with _ e2
          injection e2 with e2
          omega
        · exact g2 s x e2
      · rw [(h1 f _ hn).2, hf]
        exact ⟨fun e => by rw [e], fun e => by injection e⟩
    · have hlt := (og.now u o' s x e).1
      rcases mm.files x y hy with ⟨z, hz, e'⟩ | ⟨e', _⟩
      · rw [← e', keep _ (i.obj x z hz)]
        exact i.now u o' s x z e hz
      · omega
  · obtain ⟨k, T, hb⟩ := i.new
    obtain ⟨hle, T'⟩ := T.upd t (some (o, p'))
    rw [h] at T' hle
    refine ⟨_, T', ?_⟩
    have z : ahead (isNewOf n) (some (o, p')) = 0 := by
      cases mm with
      | check ho => rfl
      | _ => rfl
    rw [z]
    rcases h4 with ⟨rfl, e⟩ | ⟨rfl, rfl, e⟩
    · rw [e]; omega
    · rw [e] at hle ⊢
      simp only [Option.isSome_none, Option.isSome_some, if_true, Bool.false_eq_true, if_false] at hb ⊢
      omega
  · intro j hj
    rcases h4 with ⟨rfl, _⟩ | ⟨rfl, _, _⟩
    · exact hj
    · cases hj

end MemConc
end Lsmdb
