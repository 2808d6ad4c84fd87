import Verif.Proof.MemConc11

/-!
# Handles, contents and memory in terms of the history
-/

namespace Lsmdb
namespace MemConc
open MemEnv Spec
open CacheConc (Tid)

variable {H : Hist} {t : Tid} {o : Op} {a : Atom} {w : World}

/-! ## Returns keep the discipline -/

theorem Atomic.before_ret {t : Tid} {x : Res} {a : Atom} {H' : Hist} (r : Atomic a H') : ∀ {H}, H' = .ret t x :: H →
    a.now t = none ∧ ∃ o, Atomic { a with now := upd a.now t (some (o, .done x)) } H := by
  induction r with
  | init => intro H e; cases e
  | call _ _ _ => intro H e; cases e
  | @ret a H' u o y r h ih =>
    intro H e
    injection e with e1 e2
    injection e1 with e1 e3
    subst e1; subst e2; subst e3
    refine ⟨upd_same _ _ _, o, ?_⟩
    have : upd (upd a.now u none) u (some (o, .done y)) = a.now := by
      funext v
      by_cases e : v = u
      · subst e; rw [upd_same, h]
      · rw [upd_other _ _ e, upd_other _ _ e]
    show Atomic ⟨a.fs, upd (upd a.now u none) u (some (o, .done y))⟩ H'
    rw [this]
    exact r
  | @moment a H' u o p p' fs r h m ih =>
    intro H e
    obtain ⟨h1, o', h2⟩ := ih e
    have ne : u ≠ t := by rintro rfl; rw [h1] at h; cases h
    refine ⟨by rw [show (⟨fs, upd a.now u (some (o, p'))⟩ : Atom).now t = a.now t from upd_other _ _ (Ne.symm ne)]; exact h1, o', ?_⟩
    have := Atomic.moment h2 (t := u) (o := o) (p := p) ((upd_other _ _ ne).trans h) m
    have e : upd (upd a.now t (some (o', .done x))) u (some (o, p')) = upd (upd a.now u (some (o, p'))) t (some (o', .done x)) := by
      funext v
      by_cases e1 : v = u
      · subst e1; rw [upd_same, upd_other _ _ ne, upd_same]
      · by_cases e2 : v = t
        · subst e2; rw [upd_other _ _ e1, upd_same, upd_same]
        · rw [upd_other _ _ e1, upd_other _ _ e2, upd_other _ _ e2, upd_other _ _ e1]
    rw [← e]
    exact this

theorem Disciplined.ret {t : Tid} {x : Res} (d : Disciplined H) : Disciplined (.ret t x :: H) := by
  intro a H' hs r u o p hn hp
  rcases List.suffix_cons_iff.mp hs with h | h
  · subst h
    obtain ⟨h1, o', h2⟩ := r.before_ret rfl
    have ne : u ≠ t := by rintro rfl; rw [h1] at hn; cases hn
    exact d _ H (List.suffix_refl _) h2 u o p ((upd_other _ _ ne).trans hn) hp
  · exact d a H' h r u o p hn hp

/-! ## New handles -/

/-- The handles that calls returned, newest first. -/
structure Fresh (a : Atom) (H : Hist) : Prop where
  nodup : (newHandles H).Nodup
  lt : ∀ h ∈ newHandles H, h < a.fs.opened
  now : ∀ t o s h, a.now t = some (o, .done (.opened s (some h))) → h < a.fs.opened ∧ h ∉ newHandles H ∧
    ∀ u o' s', a.now u = some (o', .done (.opened s' (some h))) → u = t
  all : ∀ h, h < a.fs.opened → h ∈ newHandles H ∨ ∃ t o s, a.now t = some (o, .done (.opened s (some h)))

theorem newHandles_ret {t : Tid} {x : Res} (hx : ∀ s h, x ≠ .opened s (some h)) : newHandles (.ret t x :: H) = newHandles H := by
  cases x with
  | opened s h =>
    cases h with
    | none => rfl
    | some h => exact absurd rfl (hx s h)
  | _ => rfl

theorem mem_newHandles {v : Tid} {s : St} {h : Nat} : ∀ {H : Hist}, Ev.ret v (.opened s (some h)) ∈ H → h ∈ newHandles H := by
  intro H
  induction H with
  | nil => intro hk; cases hk
  | cons e H ih =>
    intro hk
    rcases List.mem_cons.mp hk with hk | hk
    · subst hk; exact List.mem_cons_self ..
    · have := ih hk
      cases e with
      | call => exact this
      | ret t' x =>
        cases x with
        | opened s' k =>
          cases k with
          | none => exact this
          | some k => exact List.mem_cons_of_mem _ this
        | _ => exact this

theorem Atomic.fresh (r : Atomic a H) : Fresh a H := by
  induction r with
  | init =>
    refine ⟨List.nodup_nil, ?_, ?_, ?_⟩
    · intro h hh; cases hh
    · intro t o s h e; cases e
    · intro h hh; exact absurd hh (Nat.not_lt_zero _)
  | @call a H t o r h ih =>
    have nowO : ∀ {u o' x}, upd a.now t (some (o, .start)) u = some (o', .done x) → a.now u = some (o', .done x) := by
      intro u o' x hu
      rcases upd_eq_some hu with ⟨_, e⟩ | ⟨_, e⟩
      · cases e
      · exact e
    refine ⟨ih.nodup, ih.lt, ?_, ?_⟩
    · intro u o' s x hu
      obtain ⟨h1, h2, h3⟩ := ih.now u o' s x (nowO hu)
      exact ⟨h1, h2, fun v o'' s' hv => h3 v o'' s' (nowO hv)⟩
    · intro x hx
      rcases ih.all x hx with h1 | ⟨u, o', s, h1⟩
      · exact .inl h1
      · refine .inr ⟨u, o', s, ?_⟩
        exact (upd_other _ _ (by rintro rfl; rw [h] at h1; cases h1)).trans h1
  | @moment a H t o p p' fs r h m ih =>
    have notdone : ∀ x, p ≠ .done x := by rintro x rfl; cases m
    have keep : ∀ {u o' x}, a.now u = some (o', .done x) → upd a.now t (some (o, p')) u = some (o', .done x) := by
      intro u o' x hu
      rw [upd_other _ _ (by rintro rfl; rw [h] at hu; injection hu with hu; injection hu with _ hu; exact notdone x hu)]
      exact hu
    rcases m.objs with ⟨x, s, h1, h2, h3, h4⟩ | ⟨h1, h2, h3⟩
    · subst h4
      refine ⟨ih.nodup, ?_, ?_, ?_⟩
      · intro k hk
        have := ih.lt k hk
        show k < fs.opened
        omega
      · intro u o' s' k hu
        show k < fs.opened ∧ _
        rcases upd_eq_some hu with ⟨e, e'⟩ | ⟨ne, e⟩
        · injection e' with e'
          injection e' with e1 e2
          injection e2 with e2
          injection e2 with e2 e3
          injection e3 with e3
          subst e; subst e3
          refine ⟨by omega, fun hm => Nat.lt_irrefl _ (ih.lt _ hm), ?_⟩
          intro v o'' s'' hv
          rcases upd_eq_some hv with ⟨e, _⟩ | ⟨ne, e⟩
          · exact e
          · exact absurd (ih.now v o'' s'' _ e).1 (Nat.lt_irrefl _)
        · obtain ⟨g1, g2, g3⟩ := ih.now u o' s' k e
          refine ⟨by omega, g2, ?_⟩
          intro v o'' s'' hv
          rcases upd_eq_some hv with ⟨_, e'⟩ | ⟨ne, e⟩
          · injection e' with e'
            injection e' with _ e2
            injection e2 with e2
            injection e2 with e2 e3
            injection e3 with e3
            exact absurd g1 (by omega)
          · exact g3 v o'' s'' e
      · intro k hk
        have hk' : k < fs.opened := hk
        by_cases e : k = a.fs.opened
        · subst e; exact .inr ⟨t, o, s, upd_same _ _ _⟩
        · rcases ih.all k (by omega) with g | ⟨u, o', s', g⟩
          · exact .inl g
          · exact .inr ⟨u, o', s', keep g⟩
    · have nowO : ∀ {u o' s k}, upd a.now t (some (o, p')) u = some (o', .done (.opened s (some k))) →
          a.now u = some (o', .done (.opened s (some k))) := by
        intro u o' s k hu
        rcases upd_eq_some hu with ⟨_, e⟩ | ⟨_, e⟩
        · injection e with e
          injection e with _ e
          exact absurd e (h2 s k)
        · exact e
      refine ⟨ih.nodup, ?_, ?_, ?_⟩
      · intro k hk
        show k < fs.opened
        rw [h1]; exact ih.lt k hk
      · intro u o' s' k hu
        show k < fs.opened ∧ _
        rw [h1]
        obtain ⟨g1, g2, g3⟩ := ih.now u o' s' k (nowO hu)
        exact ⟨g1, g2, fun v o'' s'' hv => g3 v o'' s'' (nowO hv)⟩
      · intro k hk
        have hk' : k < fs.opened := hk
        rw [h1] at hk'
        rcases ih.all k hk' with g | ⟨u, o', s', g⟩
        · exact .inl g
        · exact .inr ⟨u, o', s', keep g⟩
  | @ret a H t o x r h ih =>
    have nowO : ∀ {u q}, upd a.now t none u = some q → u ≠ t ∧ a.now u = some q := by
      intro u q hu
      rcases upd_eq_some hu with ⟨_, e⟩ | ⟨ne, e⟩
      · cases e
      · exact ⟨ne, e⟩
    by_cases hx : ∃ s k, x = .opened s (some k)
    · obtain ⟨s, k, rfl⟩ := hx
      obtain ⟨g1, g2, g3⟩ := ih.now t o s k h
      refine ⟨List.nodup_cons.mpr ⟨g2, ih.nodup⟩, ?_, ?_, ?_⟩
      · intro j hj
        rcases List.mem_cons.mp hj with hj | hj
        · subst hj; exact g1
        · exact ih.lt j hj
      · intro u o' s' j hu
        obtain ⟨ne, hu⟩ := nowO hu
        obtain ⟨f1, f2, f3⟩ := ih.now u o' s' j hu
        refine ⟨f1, ?_, fun v o'' s'' hv => f3 v o'' s'' (nowO hv).2⟩
        intro hj
        rcases List.mem_cons.mp hj with hj | hj
        · subst hj; exact ne (g3 u o' s' hu)
        · exact f2 hj
      · intro j hj
        rcases ih.all j hj with f | ⟨u, o', s', f⟩
        · exact .inl (List.mem_cons_of_mem _ f)
        · by_cases e : u = t
          · subst e
            rw [h] at f
            injection f with f
            injection f with _ f
            injection f with f
            injection f with _ f
            injection f with f
            subst f
            exact .inl (List.mem_cons_self ..)
          · refine .inr ⟨u, o', s', ?_⟩
            exact (upd_other _ _ e).trans f
    · have hn := newHandles_ret (t := t) (H := H) (x := x) (fun s k e => hx ⟨s, k, e⟩)
      refine ⟨by rw [hn]; exact ih.nodup, by rw [hn]; exact ih.lt, ?_, ?_⟩
      · intro u o' s' j hu
        obtain ⟨ne, hu⟩ := nowO hu
        obtain ⟨f1, f2, f3⟩ := ih.now u o' s' j hu
        rw [hn]
        exact ⟨f1, f2, fun v o'' s'' hv => f3 v o'' s'' (nowO hv).2⟩
      · intro j hj
        rw [hn]
        rcases ih.all j hj with f | ⟨u, o', s', f⟩
        · exact .inl f
        · by_cases e : u = t
          · subst e
            rw [h] at f
            injection f with f
            injection f with _ f
            injection f with f
            exact absurd ⟨s', j, f⟩ hx
          · refine .inr ⟨u, o', s', ?_⟩
            exact (upd_other _ _ e).trans f

/-! ## Deleted file objects -/

theorem Atomic.deleted (r : Atomic a H) (ap : AllPermitted H) {u : Tid} {h : Nat} (hm : Ev.call u (.delete h) ∈ H) :
    h < a.fs.opened ∧ (a.fs.obj h = none ∨ ∃ v, a.now v = some (.delete h, .start)) := by
  induction r with
  | init => cases hm
  | @call a H t o r hn ih =>
    have pm := ap t o H (List.suffix_refl _)
    rcases List.mem_cons.mp hm with hm | hm
    · injection hm with h1 h2
      subst h1; subst h2
      obtain ⟨v, s, hk⟩ := pm.known h rfl
      have : h ∈ newHandles H := mem_newHandles hk
      exact ⟨r.fresh.lt h this, .inr ⟨u, upd_same _ _ _⟩⟩
    · obtain ⟨h1, h2⟩ := ih ap.tail hm
      refine ⟨h1, ?_⟩
      rcases h2 with h2 | ⟨v, h2⟩
      · exact .inl h2
      · refine .inr ⟨v, ?_⟩
        exact (upd_other _ _ (by rintro rfl; rw [hn] at h2; cases h2)).trans h2
  | @moment a H t o p p' fs r hn m ih =>
    obtain ⟨h1, h2⟩ := ih ap hm
    show h < fs.opened ∧ (fs.obj h = none ∨ _)
    by_cases hd : o = .delete h
    · subst hd
      cases m with
      | op hs ha => exact ⟨h1, .inl (by simp only [FS.next]; rw [upd_same])⟩
      | beyond e => cases e
      | check e => cases e
      | move e => cases e
    · have key : ∀ v, a.now v = some (.delete h, .start) → upd a.now t (some (o, p')) v = some (.delete h, .start) := by
        intro v hv
        rw [upd_other _ _ (by rintro rfl; rw [hn] at hv; injection hv with hv; injection hv with hv; exact hd hv)]
        exact hv
      rcases m.objs with ⟨x, s, g1, g2, g3, g4⟩ | ⟨g1, g2, g3⟩
      · refine ⟨by omega, ?_⟩
        rcases h2 with h2 | ⟨v, h2⟩
        · left; rw [g2, upd_other _ _ (by omega)]; exact h2
        · exact .inr ⟨v, key v h2⟩
      · refine ⟨by omega, ?_⟩
        rcases h2 with h2 | ⟨v, h2⟩
        · left
          rcases g3 h with ⟨f1, _⟩ | f1
          · exact f1
          · rw [h2] at f1
            cases e : fs.obj h with
            | none => rfl
            | some y => rw [e] at f1; cases f1
        · exact .inr ⟨v, key v h2⟩
  | @ret a H t o x r hn ih =>
    rcases List.mem_cons.mp hm with hm | hm
    · cases hm
    · obtain ⟨h1, h2⟩ := ih ap.tail hm
      refine ⟨h1, ?_⟩
      rcases h2 with h2 | ⟨v, h2⟩
      · exact .inl h2
      · refine .inr ⟨v, ?_⟩
        exact (upd_other _ _ (by rintro rfl; rw [hn] at h2; cases h2)).trans h2

/-- Calls for file objects change no names. -/
theorem Moment.names {fs fs' : FS} {p p' : Phase} (m : Moment o fs p fs' p') (ht : target o ≠ none) : fs'.name = fs.name := by
  cases m with
  | beyond => rfl
  | check => rfl
  | move => rfl
  | op hs ha =>
    cases o with
    | seqRead x n => simp only [FS.next]; split <;> (try split) <;> rfl
    | seqSkip x n => exact absurd trivial hs
    | append x d => simp only [FS.next]; split <;> rfl
    | randRead => rfl
    | close => rfl
    | flush => rfl
    | sync => rfl
    | delete => rfl
    | _ => exact absurd rfl ht

theorem Atomic.destroyed (r : Atomic a H) (ap : AllPermitted H) {u : Tid} (hm : Ev.call u .destroyEnv ∈ H) :
    (∀ n, a.fs.name n = none) ∨ ∃ v, a.now v = some (.destroyEnv, .start) := by
  induction r with
  | init => cases hm
  | @call a H t o r hn ih =>
    rcases List.mem_cons.mp hm with hm | hm
    · injection hm with h1 h2
      subst h1; subst h2
      exact .inr ⟨u, upd_same _ _ _⟩
    · rcases ih ap.tail hm with h2 | ⟨v, h2⟩
      · exact .inl h2
      · refine .inr ⟨v, ?_⟩
        exact (upd_other _ _ (by rintro rfl; rw [hn] at h2; cases h2)).trans h2
  | @moment a H t o p p' fs r hn m ih =>
    by_cases ht : target o = none
    · have := ap.destroying (t := t) (by rw [r.pend, hn]; rfl) ht hm
      subst this
      cases m with
      | op hs ha => exact .inl fun _ => rfl
      | beyond e => cases e
      | check e => cases e
      | move e => cases e
    · rcases ih ap hm with h2 | ⟨v, h2⟩
      · left
        intro n
        show fs.name n = none
        rw [m.names ht]; exact h2 n
      · refine .inr ⟨v, ?_⟩
        exact (upd_other _ _ (by
          rintro rfl; rw [hn] at h2; injection h2 with h2; injection h2 with h2; rw [h2] at ht; exact ht rfl)).trans h2
  | @ret a H t o x r hn ih =>
    rcases List.mem_cons.mp hm with hm | hm
    · cases hm
    · rcases ih ap.tail hm with h2 | ⟨v, h2⟩
      · exact .inl h2
      · refine .inr ⟨v, ?_⟩
        exact (upd_other _ _ (by rintro rfl; rw [hn] at h2; cases h2)).trans h2

/-! ## The contents of a file -/

/-- The call creates files. -/
def isNew : Op → Nat
  | .newWritable _ => 1
  | _ => 0

/-- The call appends `d`. -/
def isAppend (d : Slice) : Op → Nat
  | .append _ d' => if d' = d then 1 else 0
  | _ => 0

theorem costs_new : ∀ H, costs isNew H = creations H := by
  intro H
  induction H with
  | nil => rfl
  | cons e H ih =>
    cases e with
    | ret => exact ih
    | call u o =>
      cases o with
      | newWritable n => simp only [costs, creations, isNew, ih]; omega
      | _ => simp only [costs, creations, isNew, ih]; omega

theorem costs_append (d : Slice) : ∀ H, costs (isAppend d) H = (appendedSlices H).count d := by
  intro H
  induction H with
  | nil => rfl
  | cons e H ih =>
    cases e with
    | ret => exact ih
    | call u o =>
      cases o with
      | append x d' =>
        simp only [costs, appendedSlices, isAppend, ih, List.count_cons, beq_iff_eq]
        omega
      | _ => simp only [costs, appendedSlices, isAppend, ih]; omega

/-- One file was created; the files and file objects refer to it, and its contents are the slices of the calls of Append that have
had their effect. -/
structure Whole (a : Atom) (H : Hist) : Prop where
  name : ∀ n i, a.fs.name n = some i → i < a.fs.made
  obj : ∀ h x, a.fs.obj h = some x → x.file < a.fs.made
  made : ∃ k, Total a.now (ahead isNew) k ∧ a.fs.made + k ≤ costs isNew H
  data : ∃ ds : List Slice, a.fs.data 0 = (ds.map Slice.bytes).flatten ∧ (a.fs.made = 0 → ds = []) ∧
    ∀ d, ∃ k, Total a.now (ahead (isAppend d)) k ∧ ds.count d + k = costs (isAppend d) H

/-- What a call does to the names, the file objects and the contents of file 0, if it does not create a file. -/
theorem Whole.keep {fs fs' : FS} {now : Tid → Option (Op × Phase)} {p p' : Phase} (i : Whole ⟨fs, now⟩ H) (hn : now t = some (o, p))
    (hc : ∀ c : Op → Nat, (c = isNew ∨ ∃ d, c = isAppend d) → ahead c (some (o, p)) = 0 ∧ ahead c (some (o, p')) = 0)
    (h1 : fs'.made = fs.made) (h2 : ∀ n j, fs'.name n = some j → ∃ m, fs.name m = some j)
    (h3 : ∀ h x, fs'.obj h = some x → x.file < fs.made) (h4 : fs'.data 0 = fs.data 0) :
    Whole ⟨fs', upd now t (some (o, p'))⟩ H := by
  have tot : ∀ c : Op → Nat, (c = isNew ∨ ∃ d, c = isAppend d) → ∀ k, Total now (ahead c) k →
      Total (upd now t (some (o, p'))) (ahead c) k := by
    intro c hc' k T
    have := (T.upd t (some (o, p'))).2
    rw [hn, (hc c hc').1, (hc c hc').2] at this
    exact this
  refine ⟨?_, ?_, ?_, ?_⟩
  · intro n j hj
    obtain ⟨m, hm⟩ := h2 n j hj
    show j < fs'.made
    rw [h1]; exact i.name m j hm
  · intro h x hx
    show _ < fs'.made
    rw [h1]; exact h3 h x hx
  · obtain ⟨k, T, hb⟩ := i.made
    refine ⟨k, tot _ (.inl rfl) k T, ?_⟩
    show fs'.made + k ≤ _
    rw [h1]; exact hb
  · obtain ⟨ds, g1, g0, g2⟩ := i.data
    refine ⟨ds, by rw [show fs'.data 0 = fs.data 0 from h4]; exact g1, fun e => g0 (h1.symm.trans e), fun d => ?_⟩
    obtain ⟨k, T, hb⟩ := g2 d
    exact ⟨k, tot _ (.inr ⟨d, rfl⟩) k T, hb⟩

theorem Atomic.whole (r : Atomic a H) (h1 : creations H ≤ 1) (hd : Disciplined H) : Whole a H := by
  induction r with
  | init =>
    refine ⟨?_, ?_, ⟨0, ⟨[], by simp, fun _ _ => rfl, rfl⟩, Nat.le_refl _⟩, ⟨[], rfl, fun _ => rfl, fun d => ⟨0, ⟨[], by simp, fun _ _ => rfl, rfl⟩, rfl⟩⟩⟩
    · intro n i h; cases h
    · intro h x e; cases e
  | @call a H t o r h ih =>
    have i := ih (by
      rw [← costs_new] at h1 ⊢
      simp only [costs] at h1
      omega) (hd.suffix (List.suffix_cons _ _))
    refine ⟨i.name, i.obj, ?_, ?_⟩
    · obtain ⟨k, T, hb⟩ := i.made
      have := (T.upd t (some (o, .start))).2
      rw [h] at this
      refine ⟨_, this, ?_⟩
      simp only [ahead, costs, Nat.sub_zero]
      omega
    · obtain ⟨ds, g1, g0, g2⟩ := i.data
      refine ⟨ds, g1, g0, fun d => ?_⟩
      obtain ⟨k, T, hb⟩ := g2 d
      have := (T.upd t (some (o, .start))).2
      rw [h] at this
      refine ⟨_, this, ?_⟩
      simp only [ahead, costs, Nat.sub_zero]
      omega
  | @ret a H t o x r h ih =>
    have i := ih h1 (hd.suffix (List.suffix_cons _ _))
    have tot : ∀ (c : Op → Nat) k, Total a.now (ahead c) k → Total (upd a.now t none) (ahead c) k := by
      intro c k T
      have := (T.upd t none).2
      rw [h] at this
      exact this
    refine ⟨i.name, i.obj, ?_, ?_⟩
    · obtain ⟨k, T, hb⟩ := i.made
      exact ⟨k, tot _ k T, hb⟩
    · obtain ⟨ds, g1, g0, g2⟩ := i.data
      refine ⟨ds, g1, g0, fun d => ?_⟩
      obtain ⟨k, T, hb⟩ := g2 d
      exact ⟨k, tot _ k T, hb⟩
  | @moment a H t o p p' fs r h m ih =>
    have i := ih h1 hd
    have hpd : ∀ x, p ≠ .done x := by rintro x rfl; cases m
    have ha := hd a H (List.suffix_refl _) r t o p h hpd
    have i' : Whole ⟨a.fs, a.now⟩ H := i
    have one : ∀ {x j pos pos' : Nat}, a.fs.obj x = some (.seq j pos) → ∀ k y,
        upd a.fs.obj x (some (.seq j pos')) k = some y → y.file < a.fs.made := by
      intro x j pos pos' hx k y hy
      rcases upd_eq_some hy with ⟨_, e⟩ | ⟨_, e⟩
      · injection e with e
        subst e
        exact (i.obj x _ hx :)
      · exact i.obj k y e
    have same : ∀ {fs' : FS}, fs' = a.fs → (∀ c : Op → Nat, (c = isNew ∨ ∃ d, c = isAppend d) →
        ahead c (some (o, p)) = 0 ∧ ahead c (some (o, p')) = 0) → Whole ⟨fs', upd a.now t (some (o, p'))⟩ H := by
      intro fs' e hc
      subst e
      exact i'.keep h hc rfl (fun n j hj => ⟨n, hj⟩) i.obj rfl
    have newObj : ∀ {x : Obj}, x.file < a.fs.made → (∀ c : Op → Nat, (c = isNew ∨ ∃ d, c = isAppend d) →
        ahead c (some (o, p)) = 0 ∧ ahead c (some (o, p')) = 0) → Whole ⟨a.fs.withObj x, upd a.now t (some (o, p'))⟩ H := by
      intro x hx hc
      refine i'.keep h hc rfl (fun n j hj => ⟨n, hj⟩) ?_ rfl
      intro k y hy
      rcases upd_eq_some hy with ⟨_, e⟩ | ⟨_, e⟩
      · injection e with e
        subst e
        exact hx
      · exact i.obj k y e
    have z : ∀ {o : Op} {p p' : Phase}, isNew o = 0 → (∀ d, isAppend d o = 0) → ∀ c : Op → Nat, (c = isNew ∨ ∃ d, c = isAppend d) →
        ahead c (some (o, p)) = 0 ∧ ahead c (some (o, p')) = 0 := by
      intro o p p' e1 e2 c hc
      have : c o = 0 := by
        rcases hc with rfl | ⟨d, rfl⟩
        · exact e1
        · exact e2 d
      cases p <;> cases p' <;> simp [ahead, this]
    have hmade : a.fs.made ≤ 1 := by
      obtain ⟨k, _, hb⟩ := i.made
      rw [costs_new] at hb
      omega
    cases m with
    | beyond ho hx hh => subst ho; exact same rfl (z rfl fun _ => rfl)
    | check ho hx hh => subst ho; exact same rfl (z rfl fun _ => rfl)
    | move ho hx hh =>
      subst ho
      exact i'.keep h (z rfl fun _ => rfl) rfl (fun n j hj => ⟨n, hj⟩) (one hx) rfl
    | @op r0 hs hans =>
      cases o with
      | newSequential n =>
        simp only [FS.next]
        split
        · exact same rfl (z rfl fun _ => rfl)
        · rename_i j hj; exact newObj (i.name n j hj) (z rfl fun _ => rfl)
      | newRandomAccess n =>
        simp only [FS.next]
        split
        · exact same rfl (z rfl fun _ => rfl)
        · rename_i j hj; exact newObj (i.name n j hj) (z rfl fun _ => rfl)
      | newAppendable n =>
        obtain ⟨_, ha⟩ := ha
        simp only [FS.next]
        split
        · rename_i hj; rw [hj] at ha; cases ha
        · rename_i j hj; exact newObj (i.name n j hj) (z rfl fun _ => rfl)
      | newWritable n =>
        obtain ⟨k, T, hb⟩ := i.made
        obtain ⟨hle, T'⟩ := T.upd t (some (.newWritable n, .done r0))
        rw [h] at hle T'
        simp only [ahead, isNew] at hle T'
        rw [costs_new] at hb
        have h0 : a.fs.made = 0 := by omega
        simp only [FS.next]
        split
        · refine ⟨?_, ?_, ⟨_, T', ?_⟩, ?_⟩
          · intro m j hj
            show j < a.fs.made + 1
            rcases upd_eq_some hj with ⟨_, e⟩ | ⟨_, e⟩
            · injection e with e; omega
            · have := i.name m j e; omega
          · intro x y hy
            show y.file < a.fs.made + 1
            rcases upd_eq_some hy with ⟨_, e⟩ | ⟨_, e⟩
            · injection e with e
              subst e
              exact Nat.lt_succ_self _
            · have := i.obj x y e; omega
          · show a.fs.made + 1 + _ ≤ _
            rw [costs_new]
            omega
          · obtain ⟨ds, g1, g0, g2⟩ := i.data
            have := g0 h0
            subst this
            refine ⟨[], ?_, fun _ => rfl, fun d => ?_⟩
            · show upd a.fs.data a.fs.made [] 0 = _
              rw [h0, upd_same]; rfl
            · obtain ⟨k', T2, hb'⟩ := g2 d
              have := (T2.upd t (some (.newWritable n, .done r0))).2
              rw [h] at this
              exact ⟨k', this, hb'⟩
        · rename_i j hj
          have := i.name n j hj
          omega
      | append x d =>
        obtain ⟨hw, j, hj, _⟩ := ha
        have : j = 0 := by
          have : j < a.fs.made := i.obj x _ hj
          omega
        subst this
        simp only [FS.next, hj]
        refine ⟨i.name, i.obj, ?_, ?_⟩
        · obtain ⟨k, T, hb⟩ := i.made
          have := (T.upd t (some (.append x d, .done r0))).2
          rw [h] at this
          exact ⟨k, this, hb⟩
        · obtain ⟨ds, g1, g0, g2⟩ := i.data
          have hm : a.fs.made ≠ 0 := by
            intro e
            have : (0 : Nat) < a.fs.made := i.obj x _ hj
            omega
          refine ⟨ds ++ [d], ?_, fun e => absurd e hm, fun d' => ?_⟩
          · simp only [upd_same, g1, List.map_append, List.flatten_append, List.map_cons, List.map_nil, List.flatten_cons,
              List.flatten_nil, List.append_nil]
          · obtain ⟨k, T, hb⟩ := g2 d'
            obtain ⟨hle, T'⟩ := T.upd t (some (.append x d, .done r0))
            rw [h] at hle T'
            refine ⟨_, T', ?_⟩
            simp only [ahead, isAppend] at hle ⊢
            rw [List.count_append, List.count_singleton]
            simp only [beq_iff_eq]
            omega
      | removeFile n =>
        refine i'.keep h (z rfl fun _ => rfl) rfl ?_ i.obj rfl
        intro m j hj
        rcases upd_eq_some hj with ⟨_, e⟩ | ⟨_, e⟩
        · cases e
        · exact ⟨m, e⟩
      | renameFile x y =>
        simp only [FS.next]
        split
        · exact same rfl (z rfl fun _ => rfl)
        · rename_i j hj
          split
          · exact same rfl (z rfl fun _ => rfl)
          · refine i'.keep h (z rfl fun _ => rfl) rfl ?_ i.obj rfl
            intro m k hk
            rcases upd_eq_some hk with ⟨_, e⟩ | ⟨_, e⟩
            · cases e
            · rcases upd_eq_some e with ⟨_, e⟩ | ⟨_, e⟩
              · injection e with e
                subst e
                exact ⟨x, hj⟩
              · exact ⟨m, e⟩
      | seqRead x n =>
        obtain ⟨j, pos, hj⟩ := ha
        simp only [FS.next, hj]
        split
        · exact i'.keep h (z rfl fun _ => rfl) rfl (fun n j hj => ⟨n, hj⟩) (one hj) rfl
        · exact same rfl (z rfl fun _ => rfl)
      | seqSkip x n => exact absurd trivial hs
      | delete x =>
        refine i'.keep h (z rfl fun _ => rfl) rfl (fun n j hj => ⟨n, hj⟩) ?_ rfl
        intro k y hy
        rcases upd_eq_some hy with ⟨_, e⟩ | ⟨_, e⟩
        · cases e
        · exact i.obj k y e
      | destroyEnv =>
        refine i'.keep h (z rfl fun _ => rfl) rfl ?_ i.obj rfl
        intro m j hj
        cases hj
      | _ => exact same rfl (z rfl fun _ => rfl)

end MemConc
end Lsmdb
