import Verif.Proof.MemReads0

/-!
# Readers of a shared file: the invariant of the atomic file system
-/

namespace Lsmdb
namespace MemConc
open MemEnv Spec
open CacheConc (Tid)

variable {H : Hist} {t : Tid} {o : Op} {a : Atom} {ds : List Slice} {k : Tid → Nat} {m : Nat → Nat} {A : Nat → Bool} {n : Bytes}
  {g : Option Nat}

/-- The cost of a call that has had its effect. -/
def behind (c : Op → Nat) : Option (Op × Phase) → Nat
  | some (o, .done _) => c o
  | _ => 0

theorem content_append (ds es : List Slice) : content (ds ++ es) = content ds ++ content es := by
  simp only [content, List.map_append, List.flatten_append]

theorem done_cons {e : Ev} {H0 : Hist} {x : Res} (h : Done (e :: H) H0 t o x) :
    Done H H0 t o x ∨ (e = .ret t x ∧ H0 = H ∧ pending H t = some o) := by
  obtain ⟨hs, hp⟩ := h
  rcases List.suffix_cons_iff.mp hs with h | h
  · injection h with h1 h2
    subst h2
    exact .inr ⟨h1.symm, rfl, hp⟩
  · exact .inl ⟨h, hp⟩

theorem Done.lt {H0 : Hist} {x : Res} (h : Done H H0 t o x) : H0.length < H.length := by
  have := h.1.length_le
  rw [List.length_cons] at this
  omega

theorem began_suffix : ∀ (H : Hist) (t : Tid), began H t <:+ H
  | [], _ => List.suffix_refl _
  | .call u _ :: H, t => by
    simp only [began]
    split
    · exact List.suffix_cons _ _
    · exact (began_suffix H t).trans (List.suffix_cons _ _)
  | .ret u _ :: H, t => by
    simp only [began]
    split
    · exact List.nil_suffix
    · exact (began_suffix H t).trans (List.suffix_cons _ _)

theorem Done.mono {H' H0 : Hist} {x : Res} (h : Done H H0 t o x) (hs : H <:+ H') : Done H' H0 t o x := ⟨h.1.trans hs, h.2⟩

theorem slicesDone_le {H' : Hist} (hs : H' <:+ H) (d : Slice) : (slicesDone A H').count d ≤ (slicesDone A H).count d := by
  induction H with
  | nil => rw [List.suffix_nil.mp hs]
  | cons e H ih =>
    rcases List.suffix_cons_iff.mp hs with h | h
    · rw [h]
    · refine Nat.le_trans (ih h) ?_
      cases e with
      | call u o => exact Nat.le_refl _
      | ret u x =>
        simp only [slicesDone]
        split
        · split
          · exact List.count_le_count_cons ..
          · exact Nat.le_refl _
        · exact Nat.le_refl _

theorem Right.mono {j : Nat} {x : Res} (h : Right A n ds j o x) (hj : j ≤ ds.length) (es : List Slice) : Right A n (ds ++ es) j o x := by
  cases o <;> simp only [Right] at h ⊢
  case append y d =>
    intro hA
    obtain ⟨h0, h1, h2⟩ := h hA
    refine ⟨h0, h1, ?_⟩
    rw [List.getElem?_append_left (by omega)]
    exact h2
  all_goals (rw [List.take_append_of_le_length hj]; exact h)

/-- The invariant: `ds` are the slices that were appended; `k t` is how many there were when the call of thread `t` took effect. -/
structure Seen (A : Nat → Bool) (n : Bytes) (g : Option Nat) (a : Atom) (H : Hist) (ds : List Slice) (k : Tid → Nat) (m : Nat → Nat) : Prop where
  data : cont g a.fs = content ds
  up : ∀ d, ∃ q, Total a.now (ahead (isApp A d)) q ∧ ds.count d + q = costs (isApp A d) H
  low : ∀ d, ∃ q, Total a.now (behind (isApp A d)) q ∧ (slicesDone A H).count d + q = ds.count d
  now : ∀ {t o x}, a.now t = some (o, .done x) → k t ≤ ds.length ∧ Right A n ds (k t) o x
  nowPast : ∀ {t o x}, a.now t = some (o, .done x) → (slicesDone A (began H t)).Subperm (ds.take (k t))
  nowOrder : ∀ {t o x H0 u o' x'}, a.now t = some (o, .done x) → Done (began H t) H0 u o' x' →
    m H0.length ≤ k t ∧ (IsAppend A o → m H0.length < k t)
  nowPlaces : ∀ {t o x u o' x'}, a.now t = some (o, .done x) → a.now u = some (o', .done x') → IsAppend A o → IsAppend A o' → t ≠ u →
    k t ≠ k u
  bothPlaces : ∀ {t o x u o' x' H0}, a.now t = some (o, .done x) → Done H H0 u o' x' → IsAppend A o → IsAppend A o' →
    m H0.length ≠ k t
  ex : Explains A n H ds m

theorem Seen.init : Seen A n none ⟨FS.init, fun _ => none⟩ [] [] (fun _ => 0) (fun _ => 0) := by
  have nd : ∀ {H0 t o x}, ¬ Done [] H0 t o x := fun h => absurd h.lt (Nat.not_lt_zero _)
  refine ⟨rfl, fun d => ⟨0, ⟨[], by simp, fun _ _ => rfl, rfl⟩, rfl⟩, fun d => ⟨0, ⟨[], by simp, fun _ _ => rfl, rfl⟩, rfl⟩,
    ?_, ?_, ?_, ?_, ?_, ⟨?_, ?_, ?_, ?_, ?_⟩⟩
  · intro t o x h; cases h
  · intro t o x h; cases h
  · intro t o x H0 u o' x' h; cases h
  · intro t o x u o' x' h; cases h
  · intro t o x u o' x' H0 h; cases h
  · intro H0 t o x h; exact absurd h nd
  · intro H0 t o x h; exact absurd h nd
  · intro H0 t o x h; exact absurd h nd
  · intro H0 t o x H1 u o' x' h; exact absurd h nd
  · intro H0 t o x H1 u o' x' h; exact absurd h nd

theorem Explains.call (e : Explains A n H ds m) (t : Tid) (o : Op) : Explains A n (.call t o :: H) ds m := by
  have sh : ∀ {H0 u o' x}, Done (.call t o :: H) H0 u o' x → Done H H0 u o' x := by
    intro H0 u o' x h
    rcases done_cons h with h | ⟨h, _⟩
    · exact h
    · cases h
  exact ⟨fun h => e.right (sh h), fun h => e.past (sh h), fun h => e.future (sh h), fun h h' => e.order (sh h) (sh h'),
    fun h h' => e.places (sh h) (sh h')⟩

theorem Seen.call (s : Seen A n g a H ds k m) (h : a.now t = none) (o : Op) :
    Seen A n g { a with now := upd a.now t (some (o, .start)) } (.call t o :: H) ds k m := by
  have old : ∀ {u o' x}, upd a.now t (some (o, .start)) u = some (o', .done x) → a.now u = some (o', .done x) ∧ t ≠ u := by
    intro u o' x hu
    rcases upd_eq_some hu with ⟨_, e⟩ | ⟨ne, e⟩
    · cases e
    · exact ⟨e, fun e => ne e.symm⟩
  have sh : ∀ {H0 u o' x}, Done (.call t o :: H) H0 u o' x → Done H H0 u o' x := by
    intro H0 u o' x h
    rcases done_cons h with h | ⟨h, _⟩
    · exact h
    · cases h
  refine ⟨s.data, fun d => ?_, fun d => ?_, fun hu => s.now (old hu).1, fun hu => ?_, fun hu hd => ?_,
    fun hu hv => s.nowPlaces (old hu).1 (old hv).1, fun hu hd => s.bothPlaces (old hu).1 (sh hd), s.ex.call t o⟩
  · obtain ⟨q, T, hb⟩ := s.up d
    have := (T.upd t (some (o, .start))).2
    rw [h] at this
    refine ⟨_, this, ?_⟩
    simp only [ahead, costs, Nat.sub_zero]
    omega
  · obtain ⟨q, T, hb⟩ := s.low d
    have := (T.upd t (some (o, .start))).2
    rw [h] at this
    exact ⟨_, this, hb⟩
  · obtain ⟨h1, h2⟩ := old hu
    simp only [began, if_neg h2]
    exact s.nowPast h1
  · obtain ⟨h1, h2⟩ := old hu
    simp only [began, if_neg h2] at hd
    exact s.nowOrder h1 hd

theorem count_up (s : Seen A n g a H ds k m) (d : Slice) : ds.count d ≤ (appendedTo A H).count d := by
  obtain ⟨q, _, hb⟩ := s.up d
  rw [costs_app] at hb
  omega

theorem count_low (s : Seen A n g a H ds k m) (d : Slice) : (slicesDone A H).count d ≤ ds.count d := by
  obtain ⟨q, _, hb⟩ := s.low d
  omega

/-- A return. -/
theorem Seen.ret {x : Res} (s : Seen A n g a H ds k m) (h : a.now t = some (o, .done x)) (hp : pending H t = some o) :
    Seen A n g { a with now := upd a.now t none } (.ret t x :: H) ds k (upd m H.length (k t)) := by
  have old : ∀ {u o' x'}, upd a.now t none u = some (o', .done x') → a.now u = some (o', .done x') ∧ t ≠ u := by
    intro u o' x hu
    rcases upd_eq_some hu with ⟨_, e⟩ | ⟨ne, e⟩
    · cases e
    · exact ⟨e, fun e => ne e.symm⟩
  have keep : ∀ {H0 u o' x'}, Done H H0 u o' x' → upd m H.length (k t) H0.length = m H0.length := by
    intro H0 u o' x' hd
    exact upd_other _ _ (by have := hd.lt; omega)
  have inb : ∀ {H0 u o' x' v}, Done (began H v) H0 u o' x' → Done H H0 u o' x' := fun hd => hd.mono (began_suffix _ _)
  have kt := s.now h
  refine ⟨s.data, fun d => ?_, fun d => ?_, fun hu => s.now (old hu).1, fun hu => ?_, fun hu hd => ?_,
    fun hu hv => s.nowPlaces (old hu).1 (old hv).1, fun hu hd ha ha' => ?_, ⟨fun hd => ?_, fun hd => ?_, fun hd => ?_,
    fun hd hd' hs => ?_, fun hd hd' ha ha' hne => ?_⟩⟩
  · obtain ⟨q, T, hb⟩ := s.up d
    have := (T.upd t none).2
    rw [h] at this
    exact ⟨_, this, hb⟩
  · obtain ⟨q, T, hb⟩ := s.low d
    obtain ⟨hle, this⟩ := T.upd t none
    rw [h] at this hle
    refine ⟨_, this, ?_⟩
    simp only [behind] at hle ⊢
    simp only [slicesDone, hp]
    split
    · rename_i y d' e
      injection e with e
      subst e
      split
      · rename_i hA
        simp only [isApp, hA, true_and, List.count_cons, beq_iff_eq] at hle ⊢
        omega
      · rename_i hA
        simp only [isApp, hA, Bool.false_eq_true, false_and, if_false, Nat.sub_zero] at hle ⊢
        omega
    · rename_i hne
      have : isApp A d o = 0 := by
        cases o <;> try rfl
        exact absurd rfl (hne _ _)
      omega
  · obtain ⟨h1, h2⟩ := old hu
    simp only [began, if_neg h2]
    exact s.nowPast h1
  · obtain ⟨h1, h2⟩ := old hu
    simp only [began, if_neg h2] at hd
    rw [keep (inb hd)]
    exact s.nowOrder h1 hd
  · obtain ⟨h1, h2⟩ := old hu
    rcases done_cons hd with hd | ⟨e, rfl, hq⟩
    · rw [keep hd]
      exact s.bothPlaces h1 hd ha ha'
    · injection e with e1 e2
      subst e1
      rw [upd_same]
      rw [hp] at hq
      injection hq with hq
      subst hq
      exact s.nowPlaces h h1 ha' ha h2
  · rcases done_cons hd with hd | ⟨e, rfl, hq⟩
    · rw [keep hd]; exact s.ex.right hd
    · injection e with e1 e2
      subst e1; subst e2
      rw [hp] at hq
      injection hq with hq
      subst hq
      rw [upd_same]
      exact kt
  · rcases done_cons hd with hd | ⟨e, rfl, hq⟩
    · rw [keep hd]; exact s.ex.past hd
    · injection e with e1 e2
      subst e1
      rw [upd_same]
      exact s.nowPast h
  · rcases done_cons hd with hd | ⟨e, rfl, hq⟩
    · rw [keep hd]; exact s.ex.future hd
    · rw [List.subperm_ext_iff]
      intro d _
      refine Nat.le_trans ?_ (count_up s d)
      exact (List.take_sublist _ _).count_le _
  · rcases done_cons hd' with hd' | ⟨e, rfl, hq⟩
    · have hd2 : Done H _ _ _ _ := (⟨hs.trans ((began_suffix _ _).trans ((List.suffix_cons _ _).trans hd'.1)), hd.2⟩)
      rw [keep hd', keep hd2]
      exact s.ex.order hd2 hd' hs
    · have hd2 : Done _ _ _ _ _ := (⟨hs.trans (began_suffix _ _), hd.2⟩)
      injection e with e1 e2
      subst e1
      rw [hp] at hq
      injection hq with hq
      subst hq
      rw [keep hd2, upd_same]
      exact s.nowOrder h ⟨hs, hd.2⟩
  · rcases done_cons hd with hd | ⟨e, rfl, hq⟩
    · rcases done_cons hd' with hd' | ⟨e', rfl, hq'⟩
      · rw [keep hd, keep hd']
        exact s.ex.places hd hd' ha ha' hne
      · injection e' with e1 e2
        subst e1
        rw [hp] at hq'
        injection hq' with hq'
        subst hq'
        rw [keep hd, upd_same]
        exact s.bothPlaces h hd ha' ha
    · rcases done_cons hd' with hd' | ⟨e', rfl, hq'⟩
      · injection e with e1 e2
        subst e1
        rw [hp] at hq
        injection hq with hq
        subst hq
        rw [keep hd', upd_same]
        exact fun e => s.bothPlaces h hd' ha ha' e.symm
      · exact absurd rfl hne

/-- A call takes effect. -/
theorem Seen.effect {g' : Option Nat} {fs : FS} {p : Phase} {es : List Slice} {x : Res} (s : Seen A n g a H ds k m) (h : a.now t = some (o, p))
    (hp : p = .start ∨ p = .checked ∧ IsSkip o) (hd : cont g' fs = content (ds ++ es))
    (he : ∀ d, es.count d = isApp A d o) (hes : IsAppend A o → es ≠ []) (hr : Right A n (ds ++ es) (ds ++ es).length o x) :
    Seen A n g' ⟨fs, upd a.now t (some (o, .done x))⟩ H (ds ++ es) (upd k t (ds ++ es).length) m := by
  have old : ∀ {u o' x'}, upd a.now t (some (o, .done x)) u = some (o', .done x') → u ≠ t → a.now u = some (o', .done x') := by
    intro u o' x' hu ne
    rw [upd_other _ _ ne] at hu
    exact hu
  have mine : ∀ {o' x'}, upd a.now t (some (o, .done x)) t = some (o', .done x') → o' = o ∧ x' = x := by
    intro o' x' hu
    rw [upd_same] at hu
    injection hu with hu
    injection hu with h1 h2
    injection h2 with h2
    exact ⟨h1.symm, h2.symm⟩
  have bound : ∀ {H0 u o' x'}, Done H H0 u o' x' → m H0.length ≤ ds.length := fun hd => (s.ex.right hd).1
  have grow : IsAppend A o → ds.length < (ds ++ es).length := by
    intro ha
    have := List.length_pos_iff.mpr (hes ha)
    rw [List.length_append]; omega
  have up : ds.length ≤ (ds ++ es).length := by rw [List.length_append]; omega
  have ah : ∀ d, ahead (isApp A d) (some (o, p)) = isApp A d o ∧ behind (isApp A d) (some (o, p)) = 0 := by
    intro d
    rcases hp with rfl | ⟨rfl, ho⟩
    · exact ⟨rfl, rfl⟩
    · cases o <;> first | exact ho.elim | exact ⟨rfl, rfl⟩
  refine ⟨hd, fun d => ?_, fun d => ?_, ?_, ?_, ?_, ?_, ?_, ⟨?_, ?_, ?_, s.ex.order, s.ex.places⟩⟩
  · obtain ⟨q, T, hb⟩ := s.up d
    obtain ⟨hle, this⟩ := T.upd t (some (o, .done x))
    rw [h, (ah d).1] at this hle
    refine ⟨_, this, ?_⟩
    simp only [ahead, List.count_append, he]
    omega
  · obtain ⟨q, T, hb⟩ := s.low d
    obtain ⟨hle, this⟩ := T.upd t (some (o, .done x))
    rw [h, (ah d).2] at this
    refine ⟨_, this, ?_⟩
    simp only [behind, List.count_append, he]
    omega
  · intro u o' x' hu
    by_cases e : u = t
    · subst e
      obtain ⟨rfl, rfl⟩ := mine hu
      rw [upd_same]
      exact ⟨Nat.le_refl _, hr⟩
    · rw [upd_other _ _ e]
      have := s.now (old hu e)
      exact ⟨Nat.le_trans this.1 up, this.2.mono this.1 es⟩
  · intro u o' x' hu
    by_cases e : u = t
    · subst e
      rw [upd_same, List.take_length, List.subperm_ext_iff]
      intro d _
      refine Nat.le_trans (slicesDone_le (began_suffix H u) d) (Nat.le_trans (count_low s d) ?_)
      rw [List.count_append]; omega
    · rw [upd_other _ _ e, List.take_append_of_le_length (s.now (old hu e)).1]
      exact s.nowPast (old hu e)
  · intro u o' x' H0 v o2 x2 hu hd'
    by_cases e : u = t
    · subst e
      obtain ⟨rfl, rfl⟩ := mine hu
      rw [upd_same]
      have := bound (hd'.mono (began_suffix _ _))
      refine ⟨Nat.le_trans this up, fun ha => Nat.lt_of_le_of_lt this (grow ha)⟩
    · rw [upd_other _ _ e]
      exact s.nowOrder (old hu e) hd'
  · intro u o' x' v o2 x2 hu hv ha ha2 ne
    by_cases e : u = t
    · subst e
      obtain ⟨rfl, rfl⟩ := mine hu
      have ev : v ≠ u := fun e => ne e.symm
      rw [upd_same, upd_other _ _ ev]
      have := (s.now (old hv ev)).1
      have := grow ha
      omega
    · rw [upd_other _ _ e]
      by_cases e' : v = t
      · subst e'
        obtain ⟨rfl, rfl⟩ := mine hv
        rw [upd_same]
        have := (s.now (old hu e)).1
        have := grow ha2
        omega
      · rw [upd_other _ _ e']
        exact s.nowPlaces (old hu e) (old hv e') ha ha2 ne
  · intro u o' x' v o2 x2 H0 hu hd' ha ha2
    by_cases e : u = t
    · subst e
      obtain ⟨rfl, rfl⟩ := mine hu
      rw [upd_same]
      have := bound hd'
      have := grow ha
      omega
    · rw [upd_other _ _ e]
      exact s.bothPlaces (old hu e) hd' ha ha2
  · intro H0 u o' x' hd'
    have := s.ex.right hd'
    exact ⟨Nat.le_trans this.1 up, this.2.mono this.1 es⟩
  · intro H0 u o' x' hd'
    rw [List.take_append_of_le_length (bound hd')]
    exact s.ex.past hd'
  · intro H0 u o' x' hd'
    rw [List.take_append_of_le_length (bound hd')]
    exact s.ex.future hd'

/-- `Skip` looks at the size. -/
theorem Seen.check {g' : Option Nat} (s : Seen A n g a H ds k m) (h : a.now t = some (o, .start)) (ho : IsSkip o)
    (hc : cont g' a.fs = cont g a.fs) : Seen A n g' ⟨a.fs, upd a.now t (some (o, .checked))⟩ H ds k m := by
  have old : ∀ {u o' x}, upd a.now t (some (o, .checked)) u = some (o', .done x) → a.now u = some (o', .done x) := by
    intro u o' x hu
    rcases upd_eq_some hu with ⟨_, e⟩ | ⟨ne, e⟩
    · cases e
    · exact e
  have z : ∀ d, isApp A d o = 0 := by
    intro d
    cases o <;> first | exact ho.elim | rfl
  refine ⟨hc.trans s.data, fun d => ?_, fun d => ?_, fun hu => s.now (old hu), fun hu => s.nowPast (old hu),
    fun hu hd => s.nowOrder (old hu) hd, fun hu hv => s.nowPlaces (old hu) (old hv), fun hu hd => s.bothPlaces (old hu) hd, s.ex⟩
  · obtain ⟨q, T, hb⟩ := s.up d
    have := (T.upd t (some (o, .checked))).2
    rw [h] at this
    simp only [ahead, z] at this
    exact ⟨_, this, hb⟩
  · obtain ⟨q, T, hb⟩ := s.low d
    have := (T.upd t (some (o, .checked))).2
    rw [h] at this
    exact ⟨_, this, hb⟩

/-- After a moment of a call of thread `t`: the slices `ds` and perhaps more. -/
def Grown (A : Nat → Bool) (n : Bytes) (g : Option Nat) (a : Atom) (H : Hist) (t : Tid) (o : Op) (ds : List Slice) (k : Tid → Nat)
    (m : Nat → Nat) (fs : FS) (p' : Phase) : Prop :=
  ∃ es k', Seen A n g ⟨fs, upd a.now t (some (o, p'))⟩ H (ds ++ es) k' m ∧ (∀ u, u ≠ t → k' u = k u) ∧
    (∀ x, p' = .done x → k' t = (ds ++ es).length) ∧ (¬ IsAppend A o → es = [])

theorem adds_count (A : Nat → Bool) (o : Op) (d : Slice) : (adds A o).count d = isApp A d o := by
  cases o with
  | append h d' =>
    simp only [adds, isApp]
    cases A h
    · simp
    · simp [List.count_singleton]
  | _ => rfl

theorem adds_some (h : IsAppend A o) : adds A o ≠ [] := by
  cases o with
  | append y d =>
    have h : A y = true := h
    simp only [adds, if_pos h]
    exact fun e => by cases e
  | _ => exact h.elim

theorem adds_none (h : ¬ IsAppend A o) : adds A o = [] := by
  cases o with
  | append y d =>
    have h : ¬ A y = true := h
    simp only [adds, if_neg h]
  | _ => rfl

theorem Seen.moment {g' : Option Nat} {fs : FS} {p p' : Phase} (s : Seen A n g a H ds k m) (i : Owned a H n A g) (r : Atomic a H)
    (ap : AllPermitted H) (hd : Disciplined H) (h : a.now t = some (o, p)) (mm : Moment o a.fs p fs p')
    (hc : cont g' fs = cont g a.fs ++ content (adds A o)) : Grown A n g' a H t o ds k m fs p' := by
  have hpd : ∀ x, p ≠ .done x := by rintro x rfl; cases mm
  have ha := hd a H (List.suffix_refl _) r t o p h hpd
  have eff : ∀ {fs : FS} {x : Res}, (p = .start ∨ p = .checked ∧ IsSkip o) → cont g' fs = cont g a.fs ++ content (adds A o) →
      Right A n (ds ++ adds A o) (ds ++ adds A o).length o x → Grown A n g' a H t o ds k m fs (.done x) := by
    intro fs x hp hc hr
    exact ⟨adds A o, _, s.effect h hp (by rw [hc, s.data, content_append]) (adds_count A o) adds_some hr, fun u hu => upd_other _ _ hu,
      fun _ _ => upd_same _ _ _, adds_none⟩
  cases mm with
  | beyond ho hx hh => subst ho; exact eff (.inl rfl) hc trivial
  | check ho hx hh =>
    subst ho
    refine ⟨[], k, ?_, fun _ _ => rfl, nofun, fun _ => rfl⟩
    rw [List.append_nil]
    refine s.check h trivial ?_
    rw [hc, show adds A (.seqSkip _ _) = [] from rfl, show content [] = [] from rfl, List.append_nil]
  | move ho hx hh => subst ho; exact eff (.inr ⟨rfl, trivial⟩) hc trivial
  | @op r0 hs hans =>
    refine eff (.inl rfl) hc ?_
    cases o with
    | append y d =>
      intro hA
      refine ⟨hans, ?_, ?_⟩
      · simp [adds, hA]
      · simp [adds, hA]
    | randRead y off c =>
      intro hA
      obtain ⟨j, hj⟩ := ha
      have hg : g = some j := (i.used r ap h (y := y) rfl hj).mpr hA
      subst hg
      simp only [FS.Answer, hj] at hans
      rw [List.take_length, show adds A (.randRead y off c) = [] from rfl, List.append_nil, ← s.data]
      exact hans
    | getFileSize f =>
      rintro rfl
      simp only [FS.Answer] at hans
      rw [List.take_length, show adds A (.getFileSize f) = [] from rfl, List.append_nil]
      split at hans
      · exact .inl hans
      · rename_i j hj
        have hg : g = some j := (i.name f j hj).2.mpr rfl
        subst hg
        right
        rw [hans, ← s.data]
        rfl
    | _ => trivial

end MemConc
end Lsmdb
