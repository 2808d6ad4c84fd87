import Verif.Proof.MemReads1

/-!
# Readers of a shared file: sequential files
-/

namespace Lsmdb
namespace MemConc
open MemEnv Spec
open CacheConc (Tid)

variable {H : Hist} {t : Tid} {o : Op} {a : Atom} {ds : List Slice} {k : Tid → Nat} {m : Nat → Nat} {x : Nat}
  {A : Nat → Bool} {n : Bytes} {g : Option Nat}

/-- At most one call for a `SequentialFile` is in progress. -/
theorem AllPermitted.alone {t u : Tid} {o o' : Op} {h : Nat} : ∀ {H}, AllPermitted H → pending H t = some o → pending H u = some o' →
    target o = some h → target o' = some h → ¬ Shared o → ¬ Shared o' → t = u := by
  intro H
  induction H with
  | nil => intro _ h; cases h
  | cons e H ih =>
    intro ap hp hq ht hu hs hs'
    cases e with
    | call v o2 =>
      have pm := ap v o2 H (List.suffix_refl _)
      simp only [pending] at hp hq
      split at hp <;> split at hq
      · rename_i e1 e2; exact e1.symm.trans e2
      · injection hp with hp
        subst hp
        exact absurd (pm.shared h ht u o' hq hu).1 hs
      · injection hq with hq
        subst hq
        exact absurd (pm.shared h hu t o hp ht).1 hs'
      · exact ih ap.tail hp hq ht hu hs hs'
    | ret v y =>
      simp only [pending] at hp hq
      split at hp
      · cases hp
      · split at hq
        · cases hq
        · exact ih ap.tail hp hq ht hu hs hs'

/-- What other calls do to a file object. -/
theorem Moment.other {fs fs' : FS} {p p' : Phase} (mm : Moment o fs p fs' p') (h1 : ∀ n, o ≠ .seqRead x n) (h2 : ∀ n, o ≠ .seqSkip x n) :
    fs.opened ≤ fs'.opened ∧ (fs'.obj x = fs.obj x ∨ fs'.obj x = none ∨
      (x = fs.opened ∧ fs'.opened = fs.opened + 1 ∧ ∀ i q, fs'.obj x = some (.seq i q) → q = 0)) := by
  have same : fs.opened ≤ fs.opened ∧ (fs.obj x = fs.obj x ∨ fs.obj x = none ∨
      (x = fs.opened ∧ fs.opened = fs.opened + 1 ∧ ∀ i q, fs.obj x = some (.seq i q) → q = 0)) := ⟨Nat.le_refl _, .inl rfl⟩
  have new : ∀ {g : FS} {y : Obj}, g.opened = fs.opened → g.obj = fs.obj → (∀ i q, y = .seq i q → q = 0) →
      fs.opened ≤ (g.withObj y).opened ∧ ((g.withObj y).obj x = fs.obj x ∨ (g.withObj y).obj x = none ∨
      (x = fs.opened ∧ (g.withObj y).opened = fs.opened + 1 ∧ ∀ i q, (g.withObj y).obj x = some (.seq i q) → q = 0)) := by
    intro g y g1 g2 hy
    refine ⟨by show _ ≤ g.opened + 1; omega, ?_⟩
    by_cases e : x = fs.opened
    · refine .inr (.inr ⟨e, by show g.opened + 1 = _; omega, fun i q hq => ?_⟩)
      have hq : upd g.obj g.opened (some y) x = some (.seq i q) := hq
      rw [g1, e, upd_same] at hq
      injection hq with hq
      exact hy i q hq
    · left
      show upd g.obj g.opened (some y) x = _
      rw [g1, upd_other _ _ e, g2]
  have one : ∀ {y : Nat} {z : Option Obj}, x ≠ y → upd fs.obj y z x = fs.obj x := fun e => upd_other _ _ e
  cases mm with
  | beyond => exact same
  | check => exact same
  | move ho hx hh =>
    refine ⟨Nat.le_refl _, .inl (one ?_)⟩
    rintro rfl
    exact h2 _ ho
  | op hs ha =>
    cases o with
    | newSequential n =>
      simp only [FS.next]
      split
      · exact same
      · exact new rfl rfl (fun i q e => by injection e with _ e; exact e.symm)
    | newRandomAccess n =>
      simp only [FS.next]
      split
      · exact same
      · exact new rfl rfl nofun
    | newWritable n =>
      simp only [FS.next]
      split <;> exact new rfl rfl nofun
    | newAppendable n =>
      simp only [FS.next]
      split <;> exact new rfl rfl nofun
    | renameFile y z =>
      simp only [FS.next]
      split
      · exact same
      · split <;> exact same
    | seqRead y n =>
      simp only [FS.next]
      have e : x ≠ y := by rintro rfl; exact h1 n rfl
      split
      · split
        · exact ⟨Nat.le_refl _, .inl (one e)⟩
        · exact same
      · exact same
    | seqSkip y n => exact absurd trivial hs
    | append y d => simp only [FS.next]; split <;> exact same
    | delete y =>
      simp only [FS.next]
      by_cases e : x = y
      · subst e; exact ⟨Nat.le_refl _, .inr (.inl (upd_same _ _ _))⟩
      · exact ⟨Nat.le_refl _, .inl (one e)⟩
    | _ => exact same

/-- The position of a `SequentialFile` for which `Skip` is not called. -/
structure Tail (a : Atom) (H : Hist) (ds : List Slice) (k : Tid → Nat) (m : Nat → Nat) (x : Nat) : Prop where
  pos : ∀ {i p}, a.fs.obj x = some (.seq i p) → p ≤ (content ds).length ∧
    ((∀ t n r, a.now t ≠ some (.seqRead x n, .done r)) → p = (streamed H x).length)
  busy : ∀ {t n r}, a.now t = some (.seqRead x n, .done r) → ∃ b, r = .data .ok (some b) ∧
    b = sub (content (ds.take (k t))) (streamed H x).length n ∧
    ∀ i p, a.fs.obj x = some (.seq i p) → p = (streamed H x).length + b.length
  fresh : a.fs.opened ≤ x → streamed H x = [] ∧ ∀ t n r, a.now t ≠ some (.seqRead x n, .done r)
  ret : ∀ {H0 t n r}, Done H H0 t (.seqRead x n) r → r = .data .ok (some (sub (content (ds.take (m H0.length))) (streamed H0 x).length n))

theorem Tail.init : Tail ⟨FS.init, fun _ => none⟩ [] [] (fun _ => 0) (fun _ => 0) x :=
  ⟨nofun, nofun, fun _ => ⟨rfl, nofun⟩, fun h => absurd h.lt (Nat.not_lt_zero _)⟩

theorem Tail.call (T : Tail a H ds k m x) (h : a.now t = none) (o : Op) :
    Tail { a with now := upd a.now t (some (o, .start)) } (.call t o :: H) ds k m x := by
  have old : ∀ {u n r}, upd a.now t (some (o, .start)) u = some (.seqRead x n, .done r) → a.now u = some (.seqRead x n, .done r) := by
    intro u n r hu
    rcases upd_eq_some hu with ⟨_, e⟩ | ⟨ne, e⟩
    · cases e
    · exact e
  have new : ∀ {u n r}, a.now u = some (.seqRead x n, .done r) → upd a.now t (some (o, .start)) u = some (.seqRead x n, .done r) := by
    intro u n r hu
    rw [upd_other _ _ (by rintro rfl; rw [h] at hu; cases hu)]
    exact hu
  refine ⟨fun hx => ⟨(T.pos hx).1, fun hn => (T.pos hx).2 fun u n r hu => hn u n r (new hu)⟩, fun hu => T.busy (old hu),
    fun hx => ⟨(T.fresh hx).1, fun u n r hu => (T.fresh hx).2 u n r (old hu)⟩, fun hd => ?_⟩
  rcases done_cons hd with hd | ⟨e, _⟩
  · exact T.ret hd
  · cases e

theorem streamed_ret_other {r : Res} (hp : pending H t = some o) (h : ∀ n, o ≠ .seqRead x n) : streamed (.ret t r :: H) x = streamed H x := by
  simp only [streamed, hp]
  split
  · rename_i e
    injection e with e
    rw [if_neg]
    rintro rfl
    exact h _ e
  · rfl

theorem Tail.back {r : Res} (T : Tail a H ds k m x) (s : Seen A n g a H ds k m) (ap : AllPermitted H) (hr : Atomic a H)
    (h : a.now t = some (o, .done r)) :
    Tail { a with now := upd a.now t none } (.ret t r :: H) ds k (upd m H.length (k t)) x := by
  have hp : pending H t = some o := by rw [hr.pend, h]; rfl
  have keep : ∀ {H0 u o' x'}, Done H H0 u o' x' → upd m H.length (k t) H0.length = m H0.length := by
    intro H0 u o' x' hd
    exact upd_other _ _ (by have := hd.lt; omega)
  have old : ∀ {u n r'}, upd a.now t none u = some (.seqRead x n, .done r') → a.now u = some (.seqRead x n, .done r') ∧ u ≠ t := by
    intro u n r' hu
    rcases upd_eq_some hu with ⟨_, e⟩ | ⟨ne, e⟩
    · cases e
    · exact ⟨e, ne⟩
  by_cases hq : ∃ n, o = .seqRead x n
  · obtain ⟨n, rfl⟩ := hq
    obtain ⟨b, rfl, hb, hpos⟩ := T.busy h
    have hst : streamed (.ret t (.data .ok (some b)) :: H) x = streamed H x ++ b := by
      simp only [streamed, hp, if_pos]
    have none : ∀ u n r', upd a.now t none u ≠ some (.seqRead x n, .done r') := by
      intro u n' r' hu
      obtain ⟨e, ne⟩ := old hu
      exact ne (ap.alone (h := x) (o := .seqRead x n') (by rw [hr.pend, e]; rfl) hp rfl rfl (fun h => h) (fun h => h))
    refine ⟨fun hx => ⟨(T.pos hx).1, fun _ => ?_⟩, fun hu => absurd hu (none _ _ _), fun hx => ?_, fun hd => ?_⟩
    · rw [hst, List.length_append]; exact hpos _ _ hx
    · exact absurd h ((T.fresh hx).2 t n _)
    · rcases done_cons hd with hd | ⟨e, rfl, hq⟩
      · rw [keep hd]; exact T.ret hd
      · injection e with e1 e2
        subst e1; subst e2
        rw [hp] at hq
        injection hq with hq
        injection hq with _ hq
        subst hq
        rw [upd_same, hb]
  · have hq : ∀ n, o ≠ .seqRead x n := fun n e => hq ⟨n, e⟩
    have hst := streamed_ret_other (r := r) hp hq
    have new : ∀ {u n r'}, a.now u = some (.seqRead x n, .done r') → upd a.now t none u = some (.seqRead x n, .done r') := by
      intro u n r' hu
      rw [upd_other _ _ (by rintro rfl; rw [h] at hu; injection hu with hu; injection hu with hu; exact hq _ hu)]
      exact hu
    refine ⟨fun hx => ⟨(T.pos hx).1, fun hn => ?_⟩, fun hu => ?_, fun hx => ?_, fun hd => ?_⟩
    · rw [hst]; exact (T.pos hx).2 fun u n r' hu => hn u n r' (new hu)
    · rw [hst]; exact T.busy (old hu).1
    · rw [hst]; exact ⟨(T.fresh hx).1, fun u n r' hu => (T.fresh hx).2 u n r' (old hu).1⟩
    · rcases done_cons hd with hd | ⟨e, rfl, hq'⟩
      · rw [keep hd]; exact T.ret hd
      · injection e with e1 e2
        subst e1
        rw [hp] at hq'
        injection hq' with hq'
        exact absurd hq' (hq _)

theorem content_le (ds es : List Slice) : (content ds).length ≤ (content (ds ++ es)).length := by
  rw [content_append, List.length_append]; omega

theorem sub_length_le (c : Bytes) (p n : Nat) (h : p ≤ c.length) : p + (sub c p n).length ≤ c.length := by
  unfold sub
  rw [List.length_take, List.length_drop]
  omega

theorem Tail.moment {fs : FS} {p p' : Phase} {es : List Slice} {k' : Tid → Nat} (T : Tail a H ds k m x) (s : Seen A n g a H ds k m)
    (i : Owned a H n A g) (hA : A x = true) (ap : AllPermitted H) (r : Atomic a H) (hd : Disciplined H) (h : a.now t = some (o, p))
    (mm : Moment o a.fs p fs p') (hk : ∀ u, u ≠ t → k' u = k u) (hkt : ∀ x, p' = .done x → k' t = (ds ++ es).length)
    (hes : ¬ IsAppend A o → es = []) (hns : ∀ u n, Ev.call u (.seqSkip x n) ∉ H) :
    Tail ⟨fs, upd a.now t (some (o, p'))⟩ H (ds ++ es) k' m x := by
  have hp : pending H t = some o := by rw [r.pend, h]; rfl
  have hc : Ev.call t o ∈ H := pending_mem hp
  have hpd : ∀ x, p ≠ .done x := by rintro x rfl; cases mm
  have ha := hd a H (List.suffix_refl _) r t o p h hpd
  have hret : ∀ {H0 t n r}, Done H H0 t (.seqRead x n) r →
      r = .data .ok (some (sub (content ((ds ++ es).take (m H0.length))) (streamed H0 x).length n)) := by
    intro H0 t n r hd'
    rw [List.take_append_of_le_length (s.ex.right hd').1]
    exact T.ret hd'
  by_cases hq : ∃ n, o = .seqRead x n
  · obtain ⟨n, rfl⟩ := hq
    have := hes (fun h => h)
    subst this
    rw [List.append_nil] at hkt hret ⊢
    have none : ∀ u n r', a.now u ≠ some (.seqRead x n, .done r') := by
      intro u n' r' hu
      have e : t = u := ap.alone (h := x) hp (o' := .seqRead x n') (by rw [r.pend, hu]; rfl) rfl rfl (fun h => h) (fun h => h)
      subst e
      rw [h] at hu
      injection hu with hu
      injection hu with _ hu
      exact hpd _ hu
    cases mm with
    | beyond ho => cases ho
    | check ho => cases ho
    | move ho => cases ho
    | @op r0 hs hans =>
      obtain ⟨j, pos, hj⟩ := ha
      have hg : g = some j := (i.used r ap h (y := x) rfl hj).mpr hA
      subst hg
      have hdata : a.fs.data j = content ds := s.data
      obtain ⟨hp1, hp2⟩ := T.pos hj
      have hp2 := hp2 none
      simp only [FS.Answer, hj, FS.readAnswer, hdata, if_pos hp1] at hans
      simp only [FS.next, hj, hdata, if_pos hp1]
      refine ⟨?_, ?_, ?_, hret⟩
      · intro i' q hx
        have hx : upd a.fs.obj x (some (.seq j (pos + (sub (content ds) pos n).length))) x = some (.seq i' q) := hx
        rw [upd_same] at hx
        injection hx with hx
        injection hx with _ hx
        subst hx
        exact ⟨sub_length_le _ _ _ hp1, fun hn => absurd (upd_same _ _ _) (hn t n r0)⟩
      · intro u n' r' hu
        rcases upd_eq_some hu with ⟨rfl, e⟩ | ⟨ne, e⟩
        · injection e with e
          injection e with e1 e2
          injection e1 with _ e1
          injection e2 with e2
          subst e1; subst e2
          refine ⟨_, hans, ?_, ?_⟩
          · rw [hkt _ rfl, List.take_length, hp2]
          · intro i' q hx
            have hx : upd a.fs.obj x (some (.seq j (pos + (sub (content ds) pos n).length))) x = some (.seq i' q) := hx
            rw [upd_same] at hx
            injection hx with hx
            injection hx with _ hx
            rw [← hx, ← hp2]
        · exact absurd e (none _ _ _)
      · intro hx
        obtain ⟨κ, og⟩ := r.origin ap
        have := (og.obj x _ hj).1
        have hx : a.fs.opened ≤ x := hx
        omega
  · have hq : ∀ n, o ≠ .seqRead x n := fun n e => hq ⟨n, e⟩
    have hsk : ∀ n, o ≠ .seqSkip x n := by
      rintro n rfl
      exact hns _ _ hc
    obtain ⟨ho, hobj⟩ := mm.other hq hsk
    have old : ∀ {u n r'}, upd a.now t (some (o, p')) u = some (.seqRead x n, .done r') → a.now u = some (.seqRead x n, .done r') ∧ u ≠ t := by
      intro u n r' hu
      rcases upd_eq_some hu with ⟨_, e⟩ | ⟨ne, e⟩
      · injection e with e
        injection e with e _
        exact absurd e (hq _)
      · exact ⟨e, ne⟩
    have new : ∀ {u n r'}, a.now u = some (.seqRead x n, .done r') → upd a.now t (some (o, p')) u = some (.seqRead x n, .done r') := by
      intro u n r' hu
      rw [upd_other _ _ (by rintro rfl; rw [h] at hu; injection hu with hu; injection hu with hu; exact hq _ hu)]
      exact hu
    refine ⟨?_, ?_, ?_, hret⟩
    · intro i' q hx
      have hx : fs.obj x = some (.seq i' q) := hx
      rcases hobj with e | e | ⟨e1, e2, e3⟩
      · rw [e] at hx
        exact ⟨Nat.le_trans (T.pos hx).1 (content_le _ _), fun hn => (T.pos hx).2 fun u n r' hu => hn u n r' (new hu)⟩
      · rw [e] at hx; cases hx
      · have := e3 _ _ hx
        subst this
        refine ⟨Nat.zero_le _, fun _ => ?_⟩
        rw [(T.fresh (by omega)).1]; rfl
    · intro u n r' hu
      obtain ⟨hu, ne⟩ := old hu
      obtain ⟨b, g1, g2, g3⟩ := T.busy hu
      refine ⟨b, g1, ?_, ?_⟩
      · rw [hk u ne, List.take_append_of_le_length (s.now hu).1]
        exact g2
      · intro i' q hx
        have hx : fs.obj x = some (.seq i' q) := hx
        rcases hobj with e | e | ⟨e1, e2, e3⟩
        · rw [e] at hx; exact g3 _ _ hx
        · rw [e] at hx; cases hx
        · exact absurd hu ((T.fresh (by omega)).2 _ _ _)
    · intro hx
      have hx : fs.opened ≤ x := hx
      have := T.fresh (by omega)
      exact ⟨this.1, fun u n r' hu => this.2 u n r' (old hu).1⟩

/-- All invariants hold. -/
theorem Atomic.tail (r : Atomic a H) (of : OneFile H n) (hA : Agrees A n H) (hd : Disciplined H) (ap : AllPermitted H) :
    ∃ g ds k m, Owned a H n A g ∧ Seen A n g a H ds k m ∧
      ∀ x, A x = true → (∀ u c, Ev.call u (.seqSkip x c) ∉ H) → Tail a H ds k m x := by
  induction r with
  | init => exact ⟨_, _, _, _, Owned.init, Seen.init, fun _ _ _ => Tail.init⟩
  | @call a H t o r h ih =>
    obtain ⟨g, ds, k, m, i, s, T⟩ := ih of.tail hA.tail (hd.suffix (List.suffix_cons _ _)) ap.tail
    exact ⟨g, ds, k, m, i.call h o, s.call h o, fun x hx hs => (T x hx fun u n hm => hs u n (List.mem_cons_of_mem _ hm)).call h o⟩
  | @ret a H t o y r h ih =>
    obtain ⟨g, ds, k, m, i, s, T⟩ := ih of.tail hA.tail (hd.suffix (List.suffix_cons _ _)) ap.tail
    have hp : pending H t = some o := by rw [r.pend, h]; rfl
    exact ⟨g, ds, k, _, i.back h hp hA, s.ret h hp, fun x hx hs =>
      (T x hx fun u n hm => hs u n (List.mem_cons_of_mem _ hm)).back s ap.tail r h⟩
  | @moment a H t o p p' fs r h mm ih =>
    obtain ⟨g, ds, k, m, i, s, T⟩ := ih of hA hd ap
    obtain ⟨g', i', hc, _⟩ := i.moment r ap hd of h mm
    obtain ⟨es, k', s', g1, g2, g3⟩ := s.moment i r ap hd h mm hc
    exact ⟨g', ds ++ es, k', m, i', s', fun x hx hs => (T x hx hs).moment s i hx ap r hd h mm g1 g2 g3 hs⟩

/-! ## What was read is the beginning of the file -/

theorem prefix_extend {S P C : Bytes} (hs : S <+: C) (hp : P <+: C) (n : Nat) : S ++ sub P S.length n <+: C := by
  obtain ⟨R, rfl⟩ := hs
  by_cases e : S.length ≤ P.length
  · obtain ⟨Q, hQ⟩ := hp
    have hS : P = S ++ P.drop S.length := by
      have := congrArg (List.take S.length) hQ
      rw [List.take_append_of_le_length e, List.take_append_of_le_length (Nat.le_refl _), List.take_length] at this
      rw [← this, List.length_take, Nat.min_eq_left e, List.take_append_drop]
    rw [hS, List.append_assoc] at hQ
    have hR := List.append_cancel_left hQ
    rw [List.prefix_append_right_inj]
    exact (List.take_prefix _ _).trans ⟨Q, hR⟩
  · unfold sub
    rw [List.drop_eq_nil_of_le (by omega), List.take_nil, List.append_nil]
    exact List.prefix_append _ _

theorem content_take (ds : List Slice) (j : Nat) : content (ds.take j) <+: content ds := by
  refine ⟨content (ds.drop j), ?_⟩
  rw [← content_append, List.take_append_drop]

theorem streamed_prefix (hr : ∀ H0 t n r, Done H H0 t (.seqRead x n) r →
      r = .data .ok (some (sub (content (ds.take (m H0.length))) (streamed H0 x).length n))) :
    ∀ H', H' <:+ H → streamed H' x <+: content ds := by
  intro H'
  induction H' with
  | nil => intro _; exact List.nil_prefix
  | cons e H' ih =>
    intro hs
    have ih := ih ((List.suffix_cons _ _).trans hs)
    cases e with
    | call u o => exact ih
    | ret u y =>
      cases hp : pending H' u with
      | none => simp only [streamed, hp]; exact ih
      | some o =>
        by_cases hq : ∃ n, o = .seqRead x n
        · obtain ⟨n, rfl⟩ := hq
          have := hr H' u n y ⟨hs, hp⟩
          subst this
          simp only [streamed, hp, if_pos]
          exact prefix_extend ih (content_take _ _) n
        · rw [streamed_ret_other hp fun n e => hq ⟨n, e⟩]
          exact ih

/-! ## The file objects of a name -/

theorem openedAs_ret {h : Nat} (hn : (newHandles H).Nodup) {s : St} (hr : Returned H o (.opened s (some h))) : openedAs H h = nameOf o := by
  induction H with
  | nil =>
    obtain ⟨t, H0, hs, _⟩ := hr
    have := hs.length_le; simp at this
  | cons e H ih =>
    have mem : ∀ {o'}, Returned H o' (.opened s (some h)) → h ∈ newHandles H := by
      rintro o' ⟨t, H0, hs, _⟩
      have hm : Ev.ret t (.opened s (some h)) ∈ H := hs.subset (List.mem_cons_self ..)
      clear hs hr ih hn
      induction H with
      | nil => cases hm
      | cons e' H ih =>
        rcases List.mem_cons.mp hm with rfl | hm
        · exact List.mem_cons_self ..
        · have := ih hm
          cases e' with
          | call u o2 => exact this
          | ret u y =>
            cases y with
            | opened s' h' =>
              cases h' with
              | none => exact this
              | some h' => exact List.mem_cons_of_mem _ this
            | _ => exact this
    rcases returned_cons hr with hr' | ⟨t, rfl, hp⟩
    · cases e with
      | call u o2 => exact ih hn hr'
      | ret u y =>
        cases y with
        | opened s' h' =>
          cases h' with
          | none => exact ih hn hr'
          | some h' =>
            have hn := List.nodup_cons.mp hn
            simp only [openedAs]
            rw [if_neg]
            · exact ih hn.2 hr'
            · rintro rfl
              exact hn.1 (mem hr')
        | _ => exact ih hn hr'
    · simp only [openedAs, if_pos, hp]
      rfl

theorem ofName_agrees (hn : (newHandles H).Nodup) (n : Bytes) : Agrees (ofName H n) n H := by
  intro o s h hr
  simp only [ofName, beq_iff_eq, openedAs_ret hn hr]

end MemConc
end Lsmdb
