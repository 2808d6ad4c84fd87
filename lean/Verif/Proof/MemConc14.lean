import Verif.Proof.MemConc13

/-!
# Skip without truncation
-/

namespace Lsmdb
namespace MemConc
open MemEnv Spec
open CacheConc (Tid)

variable {H : Hist} {t : Tid} {o : Op} {a : Atom} {w : World}

theorem pending_uniq_ne {t u : Tid} {o o' : Op} {h : Nat} (ne : t ≠ u) : ∀ {H}, AllPermitted H → pending H t = some o →
    pending H u = some o' → target o = some h → target o' = some h → Shared o ∧ Shared o' := by
  intro H
  induction H with
  | nil => intro _ h; cases h
  | cons e H ih =>
    intro ap hp hp' ht ht'
    cases e with
    | call v q =>
      have pm := ap v q H (List.suffix_refl _)
      simp only [pending] at hp hp'
      by_cases e : v = t
      · rw [if_pos e] at hp
        rw [if_neg (by rintro rfl; exact ne e.symm)] at hp'
        injection hp with hp
        subst hp
        exact pm.shared h ht u o' hp' ht'
      · rw [if_neg e] at hp
        by_cases e' : v = u
        · rw [if_pos e'] at hp'
          injection hp' with hp'
          subst hp'
          exact (pm.shared h ht' t o hp ht).symm
        · rw [if_neg e'] at hp'
          exact ih ap.tail hp hp' ht ht'
    | ret v x =>
      simp only [pending] at hp hp'
      by_cases e : v = t
      · rw [if_pos e] at hp; cases hp
      · rw [if_neg e] at hp
        by_cases e' : v = u
        · rw [if_pos e'] at hp'; cases hp'
        · rw [if_neg e'] at hp'
          exact ih ap.tail hp hp' ht ht'

/-- A Skip that has looked at the size has had no effect. -/
def plain : Option (Op × Phase) → Option (Op × Phase)
  | some (o, .checked) => some (o, .start)
  | x => x

theorem plain_upd (now : Tid → Option (Op × Phase)) (t : Tid) (x : Option (Op × Phase)) :
    (fun u => plain (upd now t x u)) = upd (fun u => plain (now u)) t (plain x) := by
  funext u
  by_cases e : u = t
  · subst e; rw [upd_same, upd_same]
  · rw [upd_other _ _ e, upd_other _ _ e]

/-- What another call does to the file object of a Skip and to its file. -/
theorem Moment.seq {fs fs' : FS} {p p' : Phase} (m : Moment o fs p fs' p') {x i pos : Nat} (hx : fs.obj x = some (.seq i pos))
    (hlt : x < fs.opened) (hi : i < fs.made) (ht : target o ≠ some x) (hw : ∀ n, o ≠ .newWritable n) :
    fs'.obj x = some (.seq i pos) ∧ (fs.data i).length ≤ (fs'.data i).length := by
  have wo : ∀ y, fs.opened ≠ x ∧ (fs.withObj y).obj x = some (.seq i pos) := by
    intro y
    have : x ≠ fs.opened := Nat.ne_of_lt hlt
    exact ⟨this.symm, by simp only [FS.withObj]; rw [upd_other _ _ this]; exact hx⟩
  have ob : ∀ {y : Nat} {q : Option Obj}, x ≠ y → upd fs.obj y q x = some (.seq i pos) := by
    intro y q e
    rw [upd_other _ _ e]; exact hx
  cases m with
  | beyond ho _ _ => exact ⟨hx, Nat.le_refl _⟩
  | check ho _ _ => exact ⟨hx, Nat.le_refl _⟩
  | move ho hy _ =>
    subst ho
    exact ⟨ob (by rintro rfl; exact ht rfl), Nat.le_refl _⟩
  | op hs ha =>
    cases o with
    | newSequential n => simp only [FS.next]; split; exacts [⟨hx, Nat.le_refl _⟩, ⟨(wo _).2, Nat.le_refl _⟩]
    | newRandomAccess n => simp only [FS.next]; split; exacts [⟨hx, Nat.le_refl _⟩, ⟨(wo _).2, Nat.le_refl _⟩]
    | newWritable n => exact absurd rfl (hw n)
    | newAppendable n =>
      simp only [FS.next]
      split
      · have e : i ≠ fs.made := Nat.ne_of_lt hi
        refine ⟨ob (Nat.ne_of_lt hlt), ?_⟩
        simp only [FS.withObj]
        rw [upd_other _ _ e]
      · exact ⟨(wo _).2, Nat.le_refl _⟩
    | removeFile n => exact ⟨hx, Nat.le_refl _⟩
    | renameFile y z => simp only [FS.next]; split <;> (try split) <;> exact ⟨hx, Nat.le_refl _⟩
    | seqRead y n =>
      have e : x ≠ y := by rintro rfl; exact ht rfl
      simp only [FS.next]
      split
      · split
        · exact ⟨ob e, Nat.le_refl _⟩
        · exact ⟨hx, Nat.le_refl _⟩
      · exact ⟨hx, Nat.le_refl _⟩
    | seqSkip y n => exact absurd trivial hs
    | append y d =>
      simp only [FS.next]
      split
      · rename_i j _
        refine ⟨hx, ?_⟩
        by_cases e : i = j
        · subst e; simp only [upd_same, List.length_append]; omega
        · simp only [upd_other _ _ e]; exact Nat.le_refl _
      · exact ⟨hx, Nat.le_refl _⟩
    | delete y => exact ⟨ob (by rintro rfl; exact ht rfl), Nat.le_refl _⟩
    | _ => exact ⟨hx, Nat.le_refl _⟩

/-- A Skip that has looked at the size stands inside of the file. -/
structure Inside (a : Atom) : Prop where
  name : ∀ n i, a.fs.name n = some i → i < a.fs.made
  obj : ∀ h x, a.fs.obj h = some x → h < a.fs.opened ∧ x.file < a.fs.made
  skip : ∀ t x n, a.now t = some (.seqSkip x n, .checked) → ∃ i pos, a.fs.obj x = some (.seq i pos) ∧ pos ≤ (a.fs.data i).length

theorem Moment.bounds {fs fs' : FS} {p p' : Phase} (m : Moment o fs p fs' p') (h1 : ∀ n i, fs.name n = some i → i < fs.made)
    (h2 : ∀ h x, fs.obj h = some x → h < fs.opened ∧ x.file < fs.made) :
    (∀ n i, fs'.name n = some i → i < fs'.made) ∧ ∀ h x, fs'.obj h = some x → h < fs'.opened ∧ x.file < fs'.made := by
  have seq : ∀ {x i pos pos' : Nat}, fs.obj x = some (.seq i pos) → ∀ h y, upd fs.obj x (some (.seq i pos')) h = some y →
      h < fs.opened ∧ y.file < fs.made := by
    intro x i pos pos' hx h y hy
    rcases upd_eq_some hy with ⟨e, e'⟩ | ⟨_, e⟩
    · injection e' with e'
      subst e; subst e'
      exact (h2 h _ hx :)
    · exact h2 h y e
  have newObj : ∀ {x : Obj}, x.file < fs.made → ∀ h y, (fs.withObj x).obj h = some y → h < fs.opened + 1 ∧ y.file < fs.made := by
    intro x hx h y hy
    rcases upd_eq_some hy with ⟨e, e'⟩ | ⟨_, e⟩
    · injection e' with e'
      subst e; subst e'
      exact ⟨Nat.lt_succ_self _, hx⟩
    · exact ⟨Nat.lt_succ_of_lt (h2 h y e).1, (h2 h y e).2⟩
  have newFile : ∀ {n : Bytes}, (∀ m i, upd fs.name n (some fs.made) m = some i → i < fs.made + 1) ∧
      ∀ h y, upd fs.obj fs.opened (some (Obj.wr fs.made)) h = some y → h < fs.opened + 1 ∧ y.file < fs.made + 1 := by
    intro n
    constructor
    · intro m i hi
      rcases upd_eq_some hi with ⟨_, e⟩ | ⟨_, e⟩
      · injection e with e; omega
      · exact Nat.lt_succ_of_lt (h1 m i e)
    · intro h y hy
      rcases upd_eq_some hy with ⟨e, e'⟩ | ⟨_, e⟩
      · injection e' with e'
        subst e; subst e'
        exact ⟨Nat.lt_succ_self _, Nat.lt_succ_self _⟩
      · exact ⟨Nat.lt_succ_of_lt (h2 h y e).1, Nat.lt_succ_of_lt (h2 h y e).2⟩
  cases m with
  | beyond _ _ _ => exact ⟨h1, h2⟩
  | check _ _ _ => exact ⟨h1, h2⟩
  | move _ hx _ => exact ⟨h1, seq hx⟩
  | op hs ha =>
    cases o with
    | newSequential n =>
      simp only [FS.next]; split
      · exact ⟨h1, h2⟩
      · rename_i i hi; exact ⟨h1, newObj (h1 n i hi)⟩
    | newRandomAccess n =>
      simp only [FS.next]; split
      · exact ⟨h1, h2⟩
      · rename_i i hi; exact ⟨h1, newObj (h1 n i hi)⟩
    | newWritable n =>
      simp only [FS.next]; split
      · exact newFile
      · rename_i i hi; exact ⟨h1, newObj (x := .wr i) (h1 n i hi)⟩
    | newAppendable n =>
      simp only [FS.next]; split
      · exact newFile
      · rename_i i hi; exact ⟨h1, newObj (x := .wr i) (h1 n i hi)⟩
    | removeFile n =>
      refine ⟨?_, h2⟩
      intro m i hi
      rcases upd_eq_some hi with ⟨_, e⟩ | ⟨_, e⟩
      · cases e
      · exact h1 m i e
    | renameFile x y =>
      simp only [FS.next]; split
      · exact ⟨h1, h2⟩
      · rename_i j hj
        split
        · exact ⟨h1, h2⟩
        · refine ⟨?_, h2⟩
          intro m i hi
          rcases upd_eq_some hi with ⟨_, e⟩ | ⟨_, e⟩
          · cases e
          · rcases upd_eq_some e with ⟨_, e⟩ | ⟨_, e⟩
            · injection e with e
              subst e
              exact h1 x _ hj
            · exact h1 m i e
    | seqRead x n =>
      simp only [FS.next]; split
      · rename_i i pos hx
        split
        · exact ⟨h1, seq hx⟩
        · exact ⟨h1, h2⟩
      · exact ⟨h1, h2⟩
    | seqSkip x n => exact absurd trivial hs
    | append x d => simp only [FS.next]; split <;> exact ⟨h1, h2⟩
    | delete x =>
      refine ⟨h1, ?_⟩
      intro h y hy
      rcases upd_eq_some hy with ⟨_, e⟩ | ⟨_, e⟩
      · cases e
      · exact h2 h y e
    | destroyEnv => exact ⟨by (intro n i hi; cases hi), h2⟩
    | _ => exact ⟨h1, h2⟩

theorem Apart.suffix {H' : Hist} (h : Apart H) (hs : H' <:+ H) : Apart H' := fun H'' h1 => h H'' (h1.trans hs)

theorem Atomic.strict (r : Atomic a H) (ap : AllPermitted H) (hA : Apart H) : Inside a ∧ Strict ⟨a.fs, fun t => plain (a.now t)⟩ H := by
  induction r with
  | init =>
    refine ⟨⟨?_, ?_, ?_⟩, .init⟩
    · intro n i h; cases h
    · intro h x e; cases e
    · intro t x n e; cases e
  | @call a H t o r h ih =>
    obtain ⟨i, s⟩ := ih ap.tail (hA.suffix (List.suffix_cons _ _))
    refine ⟨⟨i.name, i.obj, ?_⟩, ?_⟩
    · intro u x n hu
      rcases upd_eq_some hu with ⟨_, e⟩ | ⟨_, e⟩
      · cases e
      · exact i.skip u x n e
    · show Strict ⟨a.fs, fun u => plain (upd a.now t (some (o, .start)) u)⟩ _
      rw [plain_upd]
      exact .call s (by show plain (a.now t) = none; rw [h]; rfl)
  | @ret a H t o x r h ih =>
    obtain ⟨i, s⟩ := ih ap.tail (hA.suffix (List.suffix_cons _ _))
    refine ⟨⟨i.name, i.obj, ?_⟩, ?_⟩
    · intro u x n hu
      rcases upd_eq_some hu with ⟨_, e⟩ | ⟨_, e⟩
      · cases e
      · exact i.skip u x n e
    · show Strict ⟨a.fs, fun u => plain (upd a.now t none u)⟩ _
      rw [plain_upd]
      exact .ret (o := o) s (by show plain (a.now t) = _; rw [h]; rfl)
  | @moment a H t o p p' fs r h m ih =>
    obtain ⟨i, s⟩ := ih ap hA
    obtain ⟨b1, b2⟩ := m.bounds i.name i.obj
    constructor
    · refine ⟨b1, b2, ?_⟩
      intro u x n hu
      rcases upd_eq_some hu with ⟨_, e⟩ | ⟨ne, e⟩
      · injection e with e
        injection e with e1 e2
        subst e1; subst e2
        cases m with
        | check ho hx hh =>
          injection ho with h1 h2
          subst h1; subst h2
          exact ⟨_, _, hx, hh⟩
      · obtain ⟨j, pos, g1, g2⟩ := i.skip u x n e
        obtain ⟨g3, g4⟩ := i.obj x _ g1
        have pu : pending H u = some (.seqSkip x n) := by rw [r.pend, e]; rfl
        have pt : pending H t = some o := by rw [r.pend, h]; rfl
        obtain ⟨f1, f2⟩ := m.seq g1 g3 g4
          (fun ht => (pending_uniq_ne ne ap pu pt rfl ht).1)
          (by rintro m' rfl; exact hA H (List.suffix_refl _) u t x n m' pu pt)
        exact ⟨j, pos, f1, Nat.le_trans g2 f2⟩
    · show Strict ⟨fs, fun u => plain (upd a.now t (some (o, p')) u)⟩ H
      rw [plain_upd]
      have hs : plain (a.now t) = plain (some (o, p)) := by rw [h]
      cases m with
      | op _ ha => exact .moment s hs ha
      | @beyond x n j pos ho hx hh =>
        subst ho
        have hans : a.fs.Answer (.seqSkip x n) (.status FS.skipBeyond) := by
          simp only [FS.Answer, hx]
          rw [if_neg (by omega)]
        have := Strict.moment s hs hans
        have e : a.fs.next (.seqSkip x n) = a.fs := by
          simp only [FS.next, hx]
          rw [if_neg (by omega)]
        simp only [e] at this
        exact this
      | @check x n j pos ho hx hh =>
        subst ho
        have : upd (fun u => plain (a.now u)) t (plain (some (.seqSkip x n, .checked))) = fun u => plain (a.now u) := by
          funext u
          by_cases e : u = t
          · subst e; rw [upd_same, hs]; rfl
          · rw [upd_other _ _ e]
        rw [this]
        exact s
      | @move x n j pos pos' ho hx hh =>
        subst ho
        obtain ⟨j', pos2, g1, g2⟩ := i.skip t x n h
        rw [hx] at g1
        injection g1 with g1
        injection g1 with e1 e2
        subst e1; subst e2
        have hp := hh g2
        subst hp
        have hans : a.fs.Answer (.seqSkip x n) (.status .ok) := by
          simp only [FS.Answer, hx]
          rw [if_pos g2]
        have := Strict.moment s hs hans
        have e : a.fs.next (.seqSkip x n) = { a.fs with obj := upd a.fs.obj x (some (.seq j (min (pos + n) (a.fs.data j).length))) } := by
          simp only [FS.next, hx]
          rw [if_pos g2]
        simp only [e] at this
        exact this

end MemConc
end Lsmdb
