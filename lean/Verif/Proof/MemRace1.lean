import Verif.Spec.MemEnvRace
import Verif.Proof.MemConc14

/-!
# Which locations the statements of the in-memory Env access, and which locks are held then
-/

namespace Lsmdb
namespace MemConc
open MemEnv Spec
open CacheConc (Tid Prog)

/-- An address that was not given out yet. -/
def New (e : Env) : Loc → Prop
  | .refs i => e.files.length ≤ i
  | .content i => e.files.length ≤ i
  | .obj h => e.objs.length ≤ h
  | _ => False

/-- The object exists. -/
def There (e : Env) : Loc → Prop
  | .refs i => Live e i
  | .content i => Live e i
  | .obj h => ∃ o, e.objs[h]? = some (some o)
  | _ => True

theorem There.not_new {e : Env} {l : Loc} (h : There e l) : ¬ New e l := by
  intro n
  cases l with
  | map => exact n
  | mutex _ => exact n
  | refs i => obtain ⟨f, h⟩ := h; rw [List.getElem?_eq_none n] at h; cases h
  | content i => obtain ⟨f, h⟩ := h; rw [List.getElem?_eq_none n] at h; cases h
  | obj i => obtain ⟨f, h⟩ := h; rw [List.getElem?_eq_none n] at h; cases h

/-- What `f` may write. -/
def Out (W : Loc → Prop) (N : Prop) (e : Env) (l : Loc) : Prop := W l ∨ N ∧ New e l

/-- Statement `f` reads at most `R` and writes at most `W`, which is part of `R`, and, if `N`, new addresses. -/
structure Foot {β : Type} (R W : Loc → Prop) (N : Prop) (f : Env → M (Env × β)) : Prop where
  frame : ∀ {e e' b l}, f e = .ok (e', b) → ¬ Out W N e l → valueAt l e' = valueAt l e
  ok : ∀ {e1 e2 e1' b}, memory.shape e1 = memory.shape e2 → (∀ l, R l → valueAt l e1 = valueAt l e2) → f e1 = .ok (e1', b) →
    ∃ e2', f e2 = .ok (e2', b) ∧ memory.shape e2' = memory.shape e1' ∧ ∀ l, Out W N e1 l → valueAt l e2' = valueAt l e1'
  err : ∀ {e1 e2 x}, memory.shape e1 = memory.shape e2 → (∀ l, R l → valueAt l e1 = valueAt l e2) → f e1 = .error x → f e2 = .error x
  sub : ∀ l, W l → R l
  there : ∀ {e e' b l}, f e = .ok (e', b) → R l → There e l

theorem New.shape {e e' : Env} {l : Loc} (h : memory.shape e' = memory.shape e) : New e l ↔ New e' l := by
  have h1 : e'.files.length = e.files.length := congrArg Prod.fst h
  have h2 : e'.objs.length = e.objs.length := congrArg Prod.snd h
  cases l <;> simp only [New, h1, h2]

theorem Foot.writes {β : Type} {R W : Loc → Prop} {N : Prop} {f : Env → M (Env × β)} (F : Foot R W N f) {l : Loc} {e : Env}
    (h : Race.Writes memory f l e) : Out W N e l := by
  obtain ⟨e1, e2, b, ho, hf, hne⟩ := h
  apply Classical.byContradiction
  intro hn
  refine hne (F.frame hf ?_)
  rintro (h | ⟨h1, h2⟩)
  · exact hn (.inl h)
  · exact hn (.inr ⟨h1, (New.shape ho.1).2 h2⟩)

theorem Foot.reads {β : Type} {R W : Loc → Prop} {N : Prop} {f : Env → M (Env × β)} (F : Foot R W N f) {l : Loc} {e : Env}
    (h : Race.Reads memory f l e) : R l := by
  obtain ⟨e1, ho, hne⟩ := h
  apply Classical.byContradiction
  intro hn
  have hR : ∀ l', R l' → valueAt l' e = valueAt l' e1 := fun l' h' => (ho.2 l' (by rintro rfl; exact hn h')).symm
  refine hne ?_
  cases hf : f e with
  | error x => rw [F.err ho.1.symm hR hf]; rfl
  | ok r =>
    obtain ⟨e', b⟩ := r
    obtain ⟨e1', h1, h2, h3⟩ := F.ok ho.1.symm hR hf
    rw [h1]
    refine ⟨rfl, h2, fun l' hl' => ?_⟩
    by_cases hw : Out W N e l'
    · exact h3 l' hw
    · have hw1 : ¬ Out W N e1 l' := by
        rintro (h | ⟨a, b⟩)
        · exact hw (.inl h)
        · exact hw (.inr ⟨a, (New.shape ho.1).2 b⟩)
      show valueAt l' e1' = valueAt l' e'
      rw [F.frame h1 hw1, F.frame hf hw]
      exact ho.2 l' hl'

/-! ## The statements -/

def none' : Loc → Prop := fun _ => False

def only (l : Loc) : Loc → Prop := fun l' => l' = l

/-- Nothing is accessed. -/
theorem foot_none {β : Type} (f : Unit → M β) : Foot none' none' False (fun e => (f ()).map fun b => (e, b)) := by
  cases h : f () with
  | error x => exact ⟨fun h => (nomatch h), fun _ _ h => (nomatch h), fun _ _ h => h, fun _ h => h, fun h => (nomatch h)⟩
  | ok b =>
    refine ⟨fun h _ => ?_, fun {e1 e2 e1' b'} hs _ h => ?_, fun _ _ h => (nomatch h), fun _ h => h, fun _ h => h.elim⟩
    · injection h with h; injection h with h _; rw [h]
    · injection h with h
      injection h with h1 h2
      subst h1; subst h2
      exact ⟨e2, rfl, hs.symm, fun l h => h.elim (fun h => h.elim) (fun h => h.1.elim)⟩

/-- A statement on the map. -/
theorem foot_map {β : Type} (g : FileMap → FileMap × β) :
    Foot (only .map) (only .map) False (fun e => .ok ({ e with map := (g e.map).1 }, (g e.map).2)) := by
  refine ⟨fun {e e' b l} h hn => ?_, fun {e1 e2 e1' b'} hs hR h => ?_, fun _ _ h => (nomatch h), fun _ h => h, fun _ h => by cases h; trivial⟩
  · injection h with h
    injection h with h _
    subst h
    cases l with
    | map => exact absurd (.inl rfl) hn
    | _ => rfl
  · have hm : e1.map = e2.map := by have := hR .map rfl; injection this
    injection h with h
    injection h with h1 h2
    subst h1; subst h2
    refine ⟨{ e2 with map := (g e2.map).1 }, by rw [hm], hs.symm, fun l h => ?_⟩
    · rcases h with h | h
      · cases h; show Val.map _ = Val.map _; rw [hm]
      · exact h.1.elim
    

theorem fileAt_shape {e1 e2 : Env} {i : Nat} (hs : memory.shape e1 = memory.shape e2) (h : (fileAt e1 i).isSome = (fileAt e2 i).isSome) :
    (∃ x, getFile e1 (some i) = .error x ∧ getFile e2 (some i) = .error x) ∨
    ∃ f1 f2, getFile e1 (some i) = .ok (i, f1) ∧ getFile e2 (some i) = .ok (i, f2) ∧ fileAt e1 i = some f1 ∧ fileAt e2 i = some f2 := by
  have hl : e1.files.length = e2.files.length := congrArg Prod.fst hs
  unfold fileAt at h ⊢
  unfold getFile
  dsimp only []
  by_cases hi : i < e1.files.length
  · rw [List.getElem?_eq_getElem hi, List.getElem?_eq_getElem (hl ▸ hi)] at *
    generalize e1.files[i] = a at *
    generalize e2.files[i] = b at *
    cases a <;> cases b
    · exact .inl ⟨_, rfl, rfl⟩
    · cases h
    · cases h
    · exact .inr ⟨_, _, rfl, rfl, rfl, rfl⟩
  · rw [List.getElem?_eq_none (by omega), List.getElem?_eq_none (by omega)]
    exact .inl ⟨_, rfl, rfl⟩

theorem getFile_fileAt {e : Env} {i j : Nat} {f : FileState} (h : getFile e (some i) = .ok (j, f)) : j = i ∧ fileAt e i = some f := by
  unfold getFile at h
  unfold fileAt
  dsimp only [] at h
  split at h <;> try (cases h; done)
  next a => injection h with h; injection h with h1 h2; subst h1; subst h2; rw [a]; exact ⟨rfl, rfl⟩

theorem fileAt_setFile {e : Env} {i j : Nat} {f g : FileState} (h : fileAt e i = some f) :
    fileAt (setFile e i g) j = if j = i then some g else fileAt e j := by
  unfold fileAt at *
  have hi : i < e.files.length := by
    by_contra hn
    rw [List.getElem?_eq_none (by omega)] at h
    cases h
  simp only [setFile, List.getElem?_set]
  by_cases hj : j = i
  · subst hj; simp [hi]
  · simp [hj, Ne.symm hj]

theorem live_fileAt {e : Env} {i : Nat} {f : FileState} (h : fileAt e i = some f) : Live e i := by
  unfold fileAt at h
  cases hx : e.files[i]? with
  | none => rw [hx] at h; cases h
  | some x => rw [hx] at h; exact ⟨f, by rw [hx]; exact congrArg some h⟩

/-- A statement on `refs_`. -/
theorem foot_refs {β : Type} (i : Nat) (g : Int → M (Int × β)) :
    Foot (only (.refs i)) (only (.refs i)) False (fun e => do
      let (i, f) ← getFile e (some i)
      let (n, b) ← g f.refs
      return (setFile e i { f with refs := n }, b)) := by
  have key : ∀ {e e' : Env} {b : β}, (do
      let (i, f) ← getFile e (some i)
      let (n, b) ← g f.refs
      return (setFile e i { f with refs := n }, b) : M (Env × β)) = .ok (e', b) →
      ∃ f n, fileAt e i = some f ∧ g f.refs = .ok (n, b) ∧ e' = setFile e i { f with refs := n } := by
    intro e e' b h
    cases hg : getFile e (some i) with
    | error x => rw [hg] at h; cases h
    | ok r =>
      obtain ⟨j, f⟩ := r
      obtain ⟨rfl, hf⟩ := getFile_fileAt hg
      rw [hg] at h
      cases hn : g f.refs with
      | error x => 
        replace h : (g f.refs >>= fun r => (pure (setFile e j { f with refs := r.1 }, r.2) : M (Env × β))) = .ok (e', b) := h
        rw [hn] at h; cases h
      | ok r =>
        replace h : (g f.refs >>= fun r => (pure (setFile e j { f with refs := r.1 }, r.2) : M (Env × β))) = .ok (e', b) := h
        rw [hn] at h
        injection h with h
        injection h with h1 h2
        exact ⟨f, r.1, hf, by rw [hn, ← h2], h1.symm⟩
  refine ⟨fun {e e' b l} h hn => ?_, fun {e1 e2 e1' b'} hs hR h => ?_, fun {e1 e2 x} hs hR h => ?_, fun _ h => h, fun h hl => ?_⟩
  · obtain ⟨f, n, h1, h2, rfl⟩ := key h
    cases l with
    | refs j =>
      have : j ≠ i := by rintro rfl; exact hn (.inl rfl)
      simp only [valueAt]; rw [fileAt_setFile h1, if_neg this]
    | content j =>
      simp only [valueAt]; rw [fileAt_setFile h1]
      split
      · next hj => subst hj; rw [h1]; rfl
      · rfl
    | _ => rfl
  · obtain ⟨f, n, h1, h2, rfl⟩ := key h
    have hr := hR (.refs i) rfl
    injection hr with hr
    rcases fileAt_shape hs (i := i) (by simpa using congrArg Option.isSome hr) with ⟨x, a1, _⟩ | ⟨f1, f2, a1, a2, a3, a4⟩
    · exact absurd h (by show (getFile e1 (some i) >>= _) ≠ _; rw [a1]; exact fun h => nomatch h)
    · rw [h1] at a3
      injection a3 with a3
      subst a3
      rw [h1, a4] at hr
      injection hr with hr
      replace hr : f.refs = f2.refs := hr
      refine ⟨setFile e2 i { f2 with refs := n }, ?_, ?_, ?_⟩
      · show (getFile e2 (some i) >>= _) = _
        rw [a2]
        show (g f2.refs >>= _) = _
        rw [← hr, h2]
        rfl
      · simpa [memory, setFile] using hs.symm
      · rintro l (h | h)
        · cases h
          simp only [valueAt]
          rw [fileAt_setFile h1, fileAt_setFile a4, if_pos rfl, if_pos rfl]
          rfl
        · exact h.1.elim
  · have hr := hR (.refs i) rfl
    injection hr with hr
    rcases fileAt_shape hs (i := i) (by simpa using congrArg Option.isSome hr) with ⟨y, a1, a2⟩ | ⟨f1, f2, a1, a2, a3, a4⟩
    · replace h : (getFile e1 (some i) >>= _) = _ := h
      rw [a1] at h
      show (getFile e2 (some i) >>= _) = _
      rw [a2]
      exact h
    · rw [a3, a4] at hr
      injection hr with hr
      replace hr : f1.refs = f2.refs := hr
      replace h : (getFile e1 (some i) >>= _) = _ := h
      rw [a1] at h
      show (getFile e2 (some i) >>= _) = _
      rw [a2]
      replace h : (g f1.refs >>= _) = _ := h
      show (g f2.refs >>= _) = _
      rw [← hr]
      cases hn : g f1.refs with
      | error y => rw [hn] at h; exact h
      | ok r => rw [hn] at h; cases h
  · obtain ⟨f, n, h1, h2, rfl⟩ := key h
    cases hl
    exact live_fileAt h1

/-- A statement on `blocks_` and `size_`. -/
theorem foot_content {β : Type} (i : Nat) (g : Content → M (Content × β)) :
    Foot (only (.content i)) (only (.content i)) False (onContent i g) := by
  have key : ∀ {e e' : Env} {b : β}, onContent i g e = .ok (e', b) →
      ∃ f c, fileAt e i = some f ∧ g ⟨f.blocks, f.size⟩ = .ok (c, b) ∧ e' = setFile e i { f with blocks := c.blocks, size := c.size } := by
    intro e e' b h
    cases hg : getFile e (some i) with
    | error x => unfold onContent at h; rw [hg] at h; cases h
    | ok r =>
      obtain ⟨j, f⟩ := r
      obtain ⟨rfl, hf⟩ := getFile_fileAt hg
      unfold onContent at h
      rw [hg] at h
      replace h : (g ⟨f.blocks, f.size⟩ >>= fun r => (pure (setFile e j { f with blocks := r.1.blocks, size := r.1.size }, r.2) : M (Env × β))) =
        .ok (e', b) := h
      cases hn : g ⟨f.blocks, f.size⟩ with
      | error x => rw [hn] at h; cases h
      | ok r =>
        rw [hn] at h
        injection h with h
        injection h with h1 h2
        exact ⟨f, r.1, hf, by rw [hn, ← h2], h1.symm⟩
  refine ⟨fun {e e' b l} h hn => ?_, fun {e1 e2 e1' b'} hs hR h => ?_, fun {e1 e2 x} hs hR h => ?_, fun _ h => h, fun h hl => ?_⟩
  · obtain ⟨f, n, h1, h2, rfl⟩ := key h
    cases l with
    | content j =>
      have : j ≠ i := by rintro rfl; exact hn (.inl rfl)
      simp only [valueAt]; rw [fileAt_setFile h1, if_neg this]
    | refs j =>
      simp only [valueAt]; rw [fileAt_setFile h1]
      split
      · next hj => subst hj; rw [h1]; rfl
      · rfl
    | _ => rfl
  · obtain ⟨f, n, h1, h2, rfl⟩ := key h
    have hr := hR (.content i) rfl
    injection hr with hr
    rcases fileAt_shape hs (i := i) (by simpa using congrArg Option.isSome hr) with ⟨x, a1, _⟩ | ⟨f1, f2, a1, a2, a3, a4⟩
    · exact absurd h (by show (getFile e1 (some i) >>= _) ≠ _; rw [a1]; exact fun h => nomatch h)
    · rw [h1] at a3
      injection a3 with a3
      subst a3
      rw [h1, a4] at hr
      injection hr with hr
      replace hr : (⟨f.blocks, f.size⟩ : Content) = (⟨f2.blocks, f2.size⟩ : Content) := hr
      refine ⟨setFile e2 i { f2 with blocks := n.blocks, size := n.size }, ?_, ?_, ?_⟩
      · show (getFile e2 (some i) >>= _) = _
        rw [a2]
        show (g ⟨f2.blocks, f2.size⟩ >>= _) = _
        rw [← hr, h2]
        rfl
      · simpa [memory, setFile] using hs.symm
      · rintro l (h | h)
        · cases h
          simp only [valueAt]
          rw [fileAt_setFile h1, fileAt_setFile a4, if_pos rfl, if_pos rfl]
          rfl
        · exact h.1.elim
  · have hr := hR (.content i) rfl
    injection hr with hr
    rcases fileAt_shape hs (i := i) (by simpa using congrArg Option.isSome hr) with ⟨y, a1, a2⟩ | ⟨f1, f2, a1, a2, a3, a4⟩
    · replace h : (getFile e1 (some i) >>= _) = _ := h
      rw [a1] at h
      show (getFile e2 (some i) >>= _) = _
      rw [a2]
      exact h
    · rw [a3, a4] at hr
      injection hr with hr
      replace hr : (⟨f1.blocks, f1.size⟩ : Content) = (⟨f2.blocks, f2.size⟩ : Content) := hr
      replace h : (getFile e1 (some i) >>= _) = _ := h
      rw [a1] at h
      show (getFile e2 (some i) >>= _) = _
      rw [a2]
      replace h : (g ⟨f1.blocks, f1.size⟩ >>= _) = _ := h
      show (g ⟨f2.blocks, f2.size⟩ >>= _) = _
      rw [← hr]
      cases hn : g ⟨f1.blocks, f1.size⟩ with
      | error y => rw [hn] at h; exact h
      | ok r => rw [hn] at h; cases h
  · obtain ⟨f, n, h1, h2, rfl⟩ := key h
    cases hl
    exact live_fileAt h1

/-- A statement that reads a file object, and changes it if `chg`. -/
theorem foot_obj {β : Type} (h : Nat) (g : Obj → M β) :
    Foot (only (.obj h)) none' False (fun e => do return (e, ← g (← getObj e h))) := by
  have key : ∀ {e e' : Env} {b : β}, (do return (e, ← g (← getObj e h)) : M (Env × β)) = .ok (e', b) →
      ∃ o, e.objs[h]? = some (some o) ∧ g o = .ok b ∧ e' = e := by
    intro e e' b hx
    unfold getObj at hx
    cases ho : e.objs[h]? with
    | none => rw [ho] at hx; cases hx
    | some o =>
      cases o with
      | none => rw [ho] at hx; cases hx
      | some o =>
        rw [ho] at hx
        replace hx : (g o >>= fun b => (pure (e, b) : M (Env × β))) = .ok (e', b) := hx
        cases hg : g o with
        | error x => rw [hg] at hx; cases hx
        | ok b' =>
          rw [hg] at hx
          injection hx with hx
          injection hx with h1 h2
          exact ⟨o, rfl, by rw [hg, h2], h1.symm⟩
  have same : ∀ {e1 e2 : Env}, memory.shape e1 = memory.shape e2 → (∀ l, only (.obj h) l → valueAt l e1 = valueAt l e2) →
      e1.objs[h]? = e2.objs[h]? := by
    intro e1 e2 hs hR
    have hl : e1.objs.length = e2.objs.length := congrArg Prod.snd hs
    have hr := hR (.obj h) rfl
    injection hr with hr
    by_cases hi : h < e1.objs.length
    · rw [List.getElem?_eq_getElem hi, List.getElem?_eq_getElem (hl ▸ hi)] at *
      exact congrArg some hr
    · rw [List.getElem?_eq_none (by omega), List.getElem?_eq_none (by omega)]
  refine ⟨fun {e e' b l} hx hn => ?_, fun {e1 e2 e1' b'} hs hR hx => ?_, fun {e1 e2 x} hs hR hx => ?_, fun _ h => h.elim, fun hx hl => ?_⟩
  · obtain ⟨o, h1, h2, rfl⟩ := key hx; rfl
  · have hsame := same hs hR
    obtain ⟨o, h1, h2, rfl⟩ := key hx
    refine ⟨e2, ?_, hs.symm, fun l h => h.elim (fun h => h.elim) (fun h => h.1.elim)⟩
    have : getObj e2 h = .ok o := by unfold getObj; rw [← hsame, h1]
    simp only [this]
    show (g o >>= _) = _
    rw [h2]; rfl
  · have hsame := same hs hR
    unfold getObj at hx ⊢
    rw [← hsame]
    cases ho : e1.objs[h]? with
    | none => rw [ho] at hx; exact hx
    | some o =>
      cases o with
      | none => rw [ho] at hx; exact hx
      | some o =>
        rw [ho] at hx
        replace hx : (g o >>= fun b => (pure (e1, b) : M (Env × β))) = .error x := hx
        show (g o >>= fun b => (pure (e2, b) : M (Env × β))) = .error x
        cases hg : g o with
        | error y => rw [hg] at hx; exact hx
        | ok b' => rw [hg] at hx; cases hx
  · obtain ⟨o, h1, h2, rfl⟩ := key hx
    cases hl
    exact ⟨o, h1⟩

/-- A statement that changes a file object. -/
theorem foot_setObj (h : Nat) (g : Obj → M (Option Obj)) :
    Foot (only (.obj h)) (only (.obj h)) False (fun e => do
      let x ← g (← getObj e h)
      return ({ e with objs := e.objs.set h x }, ())) := by
  have key : ∀ {e e' : Env} {b : Unit}, (do let x ← g (← getObj e h); return ({ e with objs := e.objs.set h x }, ()) : M (Env × Unit)) = .ok (e', b) →
      ∃ o x, e.objs[h]? = some (some o) ∧ g o = .ok x ∧ e' = { e with objs := e.objs.set h x } := by
    intro e e' b hx
    unfold getObj at hx
    cases ho : e.objs[h]? with
    | none => rw [ho] at hx; cases hx
    | some o =>
      cases o with
      | none => rw [ho] at hx; cases hx
      | some o =>
        rw [ho] at hx
        replace hx : (g o >>= fun x => (pure ({ e with objs := e.objs.set h x }, ()) : M (Env × Unit))) = .ok (e', b) := hx
        cases hg : g o with
        | error x => rw [hg] at hx; cases hx
        | ok x =>
          rw [hg] at hx
          injection hx with hx
          injection hx with h1 h2
          exact ⟨o, x, rfl, hg, h1.symm⟩
  have same : ∀ {e1 e2 : Env}, memory.shape e1 = memory.shape e2 → (∀ l, only (.obj h) l → valueAt l e1 = valueAt l e2) →
      e1.objs[h]? = e2.objs[h]? := by
    intro e1 e2 hs hR
    have hl : e1.objs.length = e2.objs.length := congrArg Prod.snd hs
    have hr := hR (.obj h) rfl
    injection hr with hr
    by_cases hi : h < e1.objs.length
    · rw [List.getElem?_eq_getElem hi, List.getElem?_eq_getElem (hl ▸ hi)] at *
      exact congrArg some hr
    · rw [List.getElem?_eq_none (by omega), List.getElem?_eq_none (by omega)]
  refine ⟨fun {e e' b l} hx hn => ?_, fun {e1 e2 e1' b'} hs hR hx => ?_, fun {e1 e2 x} hs hR hx => ?_, fun _ h => h, fun hx hl => ?_⟩
  · obtain ⟨o, x, h1, h2, rfl⟩ := key hx
    cases l with
    | obj j =>
      have : h ≠ j := by rintro rfl; exact hn (.inl rfl)
      simp only [valueAt, List.getElem?_set_ne this]
    | _ => rfl
  · have hsame := same hs hR
    obtain ⟨o, x, h1, h2, rfl⟩ := key hx
    refine ⟨{ e2 with objs := e2.objs.set h x }, ?_, ?_, ?_⟩
    · have : getObj e2 h = .ok o := by unfold getObj; rw [← hsame, h1]
      simp only [this]
      show (g o >>= _) = _
      rw [h2]; rfl
    · simpa [memory] using hs.symm
    · rintro l (h | h)
      · cases h
        simp only [valueAt, List.getElem?_set]
        have hi : h < e1.objs.length := by
          by_contra hn
          rw [List.getElem?_eq_none (by omega)] at h1
          cases h1
        have hi2 : h < e2.objs.length := by
          have hl : e1.objs.length = e2.objs.length := congrArg Prod.snd hs
          omega
        simp [hi, hi2]
      · exact h.1.elim
  · have hsame := same hs hR
    unfold getObj at hx ⊢
    rw [← hsame]
    cases ho : e1.objs[h]? with
    | none => rw [ho] at hx; exact hx
    | some o =>
      cases o with
      | none => rw [ho] at hx; exact hx
      | some o =>
        rw [ho] at hx
        replace hx : (g o >>= fun x => (pure ({ e1 with objs := e1.objs.set h x }, ()) : M (Env × Unit))) = .error x := hx
        show (g o >>= fun x => (pure ({ e2 with objs := e2.objs.set h x }, ()) : M (Env × Unit))) = .error x
        cases hg : g o with
        | error y => rw [hg] at hx; exact hx
        | ok b' => rw [hg] at hx; cases hx
  · obtain ⟨o, x, h1, h2, rfl⟩ := key hx
    cases hl
    exact ⟨o, h1⟩

/-- A new `FileState`. -/
theorem foot_alloc : Foot none' none' True alloc := by
  refine ⟨fun {e e' b l} h hn => ?_, fun {e1 e2 e1' b'} hs hR h => ?_, fun _ _ h => (nomatch h), fun _ h => h, fun _ h => h.elim⟩
  · injection h with h
    injection h with h1 h2
    subst h1
    have hn : ¬ New e l := fun h => hn (.inr ⟨trivial, h⟩)
    have : ∀ i, i < e.files.length → fileAt (newFile e).2 i = fileAt e i := by
      intro i hi
      simp only [fileAt, newFile, List.getElem?_append_left hi]
    cases l with
    | refs i => exact congrArg (fun x : Option FileState => Val.refs (x.map (·.refs))) (this i (Nat.lt_of_not_le hn))
    | content i =>
      exact congrArg (fun x : Option FileState => Val.content (x.map fun f => ⟨f.blocks, f.size⟩)) (this i (Nat.lt_of_not_le hn))
    | _ => rfl
  · injection h with h
    injection h with h1 h2
    subst h1; subst h2
    have hl : e1.files.length = e2.files.length := congrArg Prod.fst hs
    have hl2 : e1.objs.length = e2.objs.length := congrArg Prod.snd hs
    refine ⟨(newFile e2).2, by rw [show some e1.files.length = some e2.files.length by rw [hl]]; rfl, ?_, ?_⟩
    · simp [memory, newFile, hl, hl2]
    · rintro l (h | ⟨_, h⟩)
      · exact h.elim
      · have : ∀ i, e1.files.length ≤ i → fileAt (newFile e2).2 i = fileAt (newFile e1).2 i := by
          intro i hi
          simp only [fileAt, newFile, List.getElem?_append_right hi, List.getElem?_append_right (hl ▸ hi), hl]
        cases l with
        | refs i => exact congrArg (fun x : Option FileState => Val.refs (x.map (·.refs))) (this i h)
        | content i => exact congrArg (fun x : Option FileState => Val.content (x.map fun f => ⟨f.blocks, f.size⟩)) (this i h)
        | obj i =>
          simp only [valueAt, newFile]
          have h : e1.objs.length ≤ i := h
          rw [List.getElem?_eq_none h, List.getElem?_eq_none (hl2 ▸ h)]
        | _ => exact h.elim

/-- A new file object. -/
theorem foot_newObj (o : Obj) : Foot none' none' True (fun e => .ok ({ e with objs := e.objs ++ [some o] }, e.objs.length)) := by
  refine ⟨fun {e e' b l} h hn => ?_, fun {e1 e2 e1' b'} hs hR h => ?_, fun _ _ h => (nomatch h), fun _ h => h, fun _ h => h.elim⟩
  · injection h with h
    injection h with h1 h2
    subst h1
    have hn : ¬ New e l := fun h => hn (.inr ⟨trivial, h⟩)
    cases l with
    | obj i => simp only [valueAt]; rw [List.getElem?_append_left (Nat.lt_of_not_le hn)]
    | _ => rfl
  · injection h with h
    injection h with h1 h2
    subst h1; subst h2
    have hl : e1.files.length = e2.files.length := congrArg Prod.fst hs
    have hl2 : e1.objs.length = e2.objs.length := congrArg Prod.snd hs
    refine ⟨_, by rw [hl2], ?_, ?_⟩
    · simp [memory, hl, hl2]
    · rintro l (h | ⟨_, h⟩)
      · exact h.elim
      · cases l with
        | refs i =>
          have h : e1.files.length ≤ i := h
          simp only [valueAt, fileAt]
          rw [List.getElem?_eq_none h, List.getElem?_eq_none (hl ▸ h)]
        | content i =>
          have h : e1.files.length ≤ i := h
          simp only [valueAt, fileAt]
          rw [List.getElem?_eq_none h, List.getElem?_eq_none (hl ▸ h)]
        | obj i =>
          have h : e1.objs.length ≤ i := h
          simp only [valueAt, List.getElem?_append_right h, List.getElem?_append_right (hl2 ▸ h), hl2]
        | _ => exact h.elim

end MemConc
end Lsmdb
