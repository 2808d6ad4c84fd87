import Verif.Proof.PosixConc2

/-! Ownership in the machine of threads. -/

namespace Lsmdb
namespace Posix

open MemEnv (St lit)

namespace Conc

open Prog

/-- Who has a resource. -/
inductive Owner where
  | free
  | ext
  | obj (h : Nat)
  | thr (t : Nat)
  deriving DecidableEq

/-- Resources of one kind belong to somebody outside, to an object or to a running call. -/
structure Owns {α : Type} (own : α → Owner) (ext : α → Prop) (of : Obj → α → Prop) (gf : Ghost → List α)
    (objs : List (Option Obj)) (gs : List Ghost) : Prop where
  out : ∀ a, own a = .ext ↔ ext a
  obj : ∀ h a, own a = .obj h ↔ ∃ o, objs[h]? = some (some o) ∧ of o a
  thr : ∀ t a, own a = .thr t ↔ ∃ g, gs[t]? = some g ∧ a ∈ gf g

/-- One resource changes hands. -/
def updO {α : Type} [DecidableEq α] (own : α → Owner) (a : α) (x : Owner) : α → Owner := fun b => if b = a then x else own b

/-- All of one owner's resources change hands. -/
def moveO {α : Type} (own : α → Owner) (x y : Owner) : α → Owner := fun b => if own b = x then y else own b

section
variable {α : Type} {own : α → Owner} {ext : α → Prop} {of : Obj → α → Prop} {gf : Ghost → List α}
  {objs : List (Option Obj)} {gs : List Ghost}

theorem get_some_eq {β : Type} {l : List β} {t : Nat} {x y : β} (h : l[t]? = some x) (h' : l[t]? = some y) : x = y := by
  rw [h] at h'; injection h'

theorem Owns.same (H : Owns own ext of gf objs gs) {t : Nat} {g g' : Ghost} (hg : gs[t]? = some g)
    (he : ∀ a, a ∈ gf g' ↔ a ∈ gf g) : Owns own ext of gf objs (gs.set t g') := by
  refine ⟨H.out, H.obj, fun u a => (H.thr u a).trans ⟨?_, ?_⟩⟩
  · rintro ⟨x, hx, ha⟩
    by_cases hu : u = t
    · subst hu
      cases get_some_eq hx hg
      exact ⟨g', set_get_self hg, (he a).2 ha⟩
    · exact ⟨x, by rw [List.getElem?_set_ne (Ne.symm hu)]; exact hx, ha⟩
  · rintro ⟨x, hx, ha⟩
    rcases get_set hx with ⟨_, hx⟩ | ⟨rfl, rfl⟩
    · exact ⟨x, hx, ha⟩
    · exact ⟨g, hg, (he a).1 ha⟩

theorem Owns.gain [DecidableEq α] (H : Owns own ext of gf objs gs) {t : Nat} {g g' : Ghost} {a : α} (hg : gs[t]? = some g)
    (hf : own a = .free) (he : ∀ b, b ∈ gf g' ↔ b = a ∨ b ∈ gf g) : Owns (updO own a (.thr t)) ext of gf objs (gs.set t g') := by
  refine ⟨fun b => ?_, fun h b => ?_, fun u b => ?_⟩
  · unfold updO
    by_cases hb : b = a
    · subst hb
      rw [if_pos rfl]
      have := H.out b
      rw [hf] at this
      simp only [reduceCtorEq, false_iff] at this ⊢
      exact this
    · rw [if_neg hb]; exact H.out b
  · unfold updO
    by_cases hb : b = a
    · subst hb
      rw [if_pos rfl]
      have := H.obj h b
      rw [hf] at this
      simp only [reduceCtorEq, false_iff] at this ⊢
      exact this
    · rw [if_neg hb]; exact H.obj h b
  · unfold updO
    by_cases hb : b = a
    · subst hb
      rw [if_pos rfl]
      have hn := H.thr u b
      rw [hf] at hn
      simp only [reduceCtorEq, false_iff] at hn
      constructor
      · intro e; injection e with e; subst e
        exact ⟨g', set_get_self hg, (he b).2 (.inl rfl)⟩
      · rintro ⟨x, hx, hb⟩
        rcases get_set hx with ⟨_, hx⟩ | ⟨rfl, rfl⟩
        · exact absurd ⟨x, hx, hb⟩ hn
        · rfl
    · rw [if_neg hb]
      refine (H.thr u b).trans ⟨?_, ?_⟩
      · rintro ⟨x, hx, hm⟩
        by_cases hu : u = t
        · subst hu
          cases get_some_eq hx hg
          exact ⟨g', set_get_self hg, (he b).2 (.inr hm)⟩
        · exact ⟨x, by rw [List.getElem?_set_ne (Ne.symm hu)]; exact hx, hm⟩
      · rintro ⟨x, hx, hm⟩
        rcases get_set hx with ⟨_, hx⟩ | ⟨rfl, rfl⟩
        · exact ⟨x, hx, hm⟩
        · rcases (he b).1 hm with h | h
          · exact absurd h hb
          · exact ⟨g, hg, h⟩

theorem Owns.lose [DecidableEq α] (H : Owns own ext of gf objs gs) {t : Nat} {g g' : Ghost} {a : α} (hg : gs[t]? = some g)
    (ha : a ∈ gf g) (he : ∀ b, b ∈ gf g' ↔ b ∈ gf g ∧ b ≠ a) : Owns (updO own a .free) ext of gf objs (gs.set t g') := by
  have hown : own a = .thr t := (H.thr t a).2 ⟨g, hg, ha⟩
  refine ⟨fun b => ?_, fun h b => ?_, fun u b => ?_⟩
  · unfold updO
    by_cases hb : b = a
    · subst hb
      rw [if_pos rfl]
      have := H.out b
      rw [hown] at this
      simp only [reduceCtorEq, false_iff] at this ⊢
      exact this
    · rw [if_neg hb]; exact H.out b
  · unfold updO
    by_cases hb : b = a
    · subst hb
      rw [if_pos rfl]
      have := H.obj h b
      rw [hown] at this
      simp only [reduceCtorEq, false_iff] at this ⊢
      exact this
    · rw [if_neg hb]; exact H.obj h b
  · unfold updO
    by_cases hb : b = a
    · subst hb
      rw [if_pos rfl]
      simp only [reduceCtorEq, false_iff]
      rintro ⟨x, hx, hb⟩
      rcases get_set hx with ⟨hu, hx⟩ | ⟨rfl, rfl⟩
      · have := (H.thr u b).2 ⟨x, hx, hb⟩
        rw [hown] at this
        injection this with this
        exact hu this.symm
      · exact ((he b).1 hb).2 rfl
    · rw [if_neg hb]
      refine (H.thr u b).trans ⟨?_, ?_⟩
      · rintro ⟨x, hx, hm⟩
        by_cases hu : u = t
        · subst hu
          cases get_some_eq hx hg
          exact ⟨g', set_get_self hg, (he b).2 ⟨hm, hb⟩⟩
        · exact ⟨x, by rw [List.getElem?_set_ne (Ne.symm hu)]; exact hx, hm⟩
      · rintro ⟨x, hx, hm⟩
        rcases get_set hx with ⟨_, hx⟩ | ⟨rfl, rfl⟩
        · exact ⟨x, hx, hm⟩
        · exact ⟨g, hg, ((he b).1 hm).1⟩

/-- A call takes an object. -/
theorem Owns.take (H : Owns own ext of gf objs gs) {t h : Nat} {o : Obj} {g g' : Ghost} (hg : gs[t]? = some g)
    (ho : objs[h]? = some (some o)) (h0 : ∀ a, a ∉ gf g) (he : ∀ a, a ∈ gf g' ↔ of o a) :
    Owns (moveO own (.obj h) (.thr t)) ext of gf (objs.set h none) (gs.set t g') := by
  have hthr : ∀ a, own a ≠ .thr t := fun a e => by
    obtain ⟨x, hx, hm⟩ := (H.thr t a).1 e
    cases get_some_eq hx hg
    exact h0 a hm
  refine ⟨fun a => ?_, fun h' a => ?_, fun u a => ?_⟩
  · unfold moveO
    by_cases ha : own a = .obj h
    · rw [if_pos ha]
      have := H.out a
      rw [ha] at this
      simp only [reduceCtorEq, false_iff] at this ⊢
      exact this
    · rw [if_neg ha]; exact H.out a
  · unfold moveO
    by_cases ha : own a = .obj h
    · rw [if_pos ha]
      simp only [reduceCtorEq, false_iff]
      rintro ⟨x, hx, hm⟩
      rcases get_set hx with ⟨hu, hx⟩ | ⟨_, hx⟩
      · have := (H.obj h' a).2 ⟨x, hx, hm⟩
        rw [ha] at this
        injection this with this
        exact hu this.symm
      · cases hx
    · rw [if_neg ha]
      refine (H.obj h' a).trans ⟨?_, ?_⟩
      · rintro ⟨x, hx, hm⟩
        refine ⟨x, ?_, hm⟩
        rw [List.getElem?_set_ne]
        · exact hx
        · rintro rfl
          exact ha ((H.obj h a).2 ⟨x, hx, hm⟩)
      · rintro ⟨x, hx, hm⟩
        rcases get_set hx with ⟨hu, hx⟩ | ⟨_, hx⟩
        · exact ⟨x, hx, hm⟩
        · cases hx
  · unfold moveO
    by_cases ha : own a = .obj h
    · rw [if_pos ha]
      have hoa : of o a := by
        obtain ⟨x, hx, hm⟩ := (H.obj h a).1 ha
        cases get_some_eq hx ho
        exact hm
      constructor
      · intro e; injection e with e; subst e
        exact ⟨g', set_get_self hg, (he a).2 hoa⟩
      · rintro ⟨x, hx, hm⟩
        rcases get_set hx with ⟨hu, hx⟩ | ⟨rfl, rfl⟩
        · have := (H.thr u a).2 ⟨x, hx, hm⟩
          rw [ha] at this
          exact nomatch this
        · rfl
    · rw [if_neg ha]
      refine (H.thr u a).trans ⟨?_, ?_⟩
      · rintro ⟨x, hx, hm⟩
        refine ⟨x, ?_, hm⟩
        rw [List.getElem?_set_ne]
        · exact hx
        · rintro rfl
          exact hthr a ((H.thr _ a).2 ⟨x, hx, hm⟩)
      · rintro ⟨x, hx, hm⟩
        rcases get_set hx with ⟨hu, hx⟩ | ⟨rfl, rfl⟩
        · exact ⟨x, hx, hm⟩
        · exact absurd ((H.obj h a).2 ⟨o, ho, (he a).1 hm⟩) ha

/-- A call gives an object: the place `h` for it was free. -/
theorem Owns.give (H : Owns own ext of gf objs gs) {t h : Nat} {o : Obj} {g g' : Ghost} {objs' : List (Option Obj)}
    (hg : gs[t]? = some g) (hobj : ∀ x, objs[h]? ≠ some (some x)) (hnew : objs'[h]? = some (some o))
    (hold : ∀ h' x, h' ≠ h → (objs'[h']? = some (some x) ↔ objs[h']? = some (some x)))
    (h0 : ∀ a, a ∉ gf g') (he : ∀ a, a ∈ gf g ↔ of o a) :
    Owns (moveO own (.thr t) (.obj h)) ext of gf objs' (gs.set t g') := by
  refine ⟨fun a => ?_, fun h' a => ?_, fun u a => ?_⟩
  · unfold moveO
    by_cases ha : own a = .thr t
    · rw [if_pos ha]
      have := H.out a
      rw [ha] at this
      simp only [reduceCtorEq, false_iff] at this ⊢
      exact this
    · rw [if_neg ha]; exact H.out a
  · unfold moveO
    by_cases ha : own a = .thr t
    · rw [if_pos ha]
      have hoa : of o a := by
        obtain ⟨x, hx, hm⟩ := (H.thr t a).1 ha
        cases get_some_eq hx hg
        exact (he a).1 hm
      constructor
      · intro e; injection e with e; subst e
        exact ⟨o, hnew, hoa⟩
      · rintro ⟨x, hx, hm⟩
        by_cases hh : h' = h
        · rw [hh]
        · have := (H.obj h' a).2 ⟨x, (hold h' x hh).1 hx, hm⟩
          rw [ha] at this
          exact nomatch this
    · rw [if_neg ha]
      refine (H.obj h' a).trans ⟨?_, ?_⟩
      · rintro ⟨x, hx, hm⟩
        refine ⟨x, (hold h' x ?_).2 hx, hm⟩
        rintro rfl
        exact hobj x hx
      · rintro ⟨x, hx, hm⟩
        by_cases hh : h' = h
        · subst hh
          cases get_some_eq hx hnew
          exact absurd ((H.thr t a).2 ⟨g, hg, (he a).2 hm⟩) ha
        · exact ⟨x, (hold h' x hh).1 hx, hm⟩
  · unfold moveO
    by_cases ha : own a = .thr t
    · rw [if_pos ha]
      simp only [reduceCtorEq, false_iff]
      rintro ⟨x, hx, hm⟩
      rcases get_set hx with ⟨hu, hx⟩ | ⟨rfl, rfl⟩
      · have := (H.thr u a).2 ⟨x, hx, hm⟩
        rw [ha] at this
        injection this with this
        exact hu this.symm
      · exact h0 a hm
    · rw [if_neg ha]
      refine (H.thr u a).trans ⟨?_, ?_⟩
      · rintro ⟨x, hx, hm⟩
        refine ⟨x, ?_, hm⟩
        rw [List.getElem?_set_ne]
        · exact hx
        · rintro rfl
          exact ha ((H.thr _ a).2 ⟨x, hx, hm⟩)
      · rintro ⟨x, hx, hm⟩
        rcases get_set hx with ⟨hu, hx⟩ | ⟨rfl, rfl⟩
        · exact ⟨x, hx, hm⟩
        · exact absurd hm (h0 a)

theorem updO_free [DecidableEq α] (own : α → Owner) (a : α) (t : Nat) (b : α) :
    updO own a (.thr t) b ≠ .free ↔ own b ≠ .free ∨ b = a := by
  unfold updO
  by_cases h : b = a
  · rw [if_pos h]; simp [h]
  · rw [if_neg h]; simp [h]

theorem updO_lost [DecidableEq α] (own : α → Owner) (a : α) (b : α) :
    updO own a .free b ≠ .free ↔ own b ≠ .free ∧ b ≠ a := by
  unfold updO
  by_cases h : b = a
  · rw [if_pos h]; simp [h]
  · rw [if_neg h]; simp [h]

theorem moveO_free (own : α → Owner) {x y : Owner} (hx : x ≠ .free) (hy : y ≠ .free) (b : α) :
    moveO own x y b ≠ .free ↔ own b ≠ .free := by
  unfold moveO
  by_cases h : own b = x
  · rw [if_pos h, h]; simp [hx, hy]
  · rw [if_neg h]

end

/-! ## Slots -/

/-- The objects that have a slot. -/
def pred : Lim → Obj → Bool
  | .mmap => Obj.isMmap
  | .fd => Obj.isPermanent

theorem slots_eq (o : Obj) (l : Lim) : slots o l = if pred l o then 1 else 0 := by cases l <;> rfl

/-- Slots in the hands of running calls. -/
def held (f : Ghost → Nat) (gs : List Ghost) : Nat := (gs.map f).sum

theorem held_set (f : Ghost → Nat) : ∀ (gs : List Ghost) (t : Nat) (g g' : Ghost), gs[t]? = some g →
    held f (gs.set t g') + f g = held f gs + f g' := by
  intro gs
  induction gs with
  | nil => intro t g g' h; exact nomatch h
  | cons x gs ih =>
    intro t g g' h
    cases t with
    | zero =>
      simp only [List.getElem?_cons_zero, Option.some.injEq] at h
      subst h
      simp [held]
      omega
    | succ t =>
      simp only [List.getElem?_cons_succ] at h
      have := ih t g g' h
      simp [held] at this ⊢
      omega

theorem held_le (f : Ghost → Nat) (gs : List Ghost) (h : ∀ g ∈ gs, f g ≤ 1) : held f gs ≤ gs.length := by
  induction gs with
  | nil => simp [held]
  | cons x gs ih =>
    have h1 := h x List.mem_cons_self
    have h2 := ih fun g hg => h g (List.mem_cons_of_mem _ hg)
    simp [held] at h2 ⊢
    omega

/-- The account of one limiter: limit `L`, value `v`, `u` objects with a slot. -/
structure LimInv (L v : Int) (u : Nat) (gr pe : Ghost → Nat) (gs : List Ghost) : Prop where
  val : v = L - ((u + held gr gs + held pe gs : Nat) : Int)
  limit : ((u + held gr gs : Nat) : Int) ≤ max 0 L
  one : ∀ g ∈ gs, gr g + pe g ≤ 1

/-- No overflow. -/
def Room (L : Int) (n : Nat) : Prop := IsInt L ∧ -2147483648 ≤ min 0 L - n

theorem LimInv.isInt {L v : Int} {u : Nat} {gr pe : Ghost → Nat} {gs : List Ghost} (H : LimInv L v u gr pe gs)
    (hr : Room L gs.length) : IsInt v := by
  have h1 := held_le pe gs fun g hg => by have := H.one g hg; omega
  have h2 := H.val
  have h3 := H.limit
  obtain ⟨⟨r1, r2⟩, r3⟩ := hr
  unfold IsInt
  omega

theorem mem_set_cases {gs : List Ghost} {t : Nat} {g' x : Ghost} (h : x ∈ gs.set t g') : x ∈ gs ∨ x = g' := by
  rcases List.mem_or_eq_of_mem_set h with h | h
  · exact .inl h
  · exact .inr h

theorem LimInv.upd {L v v' : Int} {u u' : Nat} {gr pe : Ghost → Nat} {gs : List Ghost} (H : LimInv L v u gr pe gs)
    {t : Nat} {g g' : Ghost} (hg : gs[t]? = some g) (hone : gr g' + pe g' ≤ 1)
    (hv : v' - v = ((u + gr g + pe g : Nat) : Int) - ((u' + gr g' + pe g' : Nat) : Int))
    (hl : u' + gr g' ≤ u + gr g ∨ (0 < v ∧ u' + gr g' = u + gr g + 1)) : LimInv L v' u' gr pe (gs.set t g') := by
  have h1 := held_set gr gs t g g' hg
  have h2 := held_set pe gs t g g' hg
  have h3 := H.val
  have h4 := H.limit
  refine ⟨by omega, ?_, fun x hx => ?_⟩
  · rcases hl with hl | ⟨hp, hl⟩
    · omega
    · omega
  · rcases mem_set_cases hx with hx | rfl
    · exact H.one x hx
    · exact hone

end Conc
end Posix
end Lsmdb
