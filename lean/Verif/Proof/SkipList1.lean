import Verif.Spec.SkipList

namespace Lsmdb
namespace SkipList
open Spec

section order
variable {K : Type} {cmp : K → K → Int} (hc : CmpOK cmp)
include hc

theorem cmp_self (a : K) : cmp a a = 0 := by
  have := hc.swap a a; omega

theorem cmp_zero_symm {a b : K} (h : cmp a b = 0) : cmp b a = 0 := by
  have h1 := hc.swap a b; have h2 := hc.swap b a; omega

theorem lt_of_lt_of_le {a b c : K} (h1 : cmp a b < 0) (h2 : cmp b c ≤ 0) : cmp a c < 0 := by
  have h3 := hc.trans a b c (by omega) h2
  by_cases h4 : cmp a c < 0
  · exact h4
  · have h5 : cmp a c = 0 := by omega
    have h6 := cmp_zero_symm hc h5
    have h7 := hc.trans b c a h2 (by omega)
    have h8 := (hc.swap a b).mp h1
    omega

theorem lt_of_le_of_lt {a b c : K} (h1 : cmp a b ≤ 0) (h2 : cmp b c < 0) : cmp a c < 0 := by
  have h3 := hc.trans a b c h1 (by omega)
  by_cases h4 : cmp a c < 0
  · exact h4
  · have h5 : cmp a c = 0 := by omega
    have h6 := cmp_zero_symm hc h5
    have h7 := hc.trans c a b (by omega) h1
    have h8 := (hc.swap b c).mp h2
    omega

theorem lt_trans' {a b c : K} (h1 : cmp a b < 0) (h2 : cmp b c < 0) : cmp a c < 0 :=
  lt_of_lt_of_le hc h1 (by omega)

theorem le_of_not_lt {a b : K} (h : ¬ cmp a b < 0) : cmp b a ≤ 0 := by
  have := hc.swap a b; have := hc.swap b a; omega

theorem not_lt_of_le {a b : K} (h : cmp b a ≤ 0) : ¬ cmp a b < 0 := by
  have := hc.swap a b; omega

end order

section
variable {K : Type} (cmp : K → K → Int) (key : Nat → K)

/-- Order of nodes: the head is below everything. -/
def nlt (x y : Nat) : Prop := y ≠ 0 ∧ (x = 0 ∨ cmp (key x) (key y) < 0)

/-- `r` is the successor of `x` among the nodes linked at level `l`. -/
def NextOK (S : Nat → Nat → Prop) (l x : Nat) : Ptr → Prop
  | none => ∀ z, S l z → ¬ nlt cmp key x z
  | some y => S l y ∧ nlt cmp key x y ∧ ∀ z, S l z → nlt cmp key x z → z = y ∨ nlt cmp key y z

/-- Memory `m` holds well-formed lists: at each level `l` the linked nodes are `S l`. -/
structure Inv (m : Mem K) (S : Nat → Nat → Prop) : Prop where
  pos : 0 < m.nodes.length
  keys : ∀ x n, m.nodes[x]? = some n → x ≠ 0 → n.key = key x
  valid : ∀ l y, S l y → y ≠ 0 ∧ y < m.nodes.length ∧ l < 12
  nested : ∀ l y, S (l + 1) y → S l y
  distinct : ∀ x y, S 0 x → S 0 y → x ≠ y → cmp (key x) (key y) ≠ 0
  linked : ∀ l x, l < 12 → (x = 0 ∨ S l x) → ∃ r, m.next (some x) l = .ok r ∧ NextOK cmp key S l x r

variable {cmp key}

theorem Inv.sub0 {m : Mem K} {S} (h : Inv cmp key m S) {l y : Nat} (hy : S l y) : S 0 y := by
  induction l with
  | zero => exact hy
  | succ l ih => exact ih (h.nested l y hy)

theorem Inv.sub {m : Mem K} {S} (h : Inv cmp key m S) {l i y : Nat} (hi : i ≤ l) (hy : S l y) : S i y := by
  induction l with
  | zero => have : i = 0 := by omega
            subst this; exact hy
  | succ l ih =>
    by_cases he : i = l + 1
    · subst he; exact hy
    · exact ih (by omega) (h.nested l y hy)

theorem Inv.key_ok {m : Mem K} {S} (h : Inv cmp key m S) {l y : Nat} (hy : S l y) :
    m.key (some y) = .ok (key y) := by
  obtain ⟨h0, hlt, _⟩ := h.valid l y hy
  unfold Mem.key
  have hn : m.nodes[y]? = some m.nodes[y] := List.getElem?_eq_getElem hlt
  simp only [hn]
  rw [h.keys y _ hn h0]

theorem nlt_trans (hc : CmpOK cmp) {x y z : Nat} (h1 : nlt cmp key x y) (h2 : nlt cmp key y z) :
    nlt cmp key x z := by
  refine ⟨h2.1, ?_⟩
  rcases h1.2 with h | h
  · exact Or.inl h
  · rcases h2.2 with h' | h'
    · exact absurd h' h1.1
    · exact Or.inr (lt_trans' hc h h')

theorem nlt_irrefl (hc : CmpOK cmp) {x : Nat} : ¬ nlt cmp key x x := by
  rintro ⟨h0, h | h⟩
  · exact h0 h
  · have := cmp_self hc (key x); omega

theorem nlt_total {m : Mem K} {S} (hc : CmpOK cmp) (h : Inv cmp key m S) {l x y : Nat}
    (hx : x = 0 ∨ S l x) (hy : y = 0 ∨ S l y) : x = y ∨ nlt cmp key x y ∨ nlt cmp key y x := by
  by_cases he : x = y
  · exact Or.inl he
  · right
    by_cases hx0 : x = 0
    · left; exact ⟨fun e => he (by rw [hx0, e]), Or.inl hx0⟩
    · by_cases hy0 : y = 0
      · right; exact ⟨hx0, Or.inl hy0⟩
      · have sx := h.sub0 (hx.resolve_left hx0)
        have sy := h.sub0 (hy.resolve_left hy0)
        have hd := h.distinct x y sx sy he
        by_cases hlt : cmp (key x) (key y) < 0
        · left; exact ⟨hy0, Or.inr hlt⟩
        · right
          refine ⟨hx0, Or.inr ?_⟩
          have := hc.swap (key y) (key x); omega

/-! ### Effects of stores on `next` -/

theorem next_new (m : Mem K) (k : K) (h x l : Nat) (hx : x < m.nodes.length) :
    (m.apply (.new k h)).next (some x) l = m.next (some x) l := by
  unfold Mem.apply Mem.next
  simp only
  rw [List.getElem?_append_left hx]

theorem next_setMax (m : Mem K) (h : Nat) (p : Ptr) (l : Nat) :
    (m.apply (.setMax h)).next p l = m.next p l := by
  cases p <;> rfl

theorem next_store_other (m : Mem K) (x l : Nat) (v : Ptr) (rel : Bool) (x' l' : Nat)
    (hne : ¬ (x' = x ∧ l' = l)) : (m.apply (.store x l v rel)).next (some x') l' = m.next (some x') l' := by
  unfold Mem.apply Mem.next
  simp only [List.getElem?_modify]
  by_cases hx : x = x'
  · subst hx
    have hl : l ≠ l' := fun e => hne ⟨rfl, e.symm⟩
    cases hn : m.nodes[x]? with
    | none => simp
    | some n =>
      simp only [Option.map_eq_map, Option.map_some, if_true]
      rw [List.getElem?_set_ne hl]
  · simp only [if_neg hx]
    cases m.nodes[x']? <;> rfl

theorem next_store_same (m : Mem K) (x l : Nat) (v : Ptr) (rel : Bool) {n : Node K}
    (hn : m.nodes[x]? = some n) (hl : l < n.next.length) :
    (m.apply (.store x l v rel)).next (some x) l = .ok v := by
  unfold Mem.apply Mem.next
  simp only [List.getElem?_modify, hn, if_true, Option.map_eq_map, Option.map_some]
  rw [List.getElem?_set_self hl]

theorem len_store (m : Mem K) (x l : Nat) (v : Ptr) (rel : Bool) :
    (m.apply (.store x l v rel)).nodes.length = m.nodes.length := by
  simp [Mem.apply]

theorem keys_store {m : Mem K} {x l : Nat} {v : Ptr} {rel : Bool}
    (h : ∀ x n, m.nodes[x]? = some n → x ≠ 0 → n.key = key x) :
    ∀ y n, (m.apply (.store x l v rel)).nodes[y]? = some n → y ≠ 0 → n.key = key y := by
  intro y n hn hy
  simp only [Mem.apply, List.getElem?_modify] at hn
  cases hm : m.nodes[y]? with
  | none => rw [hm] at hn; simp at hn
  | some n' =>
    rw [hm] at hn
    simp only [Option.map_eq_map, Option.map_some, Option.some.injEq] at hn
    have := h y n' hm hy
    subst hn
    split <;> exact this

/-! ### Stores that keep the lists well formed -/

theorem inv_setMax {m : Mem K} {S} (h : Inv cmp key m S) (n : Nat) :
    Inv cmp key (m.apply (.setMax n)) S := by
  refine ⟨h.pos, h.keys, h.valid, h.nested, h.distinct, ?_⟩
  intro l x hl hx
  obtain ⟨r, hr, hok⟩ := h.linked l x hl hx
  exact ⟨r, by rw [next_setMax]; exact hr, hok⟩

theorem inv_new {m : Mem K} {S} (h : Inv cmp key m S) (k : K) (n : Nat)
    (hk : key m.nodes.length = k) : Inv cmp key (m.apply (.new k n)) S := by
  have hlen : (m.apply (.new k n)).nodes.length = m.nodes.length + 1 := by simp [Mem.apply]
  refine ⟨by omega, ?_, ?_, h.nested, h.distinct, ?_⟩
  · intro x nd hx h0
    by_cases hlt : x < m.nodes.length
    · simp only [Mem.apply, List.getElem?_append_left hlt] at hx
      exact h.keys x nd hx h0
    · have hx' : x < m.nodes.length + 1 := by
        rw [← hlen]; exact (List.getElem?_eq_some_iff.mp hx).1
      have : x = m.nodes.length := by omega
      subst this
      simp only [Mem.apply, List.getElem?_concat_length, Option.some.injEq] at hx
      subst hx; exact hk.symm
  · intro l y hy
    obtain ⟨h0, h1, h2⟩ := h.valid l y hy
    exact ⟨h0, by omega, h2⟩
  · intro l x hl hx
    obtain ⟨r, hr, hok⟩ := h.linked l x hl hx
    have hxl : x < m.nodes.length := by
      rcases hx with hx | hx
      · rw [hx]; exact h.pos
      · exact (h.valid l x hx).2.1
    exact ⟨r, by rw [next_new _ _ _ _ _ hxl]; exact hr, hok⟩

/-- A store to a link that no reader can follow yet. -/
theorem inv_store_private {m : Mem K} {S} (h : Inv cmp key m S) {x l : Nat} (v : Ptr) (rel : Bool)
    (hx : x ≠ 0) (hns : ¬ S l x) : Inv cmp key (m.apply (.store x l v rel)) S := by
  refine ⟨by rw [len_store]; exact h.pos, keys_store h.keys, ?_, h.nested, h.distinct, ?_⟩
  · intro l y hy; rw [len_store]; exact h.valid l y hy
  · intro l' x' hl hx'
    obtain ⟨r, hr, hok⟩ := h.linked l' x' hl hx'
    refine ⟨r, ?_, hok⟩
    rw [next_store_other]; exact hr
    rintro ⟨rfl, rfl⟩
    rcases hx' with e | e
    · exact hx e
    · exact hns e

/-- Publishing node `x` at level `i` behind `p`. -/
theorem inv_publish (hc : CmpOK cmp) {m : Mem K} {S} (h : Inv cmp key m S) {x p i : Nat} (rel : Bool)
    (hx0 : x ≠ 0) (hxlen : x < m.nodes.length) (hi : i < 12) (hns : ¬ S i x)
    (hbelow : ∀ j, j < i → S j x) (hdist : ∀ y, S 0 y → y ≠ x → cmp (key x) (key y) ≠ 0)
    (hp : p = 0 ∨ S i p) (hpx : nlt cmp key p x)
    (hgap : ∀ z, S i z → nlt cmp key p z → nlt cmp key x z)
    (hsame : m.next (some x) i = m.next (some p) i) :
    Inv cmp key (m.apply (.store p i (some x) rel)) (fun l y => S l y ∨ (l = i ∧ y = x)) := by
  have hpne : p ≠ x := fun e => nlt_irrefl hc (e ▸ hpx)
  refine ⟨by rw [len_store]; exact h.pos, keys_store h.keys, ?_, ?_, ?_, ?_⟩
  · rintro l y (hy | ⟨rfl, rfl⟩)
    · rw [len_store]; exact h.valid l y hy
    · rw [len_store]; exact ⟨hx0, hxlen, hi⟩
  · rintro l y (hy | ⟨rfl, rfl⟩)
    · exact Or.inl (h.nested l y hy)
    · exact Or.inl (hbelow l (by omega))
  · have key_symm : ∀ a b : Nat, cmp (key a) (key b) ≠ 0 → cmp (key b) (key a) ≠ 0 :=
      fun a b hab e => hab (cmp_zero_symm hc e)
    rintro a c (ha | ⟨_, rfl⟩) (hb | ⟨_, rfl⟩) hne
    · exact h.distinct a c ha hb hne
    · exact key_symm _ _ (hdist a ha hne)
    · exact hdist c hb (Ne.symm hne)
    · exact absurd rfl hne
  · intro l w hl hw
    by_cases hli : l = i
    · subst hli
      by_cases hwp : w = p
      · subst hwp
        obtain ⟨r, hr, _⟩ := h.linked l w hl hp
        refine ⟨some x, ?_, Or.inr ⟨rfl, rfl⟩, hpx, ?_⟩
        · unfold Mem.next at hr
          simp only at hr
          cases hn : m.nodes[w]? with
          | none => rw [hn] at hr; simp at hr
          | some n =>
            rw [hn] at hr; simp only at hr
            have hlt : l < n.next.length := by
              cases hg : n.next[l]? with
              | none => rw [hg] at hr; simp at hr
              | some _ => exact (List.getElem?_eq_some_iff.mp hg).1
            exact next_store_same m w l _ rel hn hlt
        · rintro z (hz | ⟨_, rfl⟩) hlt
          · exact Or.inr (hgap z hz hlt)
          · exact Or.inl rfl
      · by_cases hwx : w = x
        · subst hwx
          obtain ⟨r, hr, hok⟩ := h.linked l p hl hp
          refine ⟨r, ?_, ?_⟩
          · rw [next_store_other _ _ _ _ _ _ _ (by rintro ⟨e, _⟩; exact hwp e), hsame]; exact hr
          · cases r with
            | none =>
              rintro z (hz | ⟨_, rfl⟩) hlt
              · exact hok z hz (nlt_trans hc hpx hlt)
              · exact nlt_irrefl hc hlt
            | some y =>
              obtain ⟨hy, hpy, hmin⟩ := hok
              refine ⟨Or.inl hy, hgap y hy hpy, ?_⟩
              rintro z (hz | ⟨_, rfl⟩) hlt
              · exact hmin z hz (nlt_trans hc hpx hlt)
              · exact absurd hlt (nlt_irrefl hc)
        · have hw' : w = 0 ∨ S l w := by
            rcases hw with hw | hw | ⟨_, hw⟩
            · exact Or.inl hw
            · exact Or.inr hw
            · exact absurd hw hwx
          obtain ⟨r, hr, hok⟩ := h.linked l w hl hw'
          refine ⟨r, ?_, ?_⟩
          · rw [next_store_other _ _ _ _ _ _ _ (by rintro ⟨e, _⟩; exact hwp e)]; exact hr
          · -- if `w` is below the new node it is below `p`
            have hwlt : nlt cmp key w x → nlt cmp key w p := by
              intro hlt
              rcases nlt_total hc h hw' hp with e | e | e
              · exact absurd e hwp
              · exact e
              · rcases hw' with e0 | e0
                · exact absurd e0 e.1
                · exact absurd (nlt_trans hc hlt (hgap w e0 e)) (nlt_irrefl hc)
            cases r with
            | none =>
              rintro z (hz | ⟨_, rfl⟩) hlt
              · exact hok z hz hlt
              · have hwp' := hwlt hlt
                rcases hp with e | e
                · exact hwp'.1 e
                · exact hok p e hwp'
            | some y =>
              obtain ⟨hy, hwy, hmin⟩ := hok
              refine ⟨Or.inl hy, hwy, ?_⟩
              rintro z (hz | ⟨_, rfl⟩) hlt
              · exact hmin z hz hlt
              · right
                have hwp' := hwlt hlt
                rcases hp with e | e
                · exact absurd e hwp'.1
                · rcases hmin p e hwp' with e' | e'
                  · exact e' ▸ hpx
                  · exact nlt_trans hc e' hpx
    · have hw' : w = 0 ∨ S l w := by
        rcases hw with hw | hw | ⟨e, _⟩
        · exact Or.inl hw
        · exact Or.inr hw
        · exact absurd e hli
      obtain ⟨r, hr, hok⟩ := h.linked l w hl hw'
      refine ⟨r, ?_, ?_⟩
      · rw [next_store_other _ _ _ _ _ _ _ (by rintro ⟨_, e⟩; exact hli e)]; exact hr
      · cases r with
        | none =>
          rintro z (hz | ⟨e, _⟩) hlt
          · exact hok z hz hlt
          · exact absurd e hli
        | some y =>
          obtain ⟨hy, hwy, hmin⟩ := hok
          refine ⟨Or.inl hy, hwy, ?_⟩
          rintro z (hz | ⟨e, _⟩) hlt
          · exact hmin z hz hlt
          · exact absurd e hli

end
end SkipList
end Lsmdb
