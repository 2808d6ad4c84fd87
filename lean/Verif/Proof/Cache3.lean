import Verif.Proof.Cache2

/-! # The two circular doubly linked lists -/

namespace Lsmdb
namespace Cache

/-- Consecutive elements are linked in both directions. -/
def Seg (nx pv : Ptr → Option Ptr) : List Ptr → Prop
  | x :: y :: r => nx x = some y ∧ pv y = some x ∧ Seg nx pv (y :: r)
  | _ => True

theorem Seg.congr {nx pv nx' pv' : Ptr → Option Ptr} : ∀ {Q : List Ptr}, Seg nx pv Q →
    (∀ x ∈ Q.dropLast, nx' x = nx x) → (∀ x ∈ Q.tail, pv' x = pv x) → Seg nx' pv' Q
  | [], _, _, _ => trivial
  | [_], _, _, _ => trivial
  | x :: y :: r, h, h1, h2 => by
    refine ⟨?_, ?_, ?_⟩
    · rw [h1 x (by simp)]; exact h.1
    · rw [h2 y (by simp)]; exact h.2.1
    · refine h.2.2.congr (fun z hz => h1 z ?_) (fun z hz => h2 z ?_)
      · simp only [List.dropLast_cons_cons, List.mem_cons]; exact Or.inr hz
      · simp only [List.tail_cons, List.mem_cons] at hz ⊢; exact Or.inr hz

theorem seg_split {nx pv : Ptr → Option Ptr} : ∀ {A : List Ptr} {x : Ptr} {B : List Ptr},
    Seg nx pv (A ++ x :: B) ↔ Seg nx pv (A ++ [x]) ∧ Seg nx pv (x :: B)
  | [], x, B => by
    show Seg nx pv (x :: B) ↔ Seg nx pv [x] ∧ Seg nx pv (x :: B)
    exact ⟨fun h => ⟨trivial, h⟩, fun h => h.2⟩
  | [a], x, B => by
    show (_ ∧ _ ∧ Seg nx pv (x :: B)) ↔ (_ ∧ _ ∧ Seg nx pv [x]) ∧ _
    constructor
    · rintro ⟨h1, h2, h3⟩; exact ⟨⟨h1, h2, trivial⟩, h3⟩
    · rintro ⟨⟨h1, h2, _⟩, h3⟩; exact ⟨h1, h2, h3⟩
  | a :: b :: A, x, B => by
    have ih := seg_split (nx := nx) (pv := pv) (A := b :: A) (x := x) (B := B)
    show (_ ∧ _ ∧ Seg nx pv (b :: A ++ x :: B)) ↔ (_ ∧ _ ∧ Seg nx pv (b :: A ++ [x])) ∧ _
    rw [ih]
    constructor
    · rintro ⟨h1, h2, h3, h4⟩; exact ⟨⟨h1, h2, h3⟩, h4⟩
    · rintro ⟨⟨h1, h2, h3⟩, h4⟩; exact ⟨h1, h2, h3, h4⟩

/-- The circular list with head `p` holds exactly the handles `L`, in `next` order. -/
def DL (nx pv : Ptr → Option Ptr) (p : Ptr) (L : List Nat) : Prop :=
  Seg nx pv (p :: L.map Ptr.node ++ [p])

def isHead (p : Ptr) : Prop := ∀ a, p ≠ .node a

theorem isHead_lru : isHead .lru := fun _ h => nomatch h
theorem isHead_inUse : isHead .inUse := fun _ h => nomatch h

theorem mem_map_node {a : Nat} {L : List Nat} : Ptr.node a ∈ L.map Ptr.node ↔ a ∈ L := by
  constructor
  · intro h
    obtain ⟨b, hb, e⟩ := List.mem_map.mp h
    cases e; exact hb
  · intro h; exact List.mem_map.mpr ⟨a, h, rfl⟩

theorem head_not_mem {p : Ptr} (hp : isHead p) (L : List Nat) : p ∉ L.map Ptr.node := by
  intro h
  obtain ⟨b, _, e⟩ := List.mem_map.mp h
  exact hp b e.symm

/-- Lists whose links lie outside the changed cells are kept. -/
theorem DL.congr {nx pv nx' pv' : Ptr → Option Ptr} {p : Ptr} {L : List Nat} (h : DL nx pv p L)
    (h1 : ∀ x, x = p ∨ x ∈ L.map Ptr.node → nx' x = nx x)
    (h2 : ∀ x, x = p ∨ x ∈ L.map Ptr.node → pv' x = pv x) : DL nx' pv' p L := by
  refine Seg.congr h ?_ ?_
  · intro x hx
    rw [List.dropLast_concat] at hx
    exact h1 x (List.mem_cons.mp hx)
  · intro x hx
    simp only [List.cons_append, List.tail_cons, List.mem_append, List.mem_singleton] at hx
    exact h2 x hx.symm

theorem DL.next_head {nx pv : Ptr → Option Ptr} {p : Ptr} {L : List Nat} (h : DL nx pv p L) :
    nx p = some ((L.map Ptr.node).headD p) := by
  cases L with
  | nil => exact h.1
  | cons a L => exact h.1

theorem DL.prev_head {nx pv : Ptr → Option Ptr} {p : Ptr} {L : List Nat} (h : DL nx pv p L) :
    pv p = some ((p :: L.map Ptr.node).getLast (by simp)) := by
  unfold DL at h
  obtain ⟨A, x, hA⟩ : ∃ A x, p :: L.map Ptr.node = A ++ [x] :=
    ⟨_, _, (List.dropLast_concat_getLast (by simp : p :: L.map Ptr.node ≠ [])).symm⟩
  have hl : (p :: L.map Ptr.node).getLast (by simp) = x := by
    simp [hA]
  rw [hl]
  rw [show p :: L.map Ptr.node ++ [p] = A ++ x :: [p] from by rw [hA]; simp] at h
  exact (seg_split.mp h).2.2.1

/-- Result of unlinking or linking: new `next`/`prev` of all objects. -/
theorem LRU_Remove_spec {h : Heap} {p : Ptr} (hp : isHead p) {L1 L2 : List Nat} {a : Nat}
    (hd : DL h.next h.prev p (L1 ++ a :: L2)) (hnd : (L1 ++ a :: L2).Nodup)
    (hl : ∀ b ∈ L1 ++ a :: L2, h.live b = true) :
    ∃ nx' pv', LRU_Remove h (.node a) = .ok { h with next := nx', prev := pv' } ∧
      DL nx' pv' p (L1 ++ L2) ∧
      (∀ q M, isHead q → q ≠ p → (∀ b ∈ M, b ∉ L1 ++ a :: L2) → DL h.next h.prev q M →
        DL nx' pv' q M) ∧
      (∀ b, h.next (.node b) ≠ some (.node b) → nx' (.node b) ≠ some (.node b)) := by
  unfold DL at hd
  obtain ⟨A, x, hA⟩ : ∃ A x, p :: L1.map Ptr.node = A ++ [x] :=
    ⟨_, _, (List.dropLast_concat_getLast (by simp : p :: L1.map Ptr.node ≠ [])).symm⟩
  obtain ⟨y, B, hB⟩ : ∃ y B, L2.map Ptr.node ++ [p] = y :: B := by
    cases hh : L2.map Ptr.node ++ [p] with
    | nil => simp at hh
    | cons y B => exact ⟨y, B, rfl⟩
  have e1 : p :: (L1 ++ a :: L2).map Ptr.node ++ [p] = A ++ x :: (.node a :: y :: B) := by
    rw [← hB]
    have : p :: (L1 ++ a :: L2).map Ptr.node ++ [p] =
      (p :: L1.map Ptr.node) ++ (.node a :: (L2.map Ptr.node ++ [p])) := by simp
    rw [this, hA]; simp
  rw [e1] at hd
  obtain ⟨s1, n1, v1, s2⟩ := seg_split.mp hd
  obtain ⟨n2, v2, s3⟩ := s2
  -- facts about the cells
  have hnd' := List.nodup_append.mp hnd
  have hnd2 := List.nodup_cons.mp hnd'.2.1
  have hx : x = p ∨ x ∈ L1.map Ptr.node := by
    have : x ∈ p :: L1.map Ptr.node := by rw [hA]; simp
    exact List.mem_cons.mp this
  have hy : y = p ∨ y ∈ L2.map Ptr.node := by
    have : y ∈ L2.map Ptr.node ++ [p] := by rw [hB]; simp
    rcases List.mem_append.mp this with h | h
    · exact Or.inr h
    · exact Or.inl (List.mem_singleton.mp h)
  have hxlive : deref h (some x) = .ok x := by
    rcases hx with rfl | hx
    · cases x <;> first | rfl | exact absurd rfl (hp _)
    · obtain ⟨b, hb, rfl⟩ := List.mem_map.mp hx
      simp [deref, hl b (by simp [hb])]
  have hylive : deref h (some y) = .ok y := by
    rcases hy with rfl | hy
    · cases y <;> first | rfl | exact absurd rfl (hp _)
    · obtain ⟨b, hb, rfl⟩ := List.mem_map.mp hy
      simp [deref, hl b (by simp [hb])]
  have hane : Ptr.node a ≠ y := by
    rintro rfl
    rcases hy with hy | hy
    · exact hp a hy.symm
    · exact hnd2.1 (mem_map_node.mp hy)
  refine ⟨upd h.next x (some y), upd h.prev y (some x), ?_, ?_, ?_, ?_⟩
  · unfold LRU_Remove
    have hla : deref h (some (.node a)) = .ok (.node a) := by simp [deref, hl a (by simp)]
    have hder : ∀ (pv : Ptr → Option Ptr) (q : Option Ptr), deref { h with prev := pv } q = deref h q := by
      intro pv q; cases q with
      | none => rfl
      | some q => cases q <;> rfl
    simp only [hla, bind, Except.bind, n2, hylive, v1, hder, upd_other _ _ hane, hxlive, pure,
      Except.pure]
  · have e2 : p :: (L1 ++ L2).map Ptr.node ++ [p] = A ++ x :: (y :: B) := by
      rw [← hB]
      have : p :: (L1 ++ L2).map Ptr.node ++ [p] =
        (p :: L1.map Ptr.node) ++ (L2.map Ptr.node ++ [p]) := by simp
      rw [this, hA]; simp
    unfold DL
    rw [e2]
    refine seg_split.mpr ⟨?_, upd_same _ _ _, upd_same _ _ _, ?_⟩
    · refine s1.congr ?_ ?_
      · intro z hz
        rw [List.dropLast_concat] at hz
        refine upd_other _ _ ?_
        rintro rfl
        have : (p :: L1.map Ptr.node).Nodup := by
          rw [List.nodup_cons]
          exact ⟨head_not_mem hp L1, hnd'.1.map _ (fun a b h e => h (Ptr.node.inj e))⟩
        rw [hA] at this
        exact (List.nodup_append.mp this).2.2 z hz z (by simp) rfl
      · intro z hz
        rw [← hA, List.tail_cons] at hz
        refine upd_other _ _ ?_
        rintro rfl
        rcases hy with rfl | hy
        · exact head_not_mem hp _ hz
        · obtain ⟨b, hb, rfl⟩ := List.mem_map.mp hz
          exact hnd'.2.2 b hb b (by simp [mem_map_node.mp hy]) rfl
    · refine s3.congr ?_ ?_
      · intro z hz
        rw [← hB, List.dropLast_concat] at hz
        refine upd_other _ _ ?_
        rintro rfl
        rcases hx with rfl | hx
        · exact head_not_mem hp _ hz
        · obtain ⟨b, hb, rfl⟩ := List.mem_map.mp hz
          exact hnd'.2.2 b (mem_map_node.mp hx) b (by simp [hb]) rfl
      · intro z hz
        refine upd_other _ _ ?_
        rintro rfl
        have : (L2.map Ptr.node ++ [p]).Nodup := by
          rw [List.nodup_append]
          refine ⟨hnd2.2.map _ (fun a b h e => h (Ptr.node.inj e)), by simp, ?_⟩
          intro u hu v hv
          rw [List.mem_singleton] at hv
          subst hv
          rintro rfl
          exact head_not_mem hp _ hu
        rw [hB] at this
        exact (List.nodup_cons.mp this).1 hz
  · intro q M hq hne hdis hdl
    refine hdl.congr ?_ ?_
    · intro z hz
      refine upd_other _ _ ?_
      rintro rfl
      rcases hz with rfl | hz
      · rcases hx with rfl | hx
        · exact hne rfl
        · exact head_not_mem hq _ hx
      · obtain ⟨b, hb, rfl⟩ := List.mem_map.mp hz
        rcases hx with hx | hx
        · exact hp b hx.symm
        · exact hdis b hb (by simp [mem_map_node.mp hx])
    · intro z hz
      refine upd_other _ _ ?_
      rintro rfl
      rcases hz with rfl | hz
      · rcases hy with rfl | hy
        · exact hne rfl
        · exact head_not_mem hq _ hy
      · obtain ⟨b, hb, rfl⟩ := List.mem_map.mp hz
        rcases hy with hy | hy
        · exact hp b hy.symm
        · exact hdis b hb (by simp [mem_map_node.mp hy])
  · intro b hb
    by_cases e : Ptr.node b = x
    · rw [e, upd_same]
      intro e2
      have e2 := Option.some.inj e2
      rw [← e] at hx e2
      subst e2
      rcases hx with hx | hx
      · exact hp b hx.symm
      · rcases hy with hy | hy
        · exact hp b hy.symm
        · exact hnd'.2.2 b (mem_map_node.mp hx) b (by simp [mem_map_node.mp hy]) rfl
    · rw [upd_other _ _ e]; exact hb

theorem LRU_Append_spec {h : Heap} {p : Ptr} (hp : isHead p) {L : List Nat} {a : Nat}
    (hd : DL h.next h.prev p L) (hnd : L.Nodup) (ha : a ∉ L)
    (hl : ∀ b ∈ L, h.live b = true) (hla : h.live a = true) :
    ∃ nx' pv', LRU_Append h p (.node a) = .ok { h with next := nx', prev := pv' } ∧
      DL nx' pv' p (L ++ [a]) ∧
      (∀ q M, isHead q → q ≠ p → (∀ b ∈ M, b ∉ L ++ [a]) → DL h.next h.prev q M →
        DL nx' pv' q M) ∧
      (∀ b, (b ≠ a → h.next (.node b) ≠ some (.node b)) → nx' (.node b) ≠ some (.node b)) := by
  have hpv := hd.prev_head
  obtain ⟨A, x, hA⟩ : ∃ A x, p :: L.map Ptr.node = A ++ [x] :=
    ⟨_, _, (List.dropLast_concat_getLast (by simp : p :: L.map Ptr.node ≠ [])).symm⟩
  have hlast : (p :: L.map Ptr.node).getLast (by simp) = x := by
    simp [hA]
  rw [hlast] at hpv
  unfold DL at hd
  rw [hA, show A ++ [x] ++ [p] = A ++ x :: [p] by simp] at hd
  have s1 := (seg_split.mp hd).1
  have hx : x = p ∨ x ∈ L.map Ptr.node := by
    have : x ∈ p :: L.map Ptr.node := by rw [hA]; simp
    exact List.mem_cons.mp this
  have hxa : Ptr.node a ≠ x := by
    rintro rfl
    rcases hx with hx | hx
    · exact hp a hx.symm
    · exact ha (mem_map_node.mp hx)
  have hpa : p ≠ Ptr.node a := hp a
  have hxlive : deref h (some x) = .ok x := by
    rcases hx with rfl | hx
    · cases x <;> first | rfl | exact absurd rfl (hp _)
    · obtain ⟨b, hb, rfl⟩ := List.mem_map.mp hx
      simp [deref, hl b hb]
  have hplive : deref h (some p) = .ok p := by
    cases p <;> first | rfl | exact absurd rfl (hp _)
  refine ⟨upd (upd h.next (.node a) (some p)) x (some (.node a)),
    upd (upd h.prev (.node a) (some x)) p (some (.node a)), ?_, ?_, ?_, ?_⟩
  · unfold LRU_Append
    have hlad : deref h (some (.node a)) = .ok (.node a) := by simp [deref, hla]
    have hder : ∀ (nx pv : Ptr → Option Ptr) (q : Option Ptr),
        deref { h with next := nx, prev := pv } q = deref h q := by
      intro nx pv q; cases q with
      | none => rfl
      | some q => cases q <;> rfl
    simp only [hlad, hplive, bind, Except.bind, hpv, upd_same, hder, hxlive,
      upd_other _ _ hxa, pure, Except.pure]
  · have e2 : p :: (L ++ [a]).map Ptr.node ++ [p] = A ++ x :: (.node a :: [p]) := by
      have : p :: (L ++ [a]).map Ptr.node ++ [p] = (p :: L.map Ptr.node) ++ [.node a, p] := by simp
      rw [this, hA]; simp
    unfold DL
    rw [e2]
    refine seg_split.mpr ⟨?_, upd_same _ _ _, ?_, ?_, upd_same _ _ _, trivial⟩
    · refine s1.congr ?_ ?_
      · intro z hz
        rw [List.dropLast_concat] at hz
        have hz' : z ∈ p :: L.map Ptr.node := by rw [hA]; simp [hz]
        have h1 : z ≠ x := by
          rintro rfl
          have : (p :: L.map Ptr.node).Nodup := by
            rw [List.nodup_cons]
            exact ⟨head_not_mem hp L, hnd.map _ (fun a b h e => h (Ptr.node.inj e))⟩
          rw [hA] at this
          exact (List.nodup_append.mp this).2.2 z hz z (by simp) rfl
        have h2 : z ≠ Ptr.node a := by
          rintro rfl
          rcases List.mem_cons.mp hz' with h | h
          · exact hp a h.symm
          · exact ha (mem_map_node.mp h)
        rw [upd_other _ _ h1, upd_other _ _ h2]
      · intro z hz
        rw [← hA, List.tail_cons] at hz
        have h1 : z ≠ p := by rintro rfl; exact head_not_mem hp _ hz
        have h2 : z ≠ Ptr.node a := by rintro rfl; exact ha (mem_map_node.mp hz)
        rw [upd_other _ _ h1, upd_other _ _ h2]
    · rw [upd_other _ _ hpa.symm, upd_same]
    · rw [upd_other _ _ hxa, upd_same]
  · intro q M hq hne hdis hdl
    have key : ∀ z, z = q ∨ z ∈ M.map Ptr.node → z ≠ x ∧ z ≠ p ∧ z ≠ Ptr.node a := by
      intro z hz
      rcases hz with rfl | hz
      · refine ⟨?_, hne, hq a⟩
        rintro rfl
        rcases hx with hx | hx
        · exact hne hx
        · exact head_not_mem hq _ hx
      · obtain ⟨b, hb, rfl⟩ := List.mem_map.mp hz
        have := hdis b hb
        rw [List.mem_append, not_or] at this
        refine ⟨?_, fun e => hp b e.symm, fun e => this.2 (by simp [Ptr.node.inj e])⟩
        rintro rfl
        rcases hx with hx | hx
        · exact hp b hx.symm
        · exact this.1 (mem_map_node.mp hx)
    refine hdl.congr ?_ ?_
    · intro z hz
      obtain ⟨h1, h2, h3⟩ := key z hz
      rw [upd_other _ _ h1, upd_other _ _ h3]
    · intro z hz
      obtain ⟨h1, h2, h3⟩ := key z hz
      rw [upd_other _ _ h2, upd_other _ _ h3]
  · intro b hb
    by_cases e : Ptr.node b = x
    · rw [e, upd_same]
      intro e2
      exact hxa (Option.some.inj e2)
    · rw [upd_other _ _ e]
      by_cases e3 : b = a
      · subst e3
        rw [upd_same]
        intro e4
        exact hp b (Option.some.inj e4)
      · rw [upd_other _ _ (fun e4 => e3 (Ptr.node.inj e4))]
        exact hb e3

end Cache
end Lsmdb
