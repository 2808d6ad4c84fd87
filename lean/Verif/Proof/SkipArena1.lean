import Verif.Spec.SkipArena
import Verif.Proof.Arena
import Verif.Proof.SkipList4
import Mathlib.Tactic.ByContra

/-!
# The list in the arena simulates the list of `Model/SkipList`: memory
-/

namespace Lsmdb
namespace SkipArena
open SkipList (Ptr Build Pos Search Step assertIf kMaxHeight IterOp Valid Mem Node SL Ev)
open Spec

section
variable {K : Type} {sz : Nat}

/-! ## Ranges -/

theorem no_overlap {X N Y M a n b m : Nat} (h : Spec.Disjoint X N Y M) (hN : 0 < N) (hM : 0 < M) (h1 : Inside a n X N) (h2 : Inside b m Y M) :
    overlaps a n b m = false := by
  unfold overlaps
  rw [decide_eq_false_iff_not]
  intro ⟨g1, g2⟩
  unfold Inside at h1 h2
  have f : ∀ i, ¬ (X ≤ i ∧ i < X + N ∧ Y ≤ i ∧ i < Y + M) := fun i ⟨a, b, c, d⟩ => h i a b c d
  have fa := f a
  have fa' := f (a - 1)
  have fb := f b
  have fb' := f (b - 1)
  omega

theorem disj_symm {X N Y M : Nat} (h : Spec.Disjoint X N Y M) : Spec.Disjoint Y M X N := fun i a b c d => h i c d a b

theorem readAt_other {ar : Arena.State} {mem : Memory K} {a n b m : Nat} {o : Obj K} (h : overlaps b m a n = false) :
    readAt ar ((a, n, o) :: mem) b m = readAt ar mem b m := by
  simp only [readAt, List.find?_cons, h]

theorem readAt_same {ar : Arena.State} {mem : Memory K} {a n : Nat} {o : Obj K} (ho : owned ar a n = true) (hn : 0 < n) :
    readAt ar ((a, n, o) :: mem) a n = .ok o := by
  have : overlaps a n a n = true := by simp [overlaps, hn]
  simp [readAt, ho, List.find?_cons, this]

theorem readAt_owned {ar : Arena.State} {mem : Memory K} {a n : Nat} {o : Obj K} (h : readAt ar mem a n = .ok o) : owned ar a n = true := by
  unfold readAt at h
  by_cases ho : owned ar a n = true
  · exact ho
  · rw [if_neg ho] at h; cases h

theorem owned_of {ar : Arena.State} {log : List Arena.Alloc} (hi : Arena.Inv ar log) {x : Arena.Alloc} (hx : x ∈ log) {a n : Nat}
    (h : Inside a n x.addr x.size) : owned ar a n = true := by
  obtain ⟨b, hb, hin⟩ := hi.log_in x hx
  unfold Inside at *
  simp only [owned, List.any_eq_true, decide_eq_true_eq]
  exact ⟨b, hb, by omega⟩

/-- The arena keeps its blocks. -/
theorem step_blocks {ar ar' : Arena.State} {c : Arena.Call} {new : Option Nat} {p : Nat} (h : Arena.step ar c new = .ok (some (p, ar'))) :
    ∃ ext, ar'.blocks = ar.blocks ++ ext := by
  have fb : ∀ n, Arena.AllocateFallback ar n new = some (p, ar') → ∃ ext, ar'.blocks = ar.blocks ++ ext := by
    intro n hf
    unfold Arena.AllocateFallback Arena.AllocateNewBlock at hf
    cases new with
    | none => split at hf <;> simp at hf
    | some a => split at hf <;> (cases hf; exact ⟨_, rfl⟩)
  unfold Arena.step at h
  split at h
  · unfold Arena.AllocateAligned at h
    simp only [bind, Except.bind, pure, Except.pure] at h
    generalize (if ar.alloc_ptr % 8 = 0 then 0 else 8 - ar.alloc_ptr % 8) = slop at h
    generalize (c.bytes + slop) % 2 ^ 64 = needed at h
    by_cases hle : needed ≤ ar.remaining
    · rw [if_pos hle] at h
      simp only [cassert] at h
      by_cases hm : (ar.alloc_ptr + slop) % 8 = 0
      · simp only [hm, decide_true, if_true, Except.ok.injEq, Option.some.injEq, Prod.mk.injEq] at h
        obtain ⟨_, rfl⟩ := h
        exact ⟨[], by simp⟩
      · simp [hm] at h
    · rw [if_neg hle] at h
      cases hf : Arena.AllocateFallback ar c.bytes new with
      | none => rw [hf] at h; simp at h
      | some r =>
        obtain ⟨p', ar''⟩ := r
        rw [hf] at h
        simp only [cassert] at h
        by_cases hm : p' % 8 = 0
        · simp only [hm, decide_true, if_true, Except.ok.injEq, Option.some.injEq, Prod.mk.injEq] at h
          obtain ⟨rfl, rfl⟩ := h
          exact fb _ hf
        · simp [hm] at h
  · unfold Arena.Allocate at h
    simp only [bind, Except.bind, pure, Except.pure, cassert] at h
    split at h
    · cases h
    · split at h
      · cases h; exact ⟨[], by simp⟩
      · injection h with h; exact fb _ h

theorem owned_mono {ar ar' : Arena.State} {ext : List (Nat × Nat)} (h : ar'.blocks = ar.blocks ++ ext) {a n : Nat} (ho : owned ar a n = true) :
    owned ar' a n = true := by
  simp only [owned, h, List.any_append, Bool.or_eq_true] at ho ⊢
  exact Or.inl ho

theorem readAt_mono {ar ar' : Arena.State} {ext : List (Nat × Nat)} (h : ar'.blocks = ar.blocks ++ ext) {mem : Memory K} {a n : Nat}
    (ho : owned ar a n = true) : readAt ar' mem a n = readAt ar mem a n := by
  unfold readAt
  rw [if_pos ho, if_pos (owned_mono h ho)]

/-! ## The simulation -/

/-- Nodes of `m` are at addresses `α` in the memory of the arena; `A` are the client's allocations. -/
structure Sim (sz : Nat) (α : Nat → Nat) (s : FL K) (m : Mem K) (A : List Arena.Alloc) (log : List Arena.Alloc) : Prop where
  maxH : s.maxH = m.maxH
  fuel : m.nodes.length ≤ s.mem.length
  keyAt : ∀ (i : Nat) (n : Node K), m.nodes[i]? = some n → readAt s.arena s.mem (α i) sz = .ok (.key n.key)
  linkAt : ∀ (i : Nat) (n : Node K) (l : Nat) (q : Ptr), m.nodes[i]? = some n → n.next[l]? = some (some q) →
    readAt s.arena s.mem (α i + linkOff sz + 8 * l) 8 = .ok (.link (q.map α))
  closed : ∀ (i : Nat) (n : Node K) (l j : Nat), m.nodes[i]? = some n → n.next[l]? = some (some (some j)) → j < m.nodes.length
  inv : Arena.Inv s.arena log
  client : ∀ x ∈ A, x ∈ log
  node : ∀ (i : Nat) (n : Node K), m.nodes[i]? = some n → 1 ≤ n.next.length ∧ (⟨α i, nodeBytes sz n.next.length, true⟩ : Arena.Alloc) ∈ log
  nodes_disj : ∀ (i j : Nat) (n n' : Node K), i ≠ j → m.nodes[i]? = some n → m.nodes[j]? = some n' →
    Spec.Disjoint (α i) (nodeBytes sz n.next.length) (α j) (nodeBytes sz n'.next.length)
  client_disj : ∀ (i : Nat) (n : Node K), m.nodes[i]? = some n → ∀ x ∈ A, Spec.Disjoint (α i) (nodeBytes sz n.next.length) x.addr x.size

/-- A pointer to a node that exists. -/
def InR (m : Mem K) (p : Ptr) : Prop := ∀ j, p = some j → j < m.nodes.length

theorem nodeBytes_pos (sz h : Nat) : 0 < nodeBytes sz h := by unfold nodeBytes sizeofNode; omega

theorem key_inside (sz a h : Nat) : Inside a sz a (nodeBytes sz h) := by
  unfold Inside nodeBytes sizeofNode linkOff; omega

theorem link_inside (sz a : Nat) {l h : Nat} (hl : l < h) : Inside (a + linkOff sz + 8 * l) 8 a (nodeBytes sz h) := by
  unfold Inside nodeBytes sizeofNode; omega

variable {α : Nat → Nat} {s : FL K} {m : Mem K} {A log : List Arena.Alloc}

theorem Sim.inj (h : Sim sz α s m A log) {i j : Nat} (hi : i < m.nodes.length) (hj : j < m.nodes.length) (he : α i = α j) : i = j := by
  by_cases hij : i = j
  · exact hij
  · have g1 := List.getElem?_eq_getElem hi
    have g2 := List.getElem?_eq_getElem hj
    have p1 := nodeBytes_pos sz (m.nodes[i]).next.length
    have p2 := nodeBytes_pos sz (m.nodes[j]).next.length
    exact (h.nodes_disj i j _ _ hij g1 g2 (α i) (Nat.le_refl _) (by omega) (by omega) (by omega)).elim

theorem Sim.aligned (h : Sim sz α s m A log) {i : Nat} {n : Node K} (hn : m.nodes[i]? = some n) : α i % 8 = 0 :=
  h.inv.aligned _ (h.node i n hn).2 rfl

theorem linkAddr_ok (h : Sim sz α s m A log) {i : Nat} {n : Node K} (hn : m.nodes[i]? = some n) (l : Nat) :
    linkAddr sz (α i) l = .ok (α i + linkOff sz + 8 * l) := by
  have := h.aligned hn
  unfold linkAddr
  have e : (α i + linkOff sz + 8 * l) % 8 = 0 := by unfold linkOff; omega
  simp only [e, if_true]

theorem next_node {p : Ptr} {l : Nat} {q : Ptr} (h : m.next p l = .ok q) :
    ∃ i n, p = some i ∧ m.nodes[i]? = some n ∧ n.next[l]? = some (some q) := by
  cases p with
  | none => cases h
  | some i =>
    simp only [Mem.next] at h
    cases hn : m.nodes[i]? with
    | none => rw [hn] at h; cases h
    | some n =>
      rw [hn] at h
      simp only at h
      cases hq : n.next[l]? with
      | none => rw [hq] at h; cases h
      | some o =>
        cases o with
        | none => rw [hq] at h; cases h
        | some q' => rw [hq] at h; cases h; exact ⟨i, n, rfl, hn, hq⟩

theorem key_node {p : Ptr} {k : K} (h : m.key p = .ok k) : ∃ i n, p = some i ∧ m.nodes[i]? = some n ∧ n.key = k := by
  cases p with
  | none => cases h
  | some i =>
    simp only [Mem.key] at h
    cases hn : m.nodes[i]? with
    | none => rw [hn] at h; cases h
    | some n => rw [hn] at h; cases h; exact ⟨i, n, rfl, hn, rfl⟩

theorem lt_of_get {β : Type} {l : List β} {i : Nat} {x : β} (h : l[i]? = some x) : i < l.length := by
  by_contra hc
  rw [List.getElem?_eq_none (by omega)] at h; cases h

theorem sim_next (h : Sim sz α s m A log) {p : Ptr} {l : Nat} {q : Ptr} (hq : m.next p l = .ok q) :
    next sz s (p.map α) l = .ok (q.map α) ∧ InR m p ∧ InR m q := by
  obtain ⟨i, n, rfl, hn, hl⟩ := next_node hq
  refine ⟨?_, ?_, ?_⟩
  · simp only [Option.map_some, next, linkAddr_ok h hn, bind, Except.bind, h.linkAt i n l q hn hl, pure, Except.pure]
  · intro j e; cases e; exact lt_of_get hn
  · intro j e; subst e; exact h.closed i n l j hn hl

theorem sim_key (h : Sim sz α s m A log) {p : Ptr} {k : K} (hk : m.key p = .ok k) : keyOf sz s (p.map α) = .ok k := by
  obtain ⟨i, n, rfl, hn, rfl⟩ := key_node hk
  simp only [Option.map_some, keyOf, bind, Except.bind, h.keyAt i n hn, pure, Except.pure]

/-- The store of a link. -/
theorem sim_set {sl sl' : SL K} (h : Sim sz α s sl.mem A log) {p v : Ptr} {l : Nat} {rel : Bool}
    (hs : SkipList.SetNext sl p l v rel = .ok sl') (hv : InR sl.mem v) :
    ∃ s', setNext sz s (p.map α) l (v.map α) = .ok s' ∧ Sim sz α s' sl'.mem A log ∧ s'.arena = s.arena ∧ s'.rnd = s.rnd ∧ s'.head = s.head ∧
      sl'.rnd = sl.rnd ∧ sl'.mem.nodes.length = sl.mem.nodes.length ∧
      ∀ x ∈ A, ∀ a n, Inside a n x.addr x.size → readAt s'.arena s'.mem a n = readAt s.arena s.mem a n := by
  cases p with
  | none => cases hs
  | some x =>
    simp only [SkipList.SetNext] at hs
    cases hn : sl.mem.nodes[x]? with
    | none => rw [hn] at hs; cases hs
    | some n =>
      rw [hn] at hs
      simp only at hs
      by_cases hl : l < n.next.length
      · rw [if_pos hl] at hs
        cases hs
        have hlog := (h.node x n hn).2
        have hown : owned s.arena (α x + linkOff sz + 8 * l) 8 = true := owned_of h.inv hlog (link_inside sz (α x) hl)
        have hnode : ∀ i (n' : Node K), (sl.emit (.store x l v rel)).mem.nodes[i]? = some n' →
            ∃ n0, sl.mem.nodes[i]? = some n0 ∧ n'.key = n0.key ∧ n'.next.length = n0.next.length ∧
              ∀ l', n'.next[l']? = if i = x ∧ l' = l then some (some v) else n0.next[l']? := by
          intro i n' hi
          simp only [SL.emit, Mem.apply, List.getElem?_modify] at hi
          cases h0 : sl.mem.nodes[i]? with
          | none => rw [h0] at hi; cases hi
          | some n0 =>
            rw [h0] at hi
            simp only [Option.map_eq_map, Option.map_some, Option.some.injEq] at hi
            refine ⟨n0, rfl, ?_⟩
            by_cases hx : x = i
            · subst hx
              rw [if_pos rfl] at hi
              subst hi
              rw [hn] at h0; cases h0
              refine ⟨rfl, by simp, fun l' => ?_⟩
              simp only [List.getElem?_set]
              by_cases hll : l = l'
              · subst hll; simp [hl]
              · have : ¬ l' = l := fun e => hll e.symm
                simp [hll, this]
            · rw [if_neg hx] at hi
              subst hi
              have : ¬ i = x := fun e => hx e.symm
              exact ⟨rfl, rfl, fun l' => by simp [this]⟩
        have hlen : (sl.emit (.store x l v rel)).mem.nodes.length = sl.mem.nodes.length := SkipList.len_store sl.mem x l v rel
        refine ⟨{ s with mem := (α x + linkOff sz + 8 * l, 8, .link (v.map α)) :: s.mem }, ?_, ?_, rfl, rfl, rfl, rfl, hlen, ?_⟩
        · simp only [Option.map_some, setNext, linkAddr_ok h hn, bind, Except.bind, writeAt, hown, if_true, pure, Except.pure]
        · refine ⟨h.maxH, ?_, ?_, ?_, ?_, h.inv, h.client, ?_, ?_, ?_⟩
          · rw [hlen]; simp only [List.length_cons]; have := h.fuel; omega
          · intro i n' hi
            obtain ⟨n0, h0, hk, hh, _⟩ := hnode i n' hi
            rw [hk, ← h.keyAt i n0 h0]
            apply readAt_other
            by_cases hix : i = x
            · subst hix
              unfold overlaps linkOff; rw [decide_eq_false_iff_not]; omega
            · exact no_overlap (h.nodes_disj i x n0 n hix h0 hn) (nodeBytes_pos _ _) (nodeBytes_pos _ _) (key_inside _ _ _) (link_inside _ _ hl)
          · intro i n' l' q hi hq
            obtain ⟨n0, h0, hk, hh, hnx⟩ := hnode i n' hi
            rw [hnx] at hq
            by_cases hc : i = x ∧ l' = l
            · rw [if_pos hc] at hq
              obtain ⟨rfl, rfl⟩ := hc
              cases hq
              exact readAt_same hown (by omega)
            · rw [if_neg hc] at hq
              rw [← h.linkAt i n0 l' q h0 hq]
              apply readAt_other
              by_cases hix : i = x
              · subst hix
                have : l' ≠ l := fun e => hc ⟨rfl, e⟩
                unfold overlaps; rw [decide_eq_false_iff_not]; omega
              · exact no_overlap (h.nodes_disj i x n0 n hix h0 hn) (nodeBytes_pos _ _) (nodeBytes_pos _ _)
                  (link_inside _ _ (lt_of_get hq)) (link_inside _ _ hl)
          · intro i n' l' j hi hq
            obtain ⟨n0, h0, hk, hh, hnx⟩ := hnode i n' hi
            rw [hlen]
            rw [hnx] at hq
            by_cases hc : i = x ∧ l' = l
            · rw [if_pos hc] at hq
              simp only [Option.some.injEq] at hq
              exact hv j hq
            · rw [if_neg hc] at hq
              exact h.closed i n0 l' j h0 hq
          · intro i n' hi
            obtain ⟨n0, h0, hk, hh, _⟩ := hnode i n' hi
            rw [hh]; exact h.node i n0 h0
          · intro i j n' n'' hij hi hj
            obtain ⟨n0, h0, hk, hh, _⟩ := hnode i n' hi
            obtain ⟨n1, h1, hk1, hh1, _⟩ := hnode j n'' hj
            rw [hh, hh1]; exact h.nodes_disj i j n0 n1 hij h0 h1
          · intro i n' hi
            obtain ⟨n0, h0, hk, hh, _⟩ := hnode i n' hi
            rw [hh]; exact h.client_disj i n0 h0
        · intro y hy a n' hin
          apply readAt_other
          exact no_overlap (disj_symm (h.client_disj x n hn y hy)) (h.inv.log_pos y (h.client y hy)) (nodeBytes_pos _ _) hin (link_inside _ _ hl)
      · rw [if_neg hl] at hs; cases hs

end
end SkipArena
end Lsmdb
