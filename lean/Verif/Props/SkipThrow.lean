import Verif.Proof.SkipThrow
import Verif.Props.SkipList

/-!
# C112: a comparator that throws
-/

namespace Lsmdb
namespace Props
open Spec SkipList

/-- The three outcomes. -/
theorem ro_cases {σ α : Type} {throws : Nat → Bool} {t : T σ α} {r : σ → M α} (h : RO throws t r) (s : σ) (n : Nat) :
    (∃ a n', r s = .ok a ∧ t s n = (.ok a, s, n')) ∨ (∃ e n', r s = .error e ∧ t s n = (.fault e, s, n')) ∨
      (∃ n', t s n = (.threw, s, n') ∧ ∃ m, throws m = true) := by
  obtain ⟨n', h | h⟩ := h s n
  · cases hr : r s with
    | ok a => rw [hr] at h; exact .inl ⟨a, n', rfl, h⟩
    | error e => rw [hr] at h; exact .inr (.inl ⟨e, n', rfl, h⟩)
  · exact .inr (.inr ⟨n', h⟩)

section
variable {K : Type} (cmp : K → K → Int) (throws : Nat → Bool) (b : Build)

/-- C112: an exception of the comparator that leaves `Insert` leaves the list as it was: no store has been made (so readers in other
threads notice nothing), no node allocated, the generator of heights not used.  A call that no exception leaves does what `Insert` does. -/
theorem C112_insert (s : SL K) (n : Nat) (key : K) :
    ∃ n', (InsertT cmp throws b key s n = (.threw, s, n') ∧ ∃ m, throws m = true) ∨
      (∃ s', SkipList.Insert cmp b s key = .ok s' ∧ InsertT cmp throws b key s n = (.ok (), s', n')) ∨
      (∃ e, SkipList.Insert cmp b s key = .error e ∧ (InsertT cmp throws b key s n).1 = .fault e) :=
  insertT_cases s n key

/-- C112: `Contains` answers right or throws, and changes nothing. -/
theorem C112_contains (m : Mem K) (n : Nat) (key : K) :
    ∃ n', (ContainsT cmp throws key m n = (.threw, m, n') ∧ ∃ k, throws k = true) ∨
      (∃ r, Contains cmp b m key = .ok r ∧ ContainsT cmp throws key m n = (.ok r, m, n')) ∨
      (∃ e, Contains cmp b m key = .error e ∧ (ContainsT cmp throws key m n).1 = .fault e) := by
  rcases ro_cases (contains_ro (cmp := cmp) (b := b) (throws := throws) key) m n with ⟨a, n', h1, h2⟩ | ⟨e, n', h1, h2⟩ | ⟨n', h1, h2⟩
  · exact ⟨n', .inr (.inl ⟨a, h1, h2⟩)⟩
  · exact ⟨n', .inr (.inr ⟨e, h1, by rw [h2]⟩)⟩
  · exact ⟨n', .inl ⟨h1, h2⟩⟩

/-- C112: an exception that leaves an operation of an iterator leaves the iterator where it was; a call that no exception leaves does
what the operation does. -/
theorem C112_iterator (m : Mem K) (node : Ptr) (op : IterOp K) (n : Nat) :
    ∃ n', (iterT cmp throws b op (m, node) n = (.threw, (m, node), n') ∧ ∃ k, throws k = true) ∨
      (∃ node', iter cmp b m node op = .ok node' ∧ iterT cmp throws b op (m, node) n = (.ok (), (m, node'), n')) ∨
      (∃ e, iter cmp b m node op = .error e ∧ (iterT cmp throws b op (m, node) n).1 = .fault e) := by
  cases op with
  | seek t =>
    rcases ro_cases (findGE_ro (cmp := cmp) (throws := throws) b (Prod.fst : Mem K × Ptr → Mem K) t none) (m, node) n with
      ⟨⟨x, p⟩, n', h1, h2⟩ | ⟨e, n', h1, h2⟩ | ⟨n', h1, h2⟩
    · refine ⟨n', .inr (.inl ⟨x, ?_, bind_ok h2⟩)⟩
      show (find cmp b m (.ge t) none >>= _) = _
      rw [h1]; rfl
    · refine ⟨n', .inr (.inr ⟨e, ?_, congrArg Prod.fst (bind_fault h2)⟩)⟩
      show (find cmp b m (.ge t) none >>= _) = _
      rw [h1]; rfl
    · exact ⟨n', .inl ⟨bind_threw h1, h2⟩⟩
  | seekToFirst =>
    refine ⟨n, ?_⟩
    show (_ ∧ _) ∨ (∃ node', m.next (some 0) 0 = _ ∧ (T.lift (m.next (some 0) 0) >>= fun x => T.set (m, x) : T (Mem K × Ptr) Unit) (m, node) n = _) ∨
      (∃ e, m.next (some 0) 0 = _ ∧ ((T.lift (m.next (some 0) 0) >>= fun x => T.set (m, x) : T (Mem K × Ptr) Unit) (m, node) n).1 = _)
    cases m.next (some 0) 0 with
    | ok x => exact .inr (.inl ⟨x, rfl, rfl⟩)
    | error e => exact .inr (.inr ⟨e, rfl, rfl⟩)
  | seekToLast =>
    refine ⟨n, ?_⟩
    have e2 : iterT cmp throws b .seekToLast (m, node) n = (T.lift (find cmp b m .last none) >>= fun r => do
      T.set (m, r.1)
      let (m, node) ← T.get
      T.set (m, dropHead node) : T (Mem K × Ptr) Unit) (m, node) n := rfl
    have e1 : iter cmp b m node .seekToLast = (do return dropHead (← find cmp b m .last none).1) := rfl
    rw [e1, e2]
    cases find cmp b m .last none with
    | ok x => exact .inr (.inl ⟨_, rfl, rfl⟩)
    | error e => exact .inr (.inr ⟨e, rfl, rfl⟩)
  | next =>
    refine ⟨n, ?_⟩
    have e2 : iterT cmp throws b .next (m, node) n = (T.lift (assertIf b.asserts (pure (Valid node))) >>= fun _ =>
      T.lift (m.next node 0) >>= fun x => T.set (m, x) : T (Mem K × Ptr) Unit) (m, node) n := rfl
    have e1 : iter cmp b m node .next = (assertIf b.asserts (pure (Valid node)) >>= fun _ => m.next node 0) := rfl
    rw [e1, e2]
    cases assertIf b.asserts (pure (Valid node)) with
    | error e => exact .inr (.inr ⟨e, rfl, rfl⟩)
    | ok _ =>
      cases m.next node 0 with
      | ok x => exact .inr (.inl ⟨x, rfl, rfl⟩)
      | error e => exact .inr (.inr ⟨e, rfl, rfl⟩)
  | prev =>
    have e2 : ∀ n, iterT cmp throws b .prev (m, node) n = (T.lift (assertIf b.asserts (pure (Valid node))) >>= fun _ =>
      T.lift (m.key node) >>= fun k => findLessThanT cmp throws b Prod.fst k >>= fun r => do
      T.set (m, r.1)
      let (m, node) ← T.get
      T.set (m, dropHead node) : T (Mem K × Ptr) Unit) (m, node) n := fun _ => rfl
    have e1 : iter cmp b m node .prev = (assertIf b.asserts (pure (Valid node)) >>= fun _ => m.key node >>= fun k => do
      return dropHead (← find cmp b m (.lt k) none).1) := rfl
    rw [e1, e2]
    cases assertIf b.asserts (pure (Valid node)) with
    | error e => exact ⟨n, .inr (.inr ⟨e, rfl, rfl⟩)⟩
    | ok _ =>
      cases m.key node with
      | error e => exact ⟨n, .inr (.inr ⟨e, rfl, rfl⟩)⟩
      | ok k =>
        rcases ro_cases (findLT_ro (cmp := cmp) (throws := throws) (b := b) (Prod.fst : Mem K × Ptr → Mem K) k) (m, node) n with
          ⟨⟨x, p⟩, n', h1, h2⟩ | ⟨e, n', h1, h2⟩ | ⟨n', h1, h2⟩
        · refine ⟨n', .inr (.inl ⟨dropHead x, ?_, bind_ok h2⟩)⟩
          show (find cmp b m (.lt k) none >>= _) = _
          rw [h1]; rfl
        · refine ⟨n', .inr (.inr ⟨e, ?_, congrArg Prod.fst (bind_fault h2)⟩)⟩
          show (find cmp b m (.lt k) none >>= _) = _
          rw [h1]; rfl
        · refine ⟨n', .inl ⟨?_, h2⟩⟩
          show (findLessThanT cmp throws b Prod.fst k >>= _ : T (Mem K × Ptr) Unit) (m, node) n = _
          exact bind_threw h1

theorem insertAll_snoc (s : SL K) (l : List K) (k : K) :
    insertAll cmp b s (l ++ [k]) = (insertAll cmp b s l >>= fun s => SkipList.Insert cmp b s k) := by
  induction l generalizing s with
  | nil =>
    show (SkipList.Insert cmp b s k >>= fun s => Except.ok s) = SkipList.Insert cmp b s k
    cases SkipList.Insert cmp b s k <;> rfl
  | cons a l ih =>
    show (SkipList.Insert cmp b s a >>= fun s => insertAll cmp b s (l ++ [k])) =
      ((SkipList.Insert cmp b s a >>= fun s => insertAll cmp b s l) >>= fun s => SkipList.Insert cmp b s k)
    cases SkipList.Insert cmp b s a with
    | error e => rfl
    | ok s1 => exact ih s1

variable {cmp} in
/-- C112: a client inserts keys, no two of which compare equal, and catches what the comparator throws, at whichever of its calls.
There is no fault, and the list is exactly the one that is built from the keys whose insertion was completed (so C20-C24 hold of it for
these keys).  If the comparator does not throw these are all the keys. -/
theorem C112_history (hc : CmpOK cmp) (k0 : K) (seed : UInt32) {ks : List K} (hd : Distinct cmp ks) :
    ∃ s0, SkipList.construct k0 seed = .ok s0 ∧ ∃ acc s n, acc.Sublist ks ∧ SkipList.build cmp .release k0 seed acc = .ok s ∧
      insertAllT cmp throws .release ks s0 0 = (.ok acc, s, n) ∧ ((∀ m, throws m = false) → acc = ks) := by
  obtain ⟨s0, h0⟩ : ∃ s0, SkipList.construct k0 seed = .ok s0 := ⟨_, construct_eq k0 seed⟩
  refine ⟨s0, h0, ?_⟩
  have ok : ∀ acc : List K, Distinct cmp acc → ∃ s, insertAll cmp .release s0 acc = .ok s := by
    intro acc ha
    obtain ⟨s, h1, _⟩ := build_ok hc .release rfl k0 seed ha
    refine ⟨s, ?_⟩
    unfold SkipList.build at h1
    rw [h0] at h1
    exact h1
  have gen : ∀ (ks pre : List K) (s : SL K) (n : Nat), Distinct cmp (pre ++ ks) → insertAll cmp .release s0 pre = .ok s →
      ∃ acc s' n', acc.Sublist ks ∧ insertAll cmp .release s0 (pre ++ acc) = .ok s' ∧
        insertAllT cmp throws .release ks s n = (.ok acc, s', n') ∧ ((∀ m, throws m = false) → acc = ks) := by
    intro ks
    induction ks with
    | nil =>
      intro pre s n _ hs
      exact ⟨[], s, n, List.Sublist.refl _, by rw [List.append_nil]; exact hs, rfl, fun _ => rfl⟩
    | cons k ks ih =>
      intro pre s n hd hs
      have hpk : Distinct cmp (pre ++ [k]) := by
        refine List.Pairwise.sublist ?_ hd
        exact List.Sublist.append (List.Sublist.refl _) (List.singleton_sublist.mpr (List.mem_cons_self))
      obtain ⟨s1, h1⟩ := ok _ hpk
      have hi : SkipList.Insert cmp .release s k = .ok s1 := by
        rw [insertAll_snoc, hs] at h1
        exact h1
      obtain ⟨n1, h2⟩ := insertT_cases (cmp := cmp) (throws := throws) (b := .release) s n k
      rcases h2 with ⟨h2, hm⟩ | ⟨s', h2, h3⟩ | ⟨e, h2, _⟩
      · have ha : T.attempt (InsertT cmp throws .release k) s n = (.ok false, s, n1) := by
          unfold T.attempt; rw [h2]
        have hd' : Distinct cmp (pre ++ ks) :=
          List.Pairwise.sublist (List.Sublist.append (List.Sublist.refl _) (List.sublist_cons_self _ _)) hd
        obtain ⟨acc, s', n', g1, g2, g3, g4⟩ := ih pre s n1 hd' hs
        refine ⟨acc, s', n', g1.cons _, g2, ?_, fun hn => ?_⟩
        · show (T.attempt (InsertT cmp throws .release k) >>= _ : T (SL K) (List K)) s n = _
          rw [bind_ok ha, bind_ok g3]; rfl
        · obtain ⟨m, hm⟩ := hm
          rw [hn m] at hm; cases hm
      · rw [hi] at h2
        cases h2
        have ha : T.attempt (InsertT cmp throws .release k) s n = (.ok true, s1, n1) := by
          unfold T.attempt; rw [h3]
        obtain ⟨acc, s', n', g1, g2, g3, g4⟩ := ih (pre ++ [k]) s1 n1 (by rw [List.append_assoc]; exact hd) h1
        refine ⟨k :: acc, s', n', g1.cons_cons _, ?_, ?_, fun hn => by rw [g4 hn]⟩
        · rw [List.append_assoc] at g2; exact g2
        · show (T.attempt (InsertT cmp throws .release k) >>= _ : T (SL K) (List K)) s n = _
          rw [bind_ok ha, bind_ok g3]; rfl
      · rw [hi] at h2; cases h2
  obtain ⟨acc, s, n, h1, h2, h3, h4⟩ := gen ks [] s0 0 hd rfl
  refine ⟨acc, s, n, h1, ?_, h3, h4⟩
  unfold SkipList.build
  rw [h0]
  exact h2

variable {cmp} in
/-- C112: after such a history `Contains` is true of exactly the keys that compare equal to one whose insertion was completed. -/
theorem C112_set (hc : CmpOK cmp) (k0 : K) (seed : UInt32) {ks : List K} (hd : Distinct cmp ks) :
    ∃ s0, SkipList.construct k0 seed = .ok s0 ∧ ∃ acc s n, acc.Sublist ks ∧
      insertAllT cmp throws .release ks s0 0 = (.ok acc, s, n) ∧
      ∀ k, ∃ r, Contains cmp .release s.mem k = .ok r ∧ (r = true ↔ ∃ k' ∈ acc, cmp k k' = 0) := by
  obtain ⟨s0, h0, acc, s, n, h1, h2, h3, _⟩ := C112_history throws hc k0 seed hd
  obtain ⟨s', g1, g2⟩ := C20_contains hc k0 seed (ks := acc) (List.Pairwise.sublist h1 hd)
  rw [h2] at g1
  cases g1
  exact ⟨s0, h0, acc, s, n, h1, h3, g2⟩

end

/-- Keys in a concrete case. -/
def cmp112 (a c : Nat) : Int := (a : Int) - c

/-- The comparator's second call throws. -/
def throws112 (n : Nat) : Bool := n == 1

/-- What the client of the next example learns. -/
def run112 : Option (List Nat × Nat) :=
  match SkipList.construct 0 0xdeadbeef with
  | .error _ => none
  | .ok s0 => match insertAllT cmp112 throws112 .release [5, 3, 9, 7] s0 0 with
    | (.ok acc, s, _) => some (acc, s.mem.nodes.length)
    | _ => none

/-- The insertion of 3 throws, and only that; four nodes exist, one of them the head. -/
example : CmpOK cmp112 ∧ Distinct cmp112 [5, 3, 9, 7] ∧ run112 = some ([5, 9, 7], 4) :=
  ⟨⟨fun a c => by unfold cmp112; omega, fun a c d => by unfold cmp112; omega⟩, by unfold Distinct cmp112; decide, by decide +kernel⟩

end Props
end Lsmdb
