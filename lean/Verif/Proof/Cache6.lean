import Verif.Proof.Cache5
import Verif.Spec.Cache

/-! # Traces and the sharded cache -/

namespace Lsmdb
namespace Cache
open Spec

theorem u64_ofNat_zero : UInt64.ofNat 0 = 0 := rfl

/-- Shard `i` and the trace. -/
structure TRel (H : Bytes → UInt32) (cap : UInt64) (i : Nat) (s : Shard) (A : Abs) (tr : CTrace) : Prop where
  capEq : s.capacity = cap
  ins : ∀ a, a < s.heap.fresh → inserted tr ⟨i, a⟩ =
    some ⟨s.heap.key a, s.heap.value a, s.heap.charge a, s.heap.deleter a⟩
  noins : ∀ a, s.heap.fresh ≤ a → inserted tr ⟨i, a⟩ = none
  held : ∀ a, obtained tr ⟨i, a⟩ = released tr ⟨i, a⟩ + A.held a
  cur : ∀ a ∈ A.all, current tr (s.heap.key a) = some ⟨i, a⟩
  shard : ∀ a, a < s.heap.fresh → shardIndex (H (s.heap.key a)) = i
  sorted : A.idle.Pairwise (fun a b => idleSince tr ⟨i, a⟩ < idleSince tr ⟨i, b⟩)
  zero : cap = 0 → A.all = []

/-- The call does not concern shard `i`. -/
def Foreign (H : Bytes → UInt32) (i : Nat) (e : CEvent) : Prop :=
  (∀ h, e.result = some h → h.shard ≠ i) ∧
  match e.op with
  | .insert k _ _ _ => shardIndex (H k.bytes) ≠ i
  | .lookup _ => True
  | .release h => h.shard ≠ i
  | .erase k => shardIndex (H k.bytes) ≠ i
  | .pruneShard _ => True

variable {H : Bytes → UInt32} {cap : UInt64} {i : Nat} {s : Shard} {A : Abs} {tr : CTrace}

theorem handle_ne {h : Handle} {i a : Nat} (hne : h.shard ≠ i) : h ≠ ⟨i, a⟩ := by
  rintro rfl; exact hne rfl

theorem TRel.foreign (t : TRel H cap i s A tr) (l : ∀ a ∈ A.all, a < s.heap.fresh) {e : CEvent}
    (hf : Foreign H i e) : TRel H cap i s A (e :: tr) := by
  obtain ⟨op, r⟩ := e
  obtain ⟨hr, ho⟩ := hf
  have hr' : ∀ a, r ≠ some ⟨i, a⟩ := fun a e => hr _ e rfl
  have hobt : ∀ a, obtained (⟨op, r⟩ :: tr) ⟨i, a⟩ = obtained tr ⟨i, a⟩ := by
    intro a; cases op <;> simp [obtained, hr' a]
  have hrel : ∀ a, released (⟨op, r⟩ :: tr) ⟨i, a⟩ = released tr ⟨i, a⟩ := by
    intro a; cases op <;> try rfl
    rename_i h
    simp [released, handle_ne (a := a) ho]
  have hins : ∀ a, inserted (⟨op, r⟩ :: tr) ⟨i, a⟩ = inserted tr ⟨i, a⟩ := by
    intro a; cases op <;> try rfl
    simp [inserted, hr' a]
  have hidle : ∀ a, idleSince (⟨op, r⟩ :: tr) ⟨i, a⟩ = idleSince tr ⟨i, a⟩ := by
    intro a; cases op <;> try rfl
    rename_i h
    simp [idleSince, handle_ne (a := a) ho]
  have hcur : ∀ kb, shardIndex (H kb) = i → current (⟨op, r⟩ :: tr) kb = current tr kb := by
    intro kb hkb
    cases op <;> try rfl
    · rename_i k v c d
      have : k.bytes ≠ kb := fun e => ho (by rw [e]; exact hkb)
      simp [current, this]
    · rename_i k
      have : k.bytes ≠ kb := fun e => ho (by rw [e]; exact hkb)
      simp [current, this]
  refine ⟨t.capEq, ?_, ?_, ?_, ?_, t.shard, ?_, t.zero⟩
  · intro a ha; rw [hins]; exact t.ins a ha
  · intro a ha; rw [hins]; exact t.noins a ha
  · intro a; rw [hobt, hrel]; exact t.held a
  · intro a ha; rw [hcur _ (t.shard a (l a ha))]; exact t.cur a ha
  · simp only [hidle]; exact t.sorted

theorem idleSince_le (tr : CTrace) (h : Handle) : idleSince tr h ≤ tr.length := by
  induction tr with
  | nil => exact Nat.le_refl _
  | cons e tr ih =>
    obtain ⟨op, r⟩ := e
    simp only [List.length_cons]
    cases op
    case release h' =>
      rw [idleSince]; split <;> omega
    all_goals (rw [idleSince]; omega; simp)

theorem pairwise_erase {R : Nat → Nat → Prop} {L : List Nat} (a : Nat) (h : L.Pairwise R) :
    (L.erase a).Pairwise R := h.sublist List.erase_sublist

/-- Lookup hit. -/
theorem TRel.lookup (t : TRel H cap i s A tr) (l : LRel s.heap s.log A) {s' : Shard}
    (fr : DFrame s.heap s'.heap) (hc : s'.capacity = s.capacity) {a : Nat} (k : Slice) :
    TRel H cap i s' (A.ref a) (⟨.lookup k, some ⟨i, a⟩⟩ :: tr) := by
  have hp := A.ref_all_perm (a := a) l.nodup
  refine ⟨hc.trans t.capEq, ?_, ?_, ?_, ?_, ?_, ?_, ?_⟩
  · intro b hb
    rw [fr.fresh] at hb
    rw [fr.key, fr.value, fr.charge, fr.deleter]; exact t.ins b hb
  · intro b hb; rw [fr.fresh] at hb; exact t.noins b hb
  · intro b
    show obtained tr ⟨i, b⟩ + _ = released tr ⟨i, b⟩ + upd A.held a (A.held a + 1) b
    have := t.held b
    by_cases e : b = a
    · subst e; rw [upd_same]; simp; omega
    · rw [upd_other _ _ e]
      have : ¬ a = b := fun h => e h.symm
      simp [this]; omega
  · intro b hb
    rw [fr.key]; exact t.cur b (hp.mem_iff.mp hb)
  · rw [fr.fresh, fr.key]; exact t.shard
  · exact pairwise_erase a t.sorted
  · intro h0
    have := t.zero h0
    rw [this] at hp
    exact hp.eq_nil

/-- Lookup miss, and any other call without effect on the shard. -/
theorem TRel.lookup_miss (t : TRel H cap i s A tr) (k : Slice) :
    TRel H cap i s A (⟨.lookup k, none⟩ :: tr) := by
  refine ⟨t.capEq, t.ins, t.noins, ?_, t.cur, t.shard, t.sorted, t.zero⟩
  intro b
  show obtained tr ⟨i, b⟩ + _ = released tr ⟨i, b⟩ + _
  simpa using t.held b

theorem TRel.release (t : TRel H cap i s A tr) {s' : Shard} (l : LRel s.heap s.log A)
    (fr : DFrame s.heap s'.heap) (hc : s'.capacity = s.capacity) {a : Nat} (ha : 0 < A.held a) :
    TRel H cap i s' (A.release a) (⟨.release ⟨i, a⟩, none⟩ :: tr) := by
  have hp := A.release_all_perm (a := a)
  have hheld : (A.release a).held = upd A.held a (A.held a - 1) := by
    unfold Abs.release; split
    · rfl
    · split <;> rfl
  have hni : a ∉ A.idle := fun hi => by have := l.idle0 a hi; omega
  have hother : ∀ b, b ≠ a → idleSince (⟨.release ⟨i, a⟩, none⟩ :: tr) ⟨i, b⟩ = idleSince tr ⟨i, b⟩ := by
    intro b hb
    have : ¬ a = b := fun h => hb h.symm
    simp [idleSince, this]
  have hself : idleSince (⟨.release ⟨i, a⟩, none⟩ :: tr) ⟨i, a⟩ = tr.length + 1 := by
    simp [idleSince]
  have hsort : A.idle.Pairwise (fun x y => idleSince (⟨.release ⟨i, a⟩, none⟩ :: tr) ⟨i, x⟩ <
      idleSince (⟨.release ⟨i, a⟩, none⟩ :: tr) ⟨i, y⟩) := by
    refine List.Pairwise.imp_of_mem ?_ t.sorted
    intro x y hx hy h
    rw [hother x (fun e => hni (e ▸ hx)), hother y (fun e => hni (e ▸ hy))]; exact h
  refine ⟨hc.trans t.capEq, ?_, ?_, ?_, ?_, ?_, ?_, ?_⟩
  · intro b hb
    rw [fr.fresh] at hb
    rw [fr.key, fr.value, fr.charge, fr.deleter]; exact t.ins b hb
  · intro b hb; rw [fr.fresh] at hb; exact t.noins b hb
  · intro b
    rw [hheld]
    show obtained tr ⟨i, b⟩ = released tr ⟨i, b⟩ + _ + upd A.held a (A.held a - 1) b
    have := t.held b
    by_cases e : b = a
    · subst e; rw [upd_same]; simp; omega
    · rw [upd_other _ _ e]
      have : ¬ a = b := fun h => e h.symm
      simp [this]; omega
  · intro b hb
    rw [fr.key]; exact t.cur b (hp.mem_iff.mp hb)
  · rw [fr.fresh, fr.key]; exact t.shard
  · unfold Abs.release
    split
    · exact hsort
    · split
      · rw [List.pairwise_append]
        refine ⟨hsort, by simp, ?_⟩
        intro x hx y hy
        rw [List.mem_singleton] at hy; subst hy
        have hxa : x ≠ y := fun e => hni (e ▸ hx)
        rw [hother x hxa, hself]
        have := idleSince_le tr ⟨i, x⟩
        omega
      · exact hsort
  · intro h0
    have := t.zero h0
    rw [this] at hp
    exact hp.eq_nil

theorem TRel.prune (t : TRel H cap i s A tr) {s' : Shard}
    (fr : DFrame s.heap s'.heap) (hc : s'.capacity = s.capacity) (j : Nat) :
    TRel H cap i s' { A with idle := [], dead := A.dead ++ A.idle } (⟨.pruneShard j, none⟩ :: tr) := by
  refine ⟨hc.trans t.capEq, ?_, ?_, t.held, ?_, ?_, List.Pairwise.nil, ?_⟩
  · intro b hb
    rw [fr.fresh] at hb
    rw [fr.key, fr.value, fr.charge, fr.deleter]; exact t.ins b hb
  · intro b hb; rw [fr.fresh] at hb; exact t.noins b hb
  · intro b hb
    rw [fr.key]; exact t.cur b (List.mem_append.mpr (Or.inr (by simpa [Abs.all] using hb)))
  · rw [fr.fresh, fr.key]; exact t.shard
  · intro h0
    have := t.zero h0
    simp only [Abs.all, List.append_eq_nil_iff] at this ⊢
    exact ⟨trivial, this.2⟩

theorem TRel.erase (t : TRel H cap i s A tr) (r : Rel H s A) {s' : Shard}
    (fr : DFrame s.heap s'.heap) (hc : s'.capacity = s.capacity) (k : Slice) :
    TRel H cap i s' (match A.find s.heap.key k.bytes with | none => A | some a => A.uncache a)
      (⟨.erase k, none⟩ :: tr) := by
  have key : ∀ (A' : Abs), A'.held = A.held → A'.idle.Sublist A.idle →
      (∀ b ∈ A'.all, b ∈ A.all ∧ s.heap.key b ≠ k.bytes) → TRel H cap i s' A' (⟨.erase k, none⟩ :: tr) := by
    intro A' hh hsub hall
    refine ⟨hc.trans t.capEq, ?_, ?_, ?_, ?_, ?_, t.sorted.sublist hsub, ?_⟩
    · intro b hb
      rw [fr.fresh] at hb
      rw [fr.key, fr.value, fr.charge, fr.deleter]; exact t.ins b hb
    · intro b hb; rw [fr.fresh] at hb; exact t.noins b hb
    · rw [hh]; exact t.held
    · intro b hb
      rw [fr.key]
      have := hall b hb
      have hne : ¬ k.bytes = s.heap.key b := fun e => this.2 e.symm
      simp only [current, if_neg hne]
      exact t.cur b this.1
    · rw [fr.fresh, fr.key]; exact t.shard
    · intro h0
      have := t.zero h0
      rw [List.eq_nil_iff_forall_not_mem]
      intro b hb
      have := (hall b hb).1
      rw [t.zero h0] at this
      cases this
  cases hf : A.find s.heap.key k.bytes with
  | none => exact key A rfl (List.Sublist.refl _) (fun b hb => ⟨hb, find_none hf b hb⟩)
  | some a =>
    refine key (A.uncache a) rfl List.erase_sublist ?_
    intro b hb
    rw [A.uncache_all a r.l.nodup, r.l.nodup.mem_erase_iff] at hb
    refine ⟨hb.2, fun e => hb.1 ?_⟩
    exact r.uniq hb.2 (find_mem hf).1 (by rw [e, (find_mem hf).2])

theorem TRel.insert_zero (t : TRel H cap i s A tr) (r : Rel H s A) (h0 : s.capacity = 0) {s' : Shard}
    (k : Slice) (v : Nat) (c : UInt64) (d : Nat)
    (nd : NewData s.heap s'.heap k.bytes v c d) (hc : s'.capacity = s.capacity)
    (hk : shardIndex (H k.bytes) = i) :
    TRel H cap i s' { A with held := upd A.held s.heap.fresh 1 }
      (⟨.insert k v c d, some ⟨i, s.heap.fresh⟩⟩ :: tr) := by
  have hall : A.all = [] := t.zero (by rw [← t.capEq, h0])
  have hall' : A.idle = [] := by
    simp only [Abs.all, List.append_eq_nil_iff] at hall; exact hall.1
  refine ⟨hc.trans t.capEq, ?_, ?_, ?_, ?_, ?_, ?_, fun _ => hall⟩
  · intro b hb
    rw [nd.fresh] at hb
    rw [nd.key, nd.value, nd.charge, nd.deleter]
    by_cases e : b = s.heap.fresh
    · subst e; simp [inserted, upd_same]
    · have : ¬ s.heap.fresh = b := fun h => e h.symm
      simp only [inserted, upd_other _ _ e]
      simp only [Option.some.injEq, Handle.mk.injEq, true_and, if_neg this]
      exact t.ins b (by omega)
  · intro b hb
    rw [nd.fresh] at hb
    have : ¬ s.heap.fresh = b := by omega
    simp only [inserted, Option.some.injEq, Handle.mk.injEq, true_and, if_neg this]
    exact t.noins b (by omega)
  · intro b
    show obtained tr ⟨i, b⟩ + _ = released tr ⟨i, b⟩ + upd A.held s.heap.fresh 1 b
    have h1 := t.held b
    by_cases e : b = s.heap.fresh
    · subst e; rw [upd_same]
      have := r.l.heldlt s.heap.fresh (Nat.le_refl _)
      simp; omega
    · rw [upd_other _ _ e]
      have : ¬ s.heap.fresh = b := fun h => e h.symm
      simp [this]; omega
  · intro b hb
    have hb' : b ∈ A.all := hb
    rw [hall] at hb'; cases hb'
  · intro b hb
    rw [nd.fresh] at hb
    rw [nd.key]
    by_cases e : b = s.heap.fresh
    · subst e; rw [upd_same]; exact hk
    · rw [upd_other _ _ e]; exact t.shard b (by omega)
  · show A.idle.Pairwise _
    rw [hall']; exact List.Pairwise.nil

/-- Members of the abstract state after adding an entry. -/
theorem Abs.add_mem (r : Rel H s A) (kb : Bytes) (b : Nat) :
    b ∈ (A.add s.heap.key kb s.heap.fresh).all ↔
      (b ∈ A.all ∧ s.heap.key b ≠ kb) ∨ b = s.heap.fresh := by
  have hne : ∀ a ∈ A.all, a ≠ s.heap.fresh := fun a ha e => by
    have := r.l.lt a ha
    exact absurd this (by rw [e]; exact Nat.lt_irrefl _)
  unfold Abs.add
  cases hf : A.find s.heap.key kb with
  | none =>
    simp only [Abs.all, List.mem_append, List.mem_singleton]
    constructor
    · rintro (h | h | h)
      · exact Or.inl ⟨Or.inl h, find_none hf b (List.mem_append.mpr (Or.inl h))⟩
      · exact Or.inl ⟨Or.inr h, find_none hf b (List.mem_append.mpr (Or.inr h))⟩
      · exact Or.inr h
    · rintro (⟨h | h, _⟩ | h)
      · exact Or.inl h
      · exact Or.inr (Or.inl h)
      · exact Or.inr (Or.inr h)
  | some o =>
    have ho := find_mem hf
    have hnd : (A.idle ++ (A.busy ++ [s.heap.fresh])).Nodup := by
      have hper : (A.idle ++ (A.busy ++ [s.heap.fresh])).Perm (s.heap.fresh :: A.all) := by
        rw [← List.append_assoc]
        exact List.perm_append_comm
      exact hper.nodup_iff.mpr (List.nodup_cons.mpr ⟨fun h => hne _ h rfl, r.l.nodup⟩)
    simp only []
    rw [Abs.uncache_all ⟨A.idle, A.busy ++ [s.heap.fresh], upd A.held s.heap.fresh 1, A.dead⟩ o hnd]
    show b ∈ List.erase (A.idle ++ (A.busy ++ [s.heap.fresh])) o ↔ _
    rw [List.Nodup.mem_erase_iff hnd]
    simp only [Abs.all, List.mem_append, List.mem_singleton]
    constructor
    · rintro ⟨h1, h | h | h⟩
      · have hb : b ∈ A.all := List.mem_append.mpr (Or.inl h)
        exact Or.inl ⟨Or.inl h, fun e => h1 (r.uniq hb ho.1 (by rw [e, ho.2]))⟩
      · have hb : b ∈ A.all := List.mem_append.mpr (Or.inr h)
        exact Or.inl ⟨Or.inr h, fun e => h1 (r.uniq hb ho.1 (by rw [e, ho.2]))⟩
      · exact Or.inr h
    · rintro (⟨h | h, h2⟩ | h)
      · exact ⟨fun e => h2 (e ▸ ho.2), Or.inl h⟩
      · exact ⟨fun e => h2 (e ▸ ho.2), Or.inr (Or.inl h)⟩
      · exact ⟨fun e => hne o ho.1 (e ▸ h), Or.inr (Or.inr h)⟩

theorem Abs.add_held (A : Abs) (key : Nat → Bytes) (kb : Bytes) (a : Nat) :
    (A.add key kb a).held = upd A.held a 1 := by
  unfold Abs.add; split <;> rfl

theorem Abs.add_idle_sublist (A : Abs) (key : Nat → Bytes) (kb : Bytes) (a : Nat) :
    (A.add key kb a).idle.Sublist A.idle := by
  unfold Abs.add; split
  · exact List.Sublist.refl _
  · exact List.erase_sublist

theorem TRel.insert (t : TRel H cap i s A tr) (r : Rel H s A) (h0 : s.capacity > 0) {s' : Shard}
    (k : Slice) (v : Nat) (c : UInt64) (d : Nat)
    (nd : NewData s.heap s'.heap k.bytes v c d) (hc : s'.capacity = s.capacity)
    (hk : shardIndex (H k.bytes) = i) {ev rest : List Nat}
    (hsp : (A.add s.heap.key k.bytes s.heap.fresh).idle = ev ++ rest) :
    TRel H cap i s' { A.add s.heap.key k.bytes s.heap.fresh with
        idle := rest
        dead := (A.add s.heap.key k.bytes s.heap.fresh).dead ++ ev }
      (⟨.insert k v c d, some ⟨i, s.heap.fresh⟩⟩ :: tr) := by
  have hmem : ∀ b, b ∈ rest ++ (A.add s.heap.key k.bytes s.heap.fresh).busy →
      (b ∈ A.all ∧ s.heap.key b ≠ k.bytes) ∨ b = s.heap.fresh := by
    intro b hb
    rw [← Abs.add_mem r]
    simp only [Abs.all, List.mem_append, hsp] at hb ⊢
    rcases hb with h | h
    · exact Or.inl (Or.inr h)
    · exact Or.inr h
  refine ⟨hc.trans t.capEq, ?_, ?_, ?_, ?_, ?_, ?_, ?_⟩
  · intro b hb
    rw [nd.fresh] at hb
    rw [nd.key, nd.value, nd.charge, nd.deleter]
    by_cases e : b = s.heap.fresh
    · subst e; simp [inserted, upd_same]
    · have : ¬ s.heap.fresh = b := fun h => e h.symm
      simp only [inserted, upd_other _ _ e]
      simp only [Option.some.injEq, Handle.mk.injEq, true_and, if_neg this]
      exact t.ins b (by omega)
  · intro b hb
    rw [nd.fresh] at hb
    have : ¬ s.heap.fresh = b := by omega
    simp only [inserted, Option.some.injEq, Handle.mk.injEq, true_and, if_neg this]
    exact t.noins b (by omega)
  · intro b
    show obtained tr ⟨i, b⟩ + _ = released tr ⟨i, b⟩ + (A.add s.heap.key k.bytes s.heap.fresh).held b
    rw [Abs.add_held]
    have h1 := t.held b
    by_cases e : b = s.heap.fresh
    · subst e; rw [upd_same]
      have := r.l.heldlt s.heap.fresh (Nat.le_refl _)
      simp; omega
    · rw [upd_other _ _ e]
      have : ¬ s.heap.fresh = b := fun h => e h.symm
      simp [this]; omega
  · intro b hb
    rw [nd.key]
    rcases hmem b hb with ⟨h1, h2⟩ | rfl
    · have hb' := r.l.lt b h1
      rw [upd_other _ _ (by omega)]
      have : ¬ k.bytes = s.heap.key b := fun e => h2 e.symm
      simp only [current, if_neg this]
      exact t.cur b h1
    · rw [upd_same]; simp [current]
  · intro b hb
    rw [nd.fresh] at hb
    rw [nd.key]
    by_cases e : b = s.heap.fresh
    · subst e; rw [upd_same]; exact hk
    · rw [upd_other _ _ e]; exact t.shard b (by omega)
  · have h1 := t.sorted.sublist (Abs.add_idle_sublist A s.heap.key k.bytes s.heap.fresh)
    rw [hsp] at h1
    have h2 := (List.pairwise_append.mp h1).2.1
    exact h2
  · intro hz
    rw [← t.capEq] at hz
    rw [hz] at h0
    exact absurd h0 (by decide)

end Cache
end Lsmdb
