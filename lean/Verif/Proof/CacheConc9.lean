import Verif.Proof.CacheConc8

/-!
# New handles and ids are distinct; an undisturbed TotalCharge is exact
-/

namespace Lsmdb
namespace CacheConc
open Cache Spec

variable {hf : Slice → M UInt32} {capacity : UInt64} {a : Atom} {H : Hist}

/-! ## Handles -/

def newOf : TState → Option Handle
  | some (.insert _ _ _ _, [.op ⟨_, x⟩]) => x
  | _ => none

structure Uniq (a : Atom) (H : Hist) : Prop where
  nodup : (newHandles H).Nodup
  old : ∀ h ∈ newHandles H, inserted a.tr h ≠ none
  pnew : ∀ t h, newOf (a.now t) = some h → inserted a.tr h ≠ none ∧ h ∉ newHandles H
  two : ∀ t u h, newOf (a.now t) = some h → newOf (a.now u) = some h → t = u

theorem newOf_nil (c : Call) : newOf (some (c, [])) = none := by cases c <;> rfl

theorem Atomic.uniq (hH : HashFn hf) (A : Atomic hf capacity a H) : Uniq a H := by
  induction A with
  | init h => exact ⟨List.nodup_nil, by (intro _ h; cases h), by (intro _ _ h; cases h), by (intro _ _ _ h; cases h)⟩
  | @call a H t c r h ih =>
    refine ⟨ih.nodup, ih.old, ?_, ?_⟩
    · intro u y hy
      simp only [Atom.at] at hy
      split at hy
      · rw [newOf_nil] at hy; cases hy
      · exact ih.pnew _ _ hy
    · intro u v y hu hv
      simp only [Atom.at] at hu hv
      split at hu
      · rw [newOf_nil] at hu; cases hu
      · split at hv
        · rw [newOf_nil] at hv; cases hv
        · exact ih.two _ _ _ hu hv
  | @effect a a' H t c es e r h n o ih =>
    have hnow : a'.now = a.now := by cases o <;> rfl
    have hne : ∀ y, inserted a.tr y ≠ none → inserted a'.tr y ≠ none := by
      intro y hy
      cases o with
      | op ha e =>
        cases hi : inserted a.tr y with
        | none => exact absurd hi hy
        | some i => rw [inserted_stable hH r.reach ha e hi]; exact Option.some_ne_none _
      | _ => exact hy
    have key : newOf (some (c, es ++ [e])) = none ∨
        ∃ y, newOf (some (c, es ++ [e])) = some y ∧ inserted a.tr y = none ∧ inserted a'.tr y ≠ none := by
      cases n.is with
      | insert k v ch d y =>
        cases o with
        | op ha e =>
          obtain ⟨y', ey, hn⟩ := insert_new hH r.reach ha e
          injection ey with ey
          subst ey
          exact Or.inr ⟨y, rfl, hn, by simp [inserted]⟩
      | _ => exact Or.inl rfl
    refine ⟨ih.nodup, fun y hy => hne y (ih.old y hy), ?_, ?_⟩
    · intro u y hy
      simp only [Atom.at, hnow] at hy
      split at hy
      · rcases key with k | ⟨y', k1, k2, k3⟩
        · rw [k] at hy; cases hy
        · rw [k1] at hy
          injection hy with hy
          subst hy
          exact ⟨k3, fun hm => ih.old _ hm k2⟩
      · obtain ⟨h1, h2⟩ := ih.pnew _ _ hy
        exact ⟨hne _ h1, h2⟩
    · intro u v y hu hv
      simp only [Atom.at, hnow] at hu hv
      have fresh : newOf (some (c, es ++ [e])) = some y → ∀ w, newOf (a.now w) = some y → False := by
        intro h1 w h2
        rcases key with k | ⟨y', k1, k2, k3⟩
        · rw [k] at h1; cases h1
        · rw [k1] at h1
          injection h1 with h1
          subst h1
          exact (ih.pnew _ _ h2).1 k2
      split at hu
      · rename_i e1
        split at hv
        · rename_i e2; rw [e1, e2]
        · exact (fresh hu _ hv).elim
      · split at hv
        · exact (fresh hv _ hu).elim
        · exact ih.two _ _ _ hu hv
  | @ret a H t c es x r h d ih =>
    have hpend := r.pend t
    rw [h] at hpend
    have hL : newHandles (.ret t x :: H) = (match newOf (a.now t) with | some y => [y] | none => []) ++ newHandles H := by
      rw [h]
      cases c with
      | insert k v ch dl =>
        obtain ⟨y, rfl, rfl⟩ := d
        simp only [newHandles, hpend, Option.map]
        rfl
      | lookup k =>
        obtain ⟨y, rfl, rfl⟩ := d
        cases y with
        | none => rfl
        | some y =>
          simp only [newHandles, hpend, Option.map]
          rfl
      | release y => obtain ⟨rfl, rfl⟩ := d; rfl
      | erase y => obtain ⟨rfl, rfl⟩ := d; rfl
      | value y => obtain ⟨v, rfl, rfl⟩ := d; rfl
      | newId => obtain ⟨v, rfl, rfl⟩ := d; rfl
      | prune => obtain ⟨-, rfl⟩ := d; rfl
      | totalCharge => obtain ⟨v, -, rfl⟩ := d; rfl
    have hm : ∀ y, y ∈ newHandles (.ret t x :: H) ↔ newOf (a.now t) = some y ∨ y ∈ newHandles H := by
      intro y
      rw [hL]
      cases hy : newOf (a.now t) with
      | none => simp
      | some z => simp [eq_comm]
    refine ⟨?_, ?_, ?_, ?_⟩
    · rw [hL]
      cases hy : newOf (a.now t) with
      | none => exact ih.nodup
      | some z => exact List.nodup_cons.mpr ⟨(ih.pnew _ _ hy).2, ih.nodup⟩
    · intro y hy
      rcases (hm y).mp hy with hy | hy
      · exact (ih.pnew _ _ hy).1
      · exact ih.old _ hy
    · intro u y hy
      simp only [Atom.at] at hy
      split at hy
      · cases hy
      · rename_i ne
        obtain ⟨h1, h2⟩ := ih.pnew _ _ hy
        refine ⟨h1, fun hm' => ?_⟩
        rcases (hm y).mp hm' with h3 | h3
        · exact ne (ih.two _ _ _ hy h3)
        · exact h2 h3
    · intro u v y hu hv
      simp only [Atom.at] at hu hv
      split at hu
      · cases hu
      · split at hv
        · cases hv
        · exact ih.two _ _ _ hu hv

/-! ## Ids -/

def idOf : TState → Option UInt64
  | some (.newId, [.id n]) => some n
  | _ => none

/-- The call will take an id. -/
def wId : TState → Nat
  | some (.newId, []) => 1
  | _ => 0

structure UniqId (a : Atom) (H : Hist) : Prop where
  nodup : (newIds H).Nodup
  old : ∀ n ∈ newIds H, n.toNat ≤ a.lastId.toNat
  pnew : ∀ t n, idOf (a.now t) = some n → n.toNat ≤ a.lastId.toNat ∧ n ∉ newIds H
  two : ∀ t u n, idOf (a.now t) = some n → idOf (a.now u) = some n → t = u
  count : ∃ n, Total a.now wId n ∧ a.lastId.toNat + n ≤ H.length

theorem idOf_nil (c : Call) : idOf (some (c, [])) = none := by cases c <;> rfl

theorem Atomic.uniqId (A : Atomic hf capacity a H) (hlen : H.length < 2 ^ 64) : UniqId a H := by
  induction A with
  | init h =>
    exact ⟨List.nodup_nil, by (intro _ h; cases h), by (intro _ _ h; cases h), by (intro _ _ _ h; cases h),
      0, ⟨[], by simp, fun _ _ => rfl, rfl⟩, Nat.le_refl _⟩
  | @call a H t c r h ih =>
    have ih := ih (by simp only [List.length_cons] at hlen; omega)
    refine ⟨ih.nodup, ih.old, ?_, ?_, ?_⟩
    · intro u y hy
      simp only [Atom.at] at hy
      split at hy
      · rw [idOf_nil] at hy; cases hy
      · exact ih.pnew _ _ hy
    · intro u v y hu hv
      simp only [Atom.at] at hu hv
      split at hu
      · rw [idOf_nil] at hu; cases hu
      · split at hv
        · rw [idOf_nil] at hv; cases hv
        · exact ih.two _ _ _ hu hv
    · obtain ⟨n, T, hn⟩ := ih.count
      obtain ⟨-, T'⟩ := T.upd t (some (c, []))
      refine ⟨_, T', ?_⟩
      rw [h]
      have : wId (some (c, [])) ≤ 1 := by cases c <;> simp [wId]
      have h0 : wId none = 0 := rfl
      show a.lastId.toNat + _ ≤ _
      simp only [List.length_cons]
      omega
  | @effect a a' H t c es e r h n o ih =>
    have ih := ih hlen
    have hnow : a'.now = a.now := by cases o <;> rfl
    obtain ⟨m, T, hm⟩ := ih.count
    obtain ⟨hle, T'⟩ := T.upd t (some (c, es ++ [e]))
    rw [h] at hle T'
    have hfun : (a'.at t (some (c, es ++ [e]))).now = fun u => if u = t then some (c, es ++ [e]) else a.now u := by
      unfold Atom.at; rw [hnow]
    have other : (∀ x, e ≠ .id x) → a'.lastId = a.lastId ∧ idOf (some (c, es ++ [e])) = none ∧
        wId (some (c, es ++ [e])) = wId (some (c, es)) := by
      intro hx
      cases n.is with
      | id n => exact absurd rfl (hx _)
      | insert => cases o with | op ha e => exact ⟨rfl, rfl, rfl⟩
      | lookup => cases o with | op ha e => exact ⟨rfl, rfl, rfl⟩
      | release => cases o with | op ha e => exact ⟨rfl, rfl, rfl⟩
      | erase => cases o with | op ha e => exact ⟨rfl, rfl, rfl⟩
      | prune => cases o with | op ha e => exact ⟨rfl, rfl, rfl⟩
      | value => cases o with | value ha e => exact ⟨rfl, rfl, rfl⟩
      | charge => cases o with | charge e => exact ⟨rfl, rfl, rfl⟩
    by_cases hid : ∃ x, e = .id x
    · obtain ⟨x, rfl⟩ := hid
      cases o with
      | id =>
        cases n.is with
        | id _ =>
          have hw : wId (some (Call.newId, [])) = 1 := rfl
          have hl : (a.lastId + 1).toNat = a.lastId.toNat + 1 := by
            rw [UInt64.toNat_add]
            have : (1 : UInt64).toNat = 1 := rfl
            rw [this]
            apply Nat.mod_eq_of_lt
            omega
          refine ⟨ih.nodup, ?_, ?_, ?_, ?_⟩
          · intro y hy
            have := ih.old y hy
            show _ ≤ (a.lastId + 1).toNat
            omega
          · intro u y hy
            rw [hfun] at hy
            show _ ≤ (a.lastId + 1).toNat ∧ _
            simp only [] at hy
            split at hy
            · cases hy
              refine ⟨Nat.le_refl _, fun hm => ?_⟩
              have := ih.old _ hm
              omega
            · have := ih.pnew _ _ hy
              exact ⟨by omega, this.2⟩
          · intro u v y hu hv
            rw [hfun] at hu hv
            simp only [] at hu hv
            split at hu
            · rename_i e1
              split at hv
              · rename_i e2; rw [e1, e2]
              · cases hu
                have := (ih.pnew _ _ hv).1
                omega
            · split at hv
              · cases hv
                have := (ih.pnew _ _ hu).1
                omega
              · exact ih.two _ _ _ hu hv
          · rw [hfun]
            refine ⟨_, T', ?_⟩
            show (a.lastId + 1).toNat + _ ≤ _
            have : wId (some (Call.newId, [] ++ [Effect.id (a.lastId + 1)])) = 0 := rfl
            omega
    · obtain ⟨h1, h2, h3⟩ := other (fun x hx => hid ⟨x, hx⟩)
      refine ⟨ih.nodup, ?_, ?_, ?_, ?_⟩
      · intro y hy; show _ ≤ a'.lastId.toNat; rw [h1]; exact ih.old y hy
      · intro u y hy
        rw [hfun] at hy
        show _ ≤ a'.lastId.toNat ∧ _
        rw [h1]
        simp only [] at hy
        split at hy
        · rw [h2] at hy; cases hy
        · exact ih.pnew _ _ hy
      · intro u v y hu hv
        rw [hfun] at hu hv
        simp only [] at hu hv
        split at hu
        · rw [h2] at hu; cases hu
        · split at hv
          · rw [h2] at hv; cases hv
          · exact ih.two _ _ _ hu hv
      · rw [hfun]
        refine ⟨_, T', ?_⟩
        show a'.lastId.toNat + _ ≤ _
        rw [h1, h3]
        omega
  | @ret a H t c es x r h d ih =>
    have ih := ih (by simp only [List.length_cons] at hlen; omega)
    have hL : newIds (.ret t x :: H) = (match idOf (a.now t) with | some y => [y] | none => []) ++ newIds H := by
      rw [h]
      cases c with
      | insert k v ch dl => obtain ⟨y, rfl, rfl⟩ := d; rfl
      | lookup k => obtain ⟨y, rfl, rfl⟩ := d; rfl
      | release y => obtain ⟨rfl, rfl⟩ := d; rfl
      | erase y => obtain ⟨rfl, rfl⟩ := d; rfl
      | value y => obtain ⟨v, rfl, rfl⟩ := d; rfl
      | newId => obtain ⟨v, rfl, rfl⟩ := d; rfl
      | prune => obtain ⟨-, rfl⟩ := d; rfl
      | totalCharge => obtain ⟨v, -, rfl⟩ := d; rfl
    have hm : ∀ y, y ∈ newIds (.ret t x :: H) ↔ idOf (a.now t) = some y ∨ y ∈ newIds H := by
      intro y
      rw [hL]
      cases hy : idOf (a.now t) with
      | none => simp
      | some z => simp [eq_comm]
    refine ⟨?_, ?_, ?_, ?_, ?_⟩
    · rw [hL]
      cases hy : idOf (a.now t) with
      | none => exact ih.nodup
      | some z => exact List.nodup_cons.mpr ⟨(ih.pnew _ _ hy).2, ih.nodup⟩
    · intro y hy
      rcases (hm y).mp hy with hy | hy
      · exact (ih.pnew _ _ hy).1
      · exact ih.old _ hy
    · intro u y hy
      simp only [Atom.at] at hy
      split at hy
      · cases hy
      · rename_i ne
        obtain ⟨h1, h2⟩ := ih.pnew _ _ hy
        refine ⟨h1, fun hm' => ?_⟩
        rcases (hm y).mp hm' with h3 | h3
        · exact ne (ih.two _ _ _ hy h3)
        · exact h2 h3
    · intro u v y hu hv
      simp only [Atom.at] at hu hv
      split at hu
      · cases hu
      · split at hv
        · cases hv
        · exact ih.two _ _ _ hu hv
    · obtain ⟨n, T, hn⟩ := ih.count
      obtain ⟨hle, T'⟩ := T.upd t none
      refine ⟨_, T', ?_⟩
      have h0 : wId none = 0 := rfl
      show a.lastId.toNat + _ ≤ _
      simp only [List.length_cons]
      omega

/-! ## TotalCharge -/

/-- The charges of the shards. -/
def usages (c : Sharded) : List UInt64 := c.shards.map Cache.TotalCharge

theorem usages_setShard {c : Sharded} {i : Nat} {s s' : Shard} (hs : c.shards[i]? = some s) (hu : s'.usage = s.usage) :
    usages (setShard c i s') = usages c := by
  unfold usages setShard
  apply List.ext_getElem?
  intro j
  simp only [List.getElem?_map]
  by_cases e : i = j
  · subst e
    rw [List.getElem?_set_self (List.getElem?_eq_some_iff.mp hs).1, hs]
    simp only [Option.map, Cache.TotalCharge, hu]
  · rw [List.getElem?_set_ne e]

theorem getShard_some {c : Sharded} {i : Nat} {s : Shard} (h : getShard c i = .ok s) : c.shards[i]? = some s := by
  unfold getShard at h
  split at h
  · rename_i e; injection h with h; rw [e, h]
  · cases h

theorem lookup_usages {c c' : Sharded} {k : Slice} {x : Option Handle} (e : cstep hf c (.lookup k) = .ok (c', x)) :
    usages c' = usages c := by
  simp only [cstep, Sharded.Lookup, Cache.Lookup, bind, Except.bind] at e
  split at e
  · cases e
  · split at e
    · cases e
    · rename_i hs
      split at e
      · cases e
      · rename_i e1
        cases e
        refine usages_setShard (getShard_some hs) ?_
        split at e1
        · cases e1
        · split at e1
          · cases e1; rfl
          · split at e1
            · cases e1
            · cases e1; rfl

theorem release_usages {c c' : Sharded} {y : Handle} {x : Option Handle} (e : cstep hf c (.release y) = .ok (c', x)) :
    usages c' = usages c := by
  simp only [cstep, Sharded.Release, Cache.Release, bind, Except.bind] at e
  split at e
  · cases e
  · rename_i e0
    cases e
    split at e0
    · cases e0
    · rename_i hs
      split at e0
      · cases e0
      · split at e0
        · cases e0
        · rename_i hi
          split at e0
          · cases e0
          · rename_i e1
            cases e0
            split at e1
            · cases e1
            · cases e1
              rw [Classical.not_not] at hi
              rw [hi]
              exact usages_setShard (getShard_some hs) rfl

theorem undisturbed_pending {H : Hist} {t : Tid} (h : Undisturbed H t) (ht : ∀ c, pending H t = some c → ¬ Changes c) :
    ∀ v c, pending H v = some c → ¬ Changes c := by
  induction H with
  | nil => exact h.elim
  | cons e H ih =>
    cases e with
    | call u c =>
      simp only [Undisturbed] at h
      intro v c' hv
      split at h
      · rename_i e
        by_cases ev : v = t
        · subst ev; exact ht c' hv
        · simp only [pending, if_neg (fun x : u = v => ev (x.symm.trans e))] at hv
          exact h v c' hv
      · rename_i ne
        simp only [pending] at hv
        split at hv
        · injection hv with hv; rw [← hv]; exact h.1
        · refine ih h.2 ?_ v c' hv
          intro c2 h2
          exact ht c2 (by simp only [pending, if_neg ne]; exact h2)
    | ret u x =>
      intro v c' hv
      simp only [pending] at hv
      split at hv
      · cases hv
      · rename_i ne
        refine ih h.2 ?_ v c' hv
        intro c2 h2
        exact ht c2 (by simp only [pending, if_neg h.1]; exact h2)

theorem Atomic.charged (A : Atomic hf capacity a H) : ∀ t es, a.now t = some (.totalCharge, es) → Undisturbed H t →
    es = (List.range es.length).map (fun i => Effect.charge i ((usages a.cache).getD i 0)) := by
  induction A with
  | init h => intro _ _ h; cases h
  | @call a H t c r h ih =>
    intro u es hn hu
    simp only [Atom.at] at hn
    split at hn
    · injection hn with hn
      injection hn with h1 h2
      subst h2
      rfl
    · rename_i ne
      simp only [Undisturbed, if_neg (fun x : t = u => ne x.symm)] at hu
      exact ih _ _ hn hu.2
  | @ret a H t c es x r h d ih =>
    intro u es hn hu
    simp only [Atom.at] at hn
    split at hn
    · cases hn
    · exact ih _ _ hn hu.2
  | @effect a a' H t c es e r h n o ih =>
    intro u es' hn hu
    have hnow : a'.now = a.now := by cases o <;> rfl
    simp only [Atom.at, hnow] at hn
    show es' = (List.range es'.length).map (fun i => Effect.charge i ((usages a'.cache).getD i 0))
    split at hn
    · rename_i eu
      injection hn with hn
      injection hn with h1 h2
      subst h1; subst h2; subst eu
      cases n.is with
      | charge m hl =>
        cases o with
        | @charge _ s hs =>
          rw [List.length_append, List.length_singleton, List.range_succ, List.map_append, List.map_singleton, ← ih _ _ h hu]
          congr 3
          rw [List.getD_eq_getElem?_getD, usages, List.getElem?_map, hs]
          rfl
    · have hsame : usages a'.cache = usages a.cache := by
        have hp : ¬ Changes c := by
          refine undisturbed_pending hu ?_ t c (by rw [r.pend t, h]; rfl)
          intro c' hc'
          rw [r.pend u, hn] at hc'
          injection hc' with hc'
          rw [← hc']
          exact fun h => h
        cases n.is with
        | insert => exact absurd trivial hp
        | erase => exact absurd trivial hp
        | prune => exact absurd trivial hp
        | lookup => cases o with | op ha e => exact lookup_usages e
        | release => cases o with | op ha e => exact release_usages e
        | value => cases o with | value ha e => rfl
        | id => cases o with | id => rfl
        | charge => cases o with | charge e => rfl
      rw [hsame]
      exact ih _ _ hn hu

theorem range_getD (L : List UInt64) (n : Nat) (h : L.length = n) : (List.range n).map (fun i => L.getD i 0) = L := by
  apply List.ext_getElem?
  intro j
  rw [List.getElem?_map]
  by_cases e : j < n
  · rw [List.getElem?_range e]
    simp only [Option.map, List.getD_eq_getElem?_getD]
    rw [List.getElem?_eq_getElem (by omega)]
    rfl
  · rw [List.getElem?_eq_none (by simp; omega), List.getElem?_eq_none (by omega)]
    rfl

theorem TotalCharge_usages (c : Sharded) : Sharded.TotalCharge c = (usages c).foldl (· + ·) 0 := by
  unfold Sharded.TotalCharge usages
  rw [List.foldl_map]

/-- An undisturbed TotalCharge returns the total at the time of its return. -/
theorem Atomic.total_exact (hH : HashFn hf) (A : Atomic hf capacity a H) {t : Tid} {es : List Effect} {x : Res}
    (h : a.now t = some (.totalCharge, es)) (d : Complete .totalCharge es x) (hu : Undisturbed H t) :
    x = .charge (Sharded.TotalCharge a.cache) := by
  obtain ⟨Hh, hHh⟩ := hH
  have hl : a.cache.shards.length = 16 := (reach_inv hHh A.reach).len
  have hc := A.charged t es h hu
  obtain ⟨n, hes, rfl⟩ := d
  have h16 : es.length = 16 := by rw [hes]; simp
  rw [h16, hes] at hc
  have : (List.range 16).map n = (List.range 16).map (fun i => (usages a.cache).getD i 0) := by
    apply List.map_congr_left
    intro i hi
    have h1 := congrArg (fun L => L[i]?) hc
    simp only [List.getElem?_map, List.getElem?_range (List.mem_range.mp hi), Option.map] at h1
    injection h1 with h1
    injection h1
  rw [this, range_getD _ _ (by rw [usages, List.length_map, hl]), TotalCharge_usages]

end CacheConc
end Lsmdb
