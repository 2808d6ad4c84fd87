import Verif.Model.CacheOom
import Verif.Proof.Cache9

/-! # `Insert` when memory runs out, on one shard -/

namespace Lsmdb
namespace Cache
open Spec

theorem ResizeO_false (h : Heap) (t : HTable) :
    ResizeO h t false = (Resize h t).map (fun q => (q.1, q.2, some ())) := by
  unfold ResizeO Resize
  cases growLoop t.elems 32 4 with
  | error f => rfl
  | ok n =>
    simp only [bind, Except.bind, Bool.false_eq_true, if_false]
    cases moveAll n t.table h (List.replicate n.toNat none) 0 with
    | error f => rfl
    | ok q =>
      simp only []
      cases cassert (decide (t.elems = q.2.2)) <;> rfl

theorem growO_false (h : Heap) (t : HTable) (old : Option Nat) :
    growO h t old false = (grow h t old).map (fun q => (q.1, q.2, some ())) := by
  unfold growO grow
  by_cases ho : old = none
  · rw [if_pos ho, if_pos ho]
    by_cases hg : ({ t with elems := t.elems + 1 } : HTable).elems > ({ t with elems := t.elems + 1 } : HTable).length
    · simp only [if_pos hg, ResizeO_false]
    · simp only [if_neg hg]; rfl
  · rw [if_neg ho, if_neg ho]; rfl

theorem tableInsertO_false (h : Heap) (t : HTable) (a : Nat) :
    tableInsertO h t a false = (tableInsert h t a).map (fun q => (q.1, q.2.1, some q.2.2)) := by
  unfold tableInsertO tableInsert
  cases keyOf h a with
  | error f => rfl
  | ok k =>
    simp only [bind, Except.bind]
    cases FindPointer h t k (h.hash a) with
    | error f => rfl
    | ok ptr =>
      simp only []
      cases readLoc h t ptr with
      | error f => rfl
      | ok old =>
        simp only []
        cases oldNext h old with
        | error f => rfl
        | ok nx =>
          simp only []
          cases writeLoc { h with nextHash := upd h.nextHash a nx } t (some a) ptr with
          | error f => rfl
          | ok q =>
            simp only [growO_false]
            cases grow q.1 q.2 old <;> rfl

theorem insertCachedO_false (s : Shard) (a : Nat) :
    insertCachedO s a false = (insertCached s a).map (fun s => (s, true)) := by
  unfold insertCachedO insertCached
  simp only [bind, Except.bind]
  cases LRU_Append { s.heap with
      refs := upd s.heap.refs a (s.heap.refs a + 1)
      inCache := upd s.heap.inCache a true } .inUse (.node a) with
  | error f => rfl
  | ok h =>
    simp only [tableInsertO_false]
    cases tableInsert h s.tab a with
    | error f => rfl
    | ok q =>
      simp only [Except.map, finishInsert, bind, Except.bind]
      cases FinishErase { s with heap := q.1, usage := s.usage + h.charge a, tab := q.2.1 } q.2.2 <;> rfl

theorem toString_ok {key : Slice} (hw : key.WF) : key.toString = .ok key.bytes := by
  unfold Slice.toString; exact if_pos hw

theorem toString_err {key : Slice} (hw : ¬ key.WF) : key.toString = .error .outOfBounds := by
  unfold Slice.toString; exact if_neg hw

theorem copyKey_ok {key : Slice} {fail : Bool} (hw : key.WF) (hk : fail = true → key.bytes = []) :
    copyKey key fail = .ok key.bytes := by
  have : ¬ ((fail && !key.bytes.isEmpty) = true) := by
    intro h
    rw [Bool.and_eq_true] at h
    rw [hk h.1] at h
    exact absurd h.2 (by decide)
  simp only [copyKey, toString_ok hw, bind, Except.bind]
  rw [if_neg this]; rfl

theorem copyKey_eq {key : Slice} {fail : Bool} {kb : Bytes} (h : copyKey key fail = .ok kb) : kb = key.bytes := by
  by_cases hw : key.WF
  · simp only [copyKey, toString_ok hw, bind, Except.bind] at h
    by_cases hb : (fail && !key.bytes.isEmpty) = true
    · rw [if_pos hb] at h; cases h
    · rw [if_neg hb] at h; cases h; rfl
  · simp only [copyKey, toString_err hw] at h; cases h

/-- When no allocation fails, `InsertO` is `Insert`. -/
theorem InsertO_ok (s : Shard) (key : Slice) (hash : UInt32) (v : Nat) (c : UInt64) (d : Nat) (o : Oom) (hn : o.node = false)
    (hk : o.key = true → key.bytes = []) (ht : o.table = false) :
    InsertO s key hash v c d o = (Insert s key hash v c d).map (fun q => (q.1, some q.2)) := by
  unfold InsertO Insert
  rw [hn, ht]
  simp only [Bool.false_eq_true, if_false]
  by_cases hw : key.WF
  · rw [copyKey_ok hw hk, toString_ok hw]
    simp only [bind, Except.bind, pure, Except.pure]
    by_cases hc : s.capacity > 0
    · simp only [if_pos hc, insertCachedO_false]
      cases insertCached { s with heap := (newHandle s.heap key.bytes hash v c d).1 } (newHandle s.heap key.bytes hash v c d).2 with
      | error f => rfl
      | ok s1 =>
        simp only [Except.map, finishEvict, bind, Except.bind]
        cases evictLoop s1.heap.fresh s1 <;> rfl
    · simp only [if_neg hc, finishEvict, bind, Except.bind]
      cases evictLoop (newHandle s.heap key.bytes hash v c d).1.fresh { s with heap := (newHandle s.heap key.bytes hash v c d).1 } <;> rfl
  · simp only [copyKey, toString_err hw]; rfl

/-! ## The table cannot grow -/

/-- The table has to grow for a new key. -/
def Full (t : HTable) : Prop := t.elems + 1 > t.length

theorem growO_true_ne {h : Heap} {t : HTable} {old : Option Nat} (hno : ¬ (old = none ∧ Full t)) :
    growO h t old true = growO h t old false := by
  unfold growO
  by_cases ho : old = none
  · rw [if_pos ho, if_pos ho]
    have hg : ¬ ({ t with elems := t.elems + 1 } : HTable).elems > ({ t with elems := t.elems + 1 } : HTable).length :=
      fun hg => hno ⟨ho, hg⟩
    simp only [if_neg hg]
  · rw [if_neg ho, if_neg ho]

theorem tableInsertO_true_ne {h : Heap} {t : HTable} {C : List (List Nat)} {E : List Nat}
    (ok : TabOK h t C E) (hn : Nodes h E) {a : Nat} (haE : a ∉ E)
    (hla : h.live a = true) (hna : h.next (.node a) ≠ some (.node a)) (hfa : a < h.fresh)
    (hno : ¬ (lookupIn h E (h.key a) (h.hash a) = none ∧ Full t)) :
    tableInsertO h t a true = tableInsertO h t a false := by
  obtain ⟨ptr, nx, nh', tb, C1, hf, hrd, hnx, hw, htb, hchains, hbucket, hpermE, hnodupE, huniq, hliveE, hmem⟩ :=
    tableLink_spec ok hn haE hla hfa
  unfold tableInsertO
  rw [keyOf_ok hla hna]
  simp only [bind, Except.bind]
  rw [hf]
  simp only []
  rw [hrd]
  simp only []
  rw [hnx]
  simp only []
  rw [hw]
  simp only []
  rw [growO_true_ne (t := ⟨t.length, t.elems, tb⟩) hno]

theorem tableInsertO_throw {h : Heap} {t : HTable} {C : List (List Nat)} {E : List Nat}
    (ok : TabOK h t C E) (hn : Nodes h E) {a : Nat} (haE : a ∉ E)
    (hla : h.live a = true) (hna : h.next (.node a) ≠ some (.node a)) (hfa : a < h.fresh)
    (hsize : E.length < 2 ^ 31) (hnone : lookupIn h E (h.key a) (h.hash a) = none) (hfull : Full t) :
    ∃ nh' t' C', tableInsertO h t a true = .ok ({ h with nextHash := nh' }, t', none) ∧
      TabOK { h with nextHash := nh' } t' C' (a :: E) := by
  obtain ⟨ptr, nx, nh', tb, C1, hf, hrd, hnx, hw, htb, hchains, hbucket, hpermE, hnodupE, huniq, hliveE, hmem⟩ :=
    tableLink_spec ok hn haE hla hfa
  rw [hnone] at hrd hnx hpermE hnodupE huniq hliveE
  have helems : (t.elems + 1).toNat = E.length + 1 := by
    rw [UInt32.toNat_add, ok.elems]
    exact Nat.mod_eq_of_lt (by have : (1 : UInt32).toNat = 1 := rfl
                               omega)
  obtain ⟨nh2, t2, C2, hres, -⟩ := Resize_core
    (h := { h with nextHash := nh' }) (t := ⟨t.length, t.elems + 1, tb⟩)
    (E := a :: without E none)
    hchains hpermE hnodupE (by simpa [without] using helems) huniq hliveE
    (by simp [without]; omega)
  have hgl : ∃ n, growLoop (t.elems + 1) 32 4 = .ok n := by
    unfold Resize at hres
    cases hg : growLoop (t.elems + 1) 32 4 with
    | ok n => exact ⟨n, rfl⟩
    | error f =>
      simp only [hg, bind, Except.bind] at hres
      cases hres
  obtain ⟨n, hgl⟩ := hgl
  refine ⟨nh', ⟨t.length, t.elems + 1, tb⟩, C1, ?_, ok.pow, htb.trans ok.tlen, hchains, hbucket, hpermE, hnodupE,
    (by simpa using helems), huniq⟩
  unfold tableInsertO
  rw [keyOf_ok hla hna]
  simp only [bind, Except.bind]
  rw [hf]
  simp only []
  rw [hrd]
  simp only []
  rw [hnx]
  simp only []
  rw [hw]
  simp only [growO, if_true]
  have hg : ({ length := t.length, elems := t.elems + 1, table := tb } : HTable).elems >
    ({ length := t.length, elems := t.elems + 1, table := tb } : HTable).length := hfull
  simp only [if_pos hg, ResizeO, bind, Except.bind, hgl, if_true]
  rfl

variable {H : Bytes → UInt32} {s : Shard} {A : Abs}

/-- The facts about the heap in which the new handle is in the in-use list, shared by the two cases. -/
theorem insertTable_facts (r : Rel H s A) {kb : Bytes} {v : Nat} {c : UInt64} {d : Nat} {h1 : Heap}
    (hh1 : (newHandle s.heap kb (H kb) v c d).1 = h1) :
    ∃ h2 C, LRU_Append { h1 with
          refs := upd h1.refs s.heap.fresh (h1.refs s.heap.fresh + 1)
          inCache := upd h1.inCache s.heap.fresh true } .inUse (.node s.heap.fresh) = .ok h2 ∧
      LRel h2 s.log { A with busy := A.busy ++ [s.heap.fresh], held := upd A.held s.heap.fresh 1 } ∧
      TabOK h2 s.tab C A.all ∧ Nodes h2 A.all ∧ s.heap.fresh ∉ A.all ∧ h2.live s.heap.fresh = true ∧
      h2.next (.node s.heap.fresh) ≠ some (.node s.heap.fresh) ∧ s.heap.fresh < h2.fresh ∧
      lookupIn h2 A.all (h2.key s.heap.fresh) (h2.hash s.heap.fresh) = A.find s.heap.key kb ∧
      NewData s.heap h2 kb v c d ∧ (∀ a, a < h2.fresh → h2.hash a = H (h2.key a)) ∧
      s.usage + h2.charge s.heap.fresh = UInt64.ofNat (csum h2.charge (A.idle ++ (A.busy ++ [s.heap.fresh]))) := by
  have hne : ∀ a ∈ A.all, a ≠ s.heap.fresh := fun a ha e => by
    have := r.l.lt a ha
    exact absurd this (by rw [e]; exact Nat.lt_irrefl _)
  have hnm : s.heap.fresh ∉ A.all := fun hh => hne _ hh rfl
  obtain ⟨C, nx2, pv2, e2, l2, t1, hlive1, hself2⟩ := insertLink_spec r hh1
  have hfresh : h1.fresh = s.heap.fresh + 1 := by rw [← hh1]; rfl
  have hkey : h1.key = upd s.heap.key s.heap.fresh kb := by rw [← hh1]; rfl
  have hhash : h1.hash = upd s.heap.hash s.heap.fresh (H kb) := by rw [← hh1]; rfl
  have hcharge : h1.charge = upd s.heap.charge s.heap.fresh c := by rw [← hh1]; rfl
  have hvalue : h1.value = upd s.heap.value s.heap.fresh v := by rw [← hh1]; rfl
  have hdel : h1.deleter = upd s.heap.deleter s.heap.fresh d := by rw [← hh1]; rfl
  have hmemA2 : ∀ b, b ∈ A.idle ++ (A.busy ++ [s.heap.fresh]) ↔ b ∈ A.all ∨ b = s.heap.fresh := by
    intro b; simp only [Abs.all, List.mem_append, List.mem_singleton]
    exact or_assoc.symm
  refine ⟨_, C, e2, l2, t1.congr rfl rfl rfl, ?_, hnm, hlive1, hself2, ?_, ?_, ⟨hfresh, hcharge, hkey, hvalue, hdel⟩, ?_, ?_⟩
  · intro a ha
    exact l2.nodes a ((hmemA2 a).mpr (Or.inl ha))
  · show _ < h1.fresh; rw [hfresh]; omega
  · have hk' : h1.key s.heap.fresh = kb := by rw [hkey]; exact upd_same _ _ _
    have hh' : h1.hash s.heap.fresh = H kb := by rw [hhash]; exact upd_same _ _ _
    dsimp only
    rw [hk', hh', ← r.lookupIn]
    refine find?_congr' (fun a ha => ?_)
    show decide (h1.hash a = H kb ∧ h1.key a = kb) = decide _
    rw [hhash, hkey, upd_other _ _ (hne a ha), upd_other _ _ (hne a ha)]
  · intro a ha
    have ha : a < h1.fresh := ha
    show h1.hash a = H (h1.key a)
    rw [hfresh] at ha
    rw [hhash, hkey]
    by_cases e : a = s.heap.fresh
    · subst e; rw [upd_same, upd_same]
    · rw [upd_other _ _ e, upd_other _ _ e]; exact r.hash a (by omega)
  · have hper : (A.idle ++ (A.busy ++ [s.heap.fresh])).Perm (s.heap.fresh :: A.all) := by
      rw [← List.append_assoc]
      exact List.perm_append_comm
    show s.usage + h1.charge s.heap.fresh = UInt64.ofNat (csum h1.charge _)
    rw [csum_perm hper, csum_cons, hcharge, upd_same,
      csum_congr (c := s.heap.charge) (L := A.all) (fun a ha => upd_other _ _ (hne a ha)),
      UInt64.ofNat_add, UInt64.ofNat_toNat, r.usage, UInt64.add_comm]

/-- A failing allocation of the table makes no difference unless the table must grow. -/
theorem InsertO_true_ne (r : Rel H s A) {key : Slice} {v : Nat} {c : UInt64} {d : Nat} {o : Oom}
    (hno : ¬ (s.capacity > 0 ∧ A.find s.heap.key key.bytes = none ∧ Full s.tab)) :
    InsertO s key (H key.bytes) v c d o = InsertO s key (H key.bytes) v c d { o with table := false } := by
  cases ht : o.table with
  | false => rw [← ht]
  | true =>
  unfold InsertO
  by_cases hn : o.node = true
  · simp only [hn, if_true]
  · simp only [hn]
    cases hck : copyKey key o.key with
    | error f => rfl
    | ok kb' =>
      cases copyKey_eq hck
      simp only [bind, Except.bind, pure, Except.pure, Bool.false_eq_true, if_false]
      by_cases hc : s.capacity > 0
      · simp only [if_pos hc, ht]
        have : insertCachedO { s with heap := (newHandle s.heap key.bytes (H key.bytes) v c d).1 } s.heap.fresh true =
            insertCachedO { s with heap := (newHandle s.heap key.bytes (H key.bytes) v c d).1 } s.heap.fresh false := by
          generalize hh1 : (newHandle s.heap key.bytes (H key.bytes) v c d).1 = h1
          obtain ⟨h2, C, e2, l2, t2, n2, hnm, hl2, hs2, hf2, hlook, nd, -, -⟩ := insertTable_facts r hh1
          unfold insertCachedO
          simp only [bind, Except.bind]
          rw [e2]
          simp only []
          rw [tableInsertO_true_ne t2 n2 hnm hl2 hs2 hf2 (by rw [hlook]; exact fun h => hno ⟨hc, h⟩)]
        rw [show (newHandle s.heap key.bytes (H key.bytes) v c d).2 = s.heap.fresh from rfl, this]
      · simp only [if_neg hc]

/-- The table must grow and cannot: the entry stays where it is. -/
theorem InsertO_throw (r : Rel H s A) {key : Slice} (hk : key.WF) (v : Nat) (c : UInt64) (d : Nat) {o : Oom}
    (hn : o.node = false) (hkf : o.key = true → key.bytes = []) (ht : o.table = true)
    (hcap : s.capacity > 0) (hsize : A.all.length < 2 ^ 31) (hnone : A.find s.heap.key key.bytes = none) (hfull : Full s.tab) :
    ∃ s', InsertO s key (H key.bytes) v c d o = .ok (s', none) ∧
      Rel H s' { A with busy := A.busy ++ [s.heap.fresh], held := upd A.held s.heap.fresh 1 } ∧
      NewData s.heap s'.heap key.bytes v c d ∧ s'.capacity = s.capacity ∧ s'.usage = s.usage + c := by
  generalize hh1 : (newHandle s.heap key.bytes (H key.bytes) v c d).1 = h1
  obtain ⟨h2, C, e2, l2, t2, n2, hnm, hl2, hs2, hf2, hlook, nd, hhash, husage⟩ := insertTable_facts r hh1
  obtain ⟨nh', t', C', e3, t3⟩ := tableInsertO_throw t2 n2 hnm hl2 hs2 hf2 hsize (by rw [hlook]; exact hnone) hfull
  refine ⟨{ s with heap := { h2 with nextHash := nh' }, usage := s.usage + h2.charge s.heap.fresh, tab := t' }, ?_,
    ⟨l2.nextHash nh', ⟨C', ?_⟩, husage, hhash⟩, ⟨nd.fresh, nd.charge, nd.key, nd.value, nd.deleter⟩, rfl,
    by rw [nd.charge, upd_same]⟩
  · unfold InsertO
    rw [copyKey_ok hk hkf, hn, ht]
    simp only [Bool.false_eq_true, if_false, bind, Except.bind, if_pos hcap]
    have : insertCachedO { s with heap := h1 } s.heap.fresh true = .ok ({ s with
        heap := { h2 with nextHash := nh' }
        usage := s.usage + h2.charge s.heap.fresh
        tab := t' }, false) := by
      unfold insertCachedO
      simp only [bind, Except.bind]
      rw [e2]
      simp only []
      rw [e3]
      rfl
    rw [show (newHandle s.heap key.bytes (H key.bytes) v c d).2 = s.heap.fresh from rfl, hh1, this]
    rfl
  · refine t3.permE ?_
    show (A.idle ++ (A.busy ++ [s.heap.fresh])).Perm (s.heap.fresh :: A.all)
    rw [← List.append_assoc]
    exact List.perm_append_comm

end Cache
end Lsmdb
