import Verif.Proof.CacheKept
import Verif.Proof.CacheConc10
import Verif.Spec.CachePrune

/-!
# Entries in use, and Prune, in the atomic cache
-/

namespace Lsmdb
namespace CacheConc
open Cache Spec Props

variable {hf : Slice → M UInt32} {capacity : UInt64} {a : Atom} {H : Hist}

/-! ## Histories -/

theorem pendingAt_suffix {t : Tid} {c : Call} {H0 : Hist} (h : pendingAt H t = some (c, H0)) : ∃ L, H = L ++ .call t c :: H0 := by
  induction H with
  | nil => cases h
  | cons e H ih =>
    cases e with
    | call u c' =>
      simp only [pendingAt] at h
      split at h
      · rename_i e
        injection h with h
        injection h with h1 h2
        subst h1; subst h2; subst e
        exact ⟨[], rfl⟩
      · obtain ⟨L, rfl⟩ := ih h
        exact ⟨_ :: L, rfl⟩
    | ret u x =>
      simp only [pendingAt] at h
      split at h
      · cases h
      · obtain ⟨L, rfl⟩ := ih h
        exact ⟨_ :: L, rfl⟩

theorem Returned.suffix {c : Call} {H0 : Hist} {x : Res} (h : Returned H c H0 x) : ∃ t L, H = L ++ .call t c :: H0 := by
  induction h with
  | now p =>
    obtain ⟨L, rfl⟩ := pendingAt_suffix p
    exact ⟨_, _ :: L, rfl⟩
  | before r ih =>
    obtain ⟨t, L, rfl⟩ := ih
    exact ⟨t, _ :: L, rfl⟩

theorem Returned.later {c : Call} {H0 : Hist} {x : Res} (h : Returned H c H0 x) (L : Hist) : Returned (L ++ H) c H0 x := by
  induction L with
  | nil => exact h
  | cons e L ih => exact .before ih

theorem Returned.pendingAt {c c2 : Call} {H0 H1 : Hist} {x : Res} {t : Tid} (p : pendingAt H t = some (c2, H1))
    (h : Returned H1 c H0 x) : Returned H c H0 x := by
  obtain ⟨L, rfl⟩ := pendingAt_suffix p
  have := h.later (L ++ [.call t c2])
  simpa using this

theorem writeCalls_cons (e : Ev) (H : Hist) (kb : Bytes) : writeCalls H kb ≤ writeCalls (e :: H) kb := by
  cases e with
  | call t c => cases c <;> simp [writeCalls]
  | ret t x => exact Nat.le_refl _

theorem writeCalls_append (L H : Hist) (kb : Bytes) : writeCalls H kb ≤ writeCalls (L ++ H) kb := by
  induction L with
  | nil => exact Nat.le_refl _
  | cons e L ih => exact Nat.le_trans ih (writeCalls_cons e _ kb)

theorem writeCalls_writes {kb : Bytes} {c : Call} (hw : Writes kb c) (t : Tid) (H : Hist) :
    writeCalls (.call t c :: H) kb = writeCalls H kb + 1 := by
  cases c with
  | insert k v ch d => simp only [writeCalls]; rw [if_pos (show k.bytes = kb from hw)]
  | erase k => simp only [writeCalls]; rw [if_pos (show k.bytes = kb from hw)]
  | _ => exact hw.elim

theorem lookupCalls_cons (e : Ev) (H : Hist) (kb : Bytes) : lookupCalls H kb ≤ lookupCalls (e :: H) kb := by
  cases e with
  | call t c => cases c <;> simp [lookupCalls]
  | ret t x => exact Nat.le_refl _

theorem lookupCalls_append (L H : Hist) (kb : Bytes) : lookupCalls H kb ≤ lookupCalls (L ++ H) kb := by
  induction L with
  | nil => exact Nat.le_refl _
  | cons e L ih => exact Nat.le_trans ih (lookupCalls_cons e _ kb)

theorem begun_cons (e : Ev) (H : Hist) (h : Handle) : begun H h ≤ begun (e :: H) h := by
  cases e with
  | call t c => cases c <;> simp [begun]
  | ret t x => exact Nat.le_refl _

theorem got_cons (e : Ev) (H : Hist) (h : Handle) : got H h ≤ got (e :: H) h := by
  cases e with
  | call t c => exact Nat.le_refl _
  | ret t x => cases x <;> simp [got]

theorem got_append (L H : Hist) (h : Handle) : got H h ≤ got (L ++ H) h := by
  induction L with
  | nil => exact Nat.le_refl _
  | cons e L ih => exact Nat.le_trans ih (got_cons e _ h)

theorem writeCalls_pendingAt {kb : Bytes} {c : Call} {H1 : Hist} {t : Tid} (p : pendingAt H t = some (c, H1)) (hw : Writes kb c) :
    writeCalls H1 kb + 1 ≤ writeCalls H kb := by
  obtain ⟨L, rfl⟩ := pendingAt_suffix p
  have := writeCalls_append L (.call t c :: H1) kb
  rw [writeCalls_writes hw] at this
  exact this

theorem writeCalls_returned {kb : Bytes} {c : Call} {H1 : Hist} {x : Res} (r : Returned H c H1 x) (hw : Writes kb c) :
    writeCalls H1 kb + 1 ≤ writeCalls H kb := by
  obtain ⟨t, L, rfl⟩ := r.suffix
  have := writeCalls_append L (.call t c :: H1) kb
  rw [writeCalls_writes hw] at this
  exact this

/-- Another writer is in progress: then it was already in progress, or it is a second one. -/
theorem second_pending {kb : Bytes} {c c2 : Call} {H1 : Hist} {t u : Tid} (p : pendingAt H t = some (c, H1)) (hw : Writes kb c)
    (ne : u ≠ t) (q : pending H u = some c2) (hw2 : Writes kb c2) (hno : ∀ u c, pending H1 u = some c → ¬ Writes kb c) :
    writeCalls H1 kb + 2 ≤ writeCalls H kb := by
  induction H with
  | nil => cases p
  | cons e H ih =>
    cases e with
    | call v c' =>
      simp only [pendingAt] at p
      simp only [pending] at q
      split at p
      · rename_i e
        injection p with p
        injection p with p1 p2
        subst p2; subst e
        rw [if_neg (fun h => ne h.symm)] at q
        exact absurd hw2 (hno _ _ q)
      · split at q
        · injection q with q
          subst q
          rw [writeCalls_writes hw2]
          have := writeCalls_pendingAt p hw
          omega
        · exact Nat.le_trans (ih p q) (writeCalls_cons _ _ _)
    | ret v x =>
      simp only [pendingAt] at p
      simp only [pending] at q
      split at p
      · cases p
      · split at q
        · cases q
        · exact ih p q

theorem second_returned {kb : Bytes} {c c2 : Call} {H1 : Hist} {x : Res} {u : Tid} (p : Returned H c H1 x) (hw : Writes kb c)
    (q : pending H u = some c2) (hw2 : Writes kb c2) (hno : ∀ u c, pending H1 u = some c → ¬ Writes kb c) :
    writeCalls H1 kb + 2 ≤ writeCalls H kb := by
  induction p with
  | @now H t x c H0 p =>
    simp only [pending] at q
    split at q
    · cases q
    · rename_i ne
      show writeCalls H0 kb + 2 ≤ writeCalls H kb
      exact second_pending p hw (fun h => ne h.symm) q hw2 hno
  | @before H e x c H0 r ih =>
    cases e with
    | call v c' =>
      simp only [pending] at q
      split at q
      · injection q with q
        subst q
        rw [writeCalls_writes hw2]
        have := writeCalls_returned r hw
        omega
      · exact Nat.le_trans (ih hw q hno) (writeCalls_cons _ _ _)
    | ret v y =>
      simp only [pending] at q
      split at q
      · cases q
      · exact ih hw q hno

theorem NoLookup.pending {H0 L : Hist} {kb : Bytes} (n : NoLookup H0 (L ++ H0) kb) {u : Tid} {k : Slice}
    (q : pending (L ++ H0) u = some (.lookup k)) : k.bytes ≠ kb := by
  obtain ⟨n1, n2⟩ := n
  induction L with
  | nil => exact n1 _ _ q
  | cons e L ih =>
    have h1 := lookupCalls_cons e (L ++ H0) kb
    have h2 := lookupCalls_append L H0 kb
    rw [List.cons_append] at n2
    have h3 : lookupCalls (L ++ H0) kb = lookupCalls H0 kb := by omega
    cases e with
    | call v c' =>
      rw [List.cons_append] at q
      simp only [CacheConc.pending] at q
      split at q
      · injection q with q
        subst q
        intro hb
        simp only [lookupCalls, hb, if_true] at n2
        omega
      · exact ih q h3
    | ret v y =>
      rw [List.cons_append] at q
      simp only [CacheConc.pending] at q
      split at q
      · cases q
      · exact ih q h3

/-! ## References in the atomic cache -/

/-- The references that the clients know of and those that the cache knows of. -/
theorem Atomic.counts (A : Atomic hf capacity a H) (y : Handle) :
    (∃ n, Total a.now (wGot y) n ∧ obtained a.tr y = got H y + n) ∧ (∃ n, Total a.now (wRel y) n ∧ begun H y = released a.tr y + n) := by
  induction A with
  | init h => exact ⟨⟨0, ⟨[], by simp, fun _ _ => rfl, rfl⟩, rfl⟩, ⟨0, ⟨[], by simp, fun _ _ => rfl, rfl⟩, rfl⟩⟩
  | @call a H t c r h ih =>
    obtain ⟨⟨n, T, e⟩, ⟨m, T', e'⟩⟩ := ih
    refine ⟨⟨_, (T.upd t (some (c, []))).2, ?_⟩, ⟨_, (T'.upd t (some (c, []))).2, ?_⟩⟩
    · rw [h]
      show obtained a.tr y = _
      rw [e]
      cases c <;> simp only [CacheConc.got, wGot] <;> omega
    · rw [h]
      show begun _ y = released a.tr y + _
      cases c <;> simp only [begun, wRel] <;> first | omega | skip
  | @effect a a' H t c es e r h n o ih =>
    have hnow : a'.now = a.now := by cases o <;> rfl
    have hfun : (a'.at t (some (c, es ++ [e]))).now = fun u => if u = t then some (c, es ++ [e]) else a.now u := by
      funext u; simp only [Atom.at, hnow]
    obtain ⟨⟨m, T, hm⟩, ⟨m', T', hm'⟩⟩ := ih
    rw [hfun]
    refine ⟨?_, ?_⟩
    · obtain ⟨hle, T'⟩ := T.upd t (some (c, es ++ [e]))
      refine ⟨_, T', ?_⟩
      show obtained a'.tr y = _
      rw [h] at hle ⊢
      cases n.is <;> cases o <;> simp only [obtained, wGot, List.nil_append] at hle ⊢ <;> omega
    · obtain ⟨hle, T'⟩ := T'.upd t (some (c, es ++ [e]))
      refine ⟨_, T', ?_⟩
      show _ = released a'.tr y + _
      rw [h] at hle ⊢
      cases n.is <;> cases o <;> simp only [released, wRel, List.nil_append] at hle ⊢ <;> omega
  | @ret a H t c es x r h d ih =>
    obtain ⟨⟨m, T, hm⟩, ⟨m', T', hm'⟩⟩ := ih
    refine ⟨?_, ?_⟩
    · obtain ⟨hle, T'⟩ := T.upd t none
      refine ⟨_, T', ?_⟩
      show obtained a.tr y = _
      rw [hm, h]
      rw [h] at hle
      have e2 : wGot y none = 0 := rfl
      rw [e2]
      cases c with
      | insert k v ch dd =>
        obtain ⟨z, rfl, rfl⟩ := d
        simp only [wGot, CacheConc.got] at hle ⊢
        omega
      | lookup k =>
        obtain ⟨z, rfl, rfl⟩ := d
        simp only [wGot, CacheConc.got] at hle ⊢
        omega
      | release k => obtain ⟨rfl, rfl⟩ := d; simp only [wGot, CacheConc.got]; omega
      | erase k => obtain ⟨rfl, rfl⟩ := d; simp only [wGot, CacheConc.got]; omega
      | value k => obtain ⟨z, rfl, rfl⟩ := d; simp only [wGot, CacheConc.got]; omega
      | newId => obtain ⟨z, rfl, rfl⟩ := d; simp only [wGot, CacheConc.got]; omega
      | prune => obtain ⟨rfl, rfl⟩ := d; simp only [wGot, CacheConc.got]; omega
      | totalCharge => obtain ⟨z, rfl, rfl⟩ := d; simp only [wGot, CacheConc.got]; omega
    · obtain ⟨hle, T''⟩ := T'.upd t none
      refine ⟨_, T'', ?_⟩
      show begun H y = released a.tr y + _
      rw [hm', h]
      have e2 : wRel y none = 0 := rfl
      have e3 : wRel y (some (c, es)) = 0 := by
        cases c with
        | release k => obtain ⟨rfl, rfl⟩ := d; rfl
        | _ => rfl
      omega

theorem Total.zero {now : Tid → TState} {W : TState → Nat} {n : Nat} (T : Total now W n) (h : ∀ t, W (now t) = 0) : n = 0 := by
  obtain ⟨L, -, -, rfl⟩ := T
  simp only [h]
  clear * -
  induction L with
  | nil => rfl
  | cons x L ih => simp only [List.map_cons, List.sum_cons, ih]

/-! ## Entries in use -/

structure Cur (a : Atom) (H : Hist) : Prop where
  pend : ∀ t k v ch d h H1, pendingAt H t = some (.insert k v ch d, H1) →
    a.now t = some (.insert k v ch d, [.op ⟨.insert k v ch d, some h⟩]) → OnlyWriter H1 H k.bytes → current a.tr k.bytes = some h
  ret : ∀ k v ch d h H1, Returned H (.insert k v ch d) H1 (.handle (some h)) → OnlyWriter H1 H k.bytes →
    current a.tr k.bytes = some h
  look : ∀ t k x H0 k' v ch d H1 h, pendingAt H t = some (.lookup k, H0) → a.now t = some (.lookup k, [.op ⟨.lookup k, x⟩]) →
    Returned H0 (.insert k' v ch d) H1 (.handle (some h)) → k'.bytes = k.bytes → OnlyWriter H1 H k.bytes → begun H h < got H0 h →
    x = some h

theorem current_not_write {tr : CTrace} {c : Call} {es : List Effect} {o : COp} {x : Option Handle} (n : NextIs c es (.op ⟨o, x⟩))
    {kb : Bytes} (hw : ¬ Writes kb c) : current (⟨o, x⟩ :: tr) kb = current tr kb := by
  cases n with
  | insert k v ch d h => simp only [current]; rw [if_neg (show ¬ k.bytes = kb from hw)]
  | erase k => simp only [current]; rw [if_neg (show ¬ k.bytes = kb from hw)]
  | _ => rfl

theorem Atomic.cur (hH : HashFn hf) (hcap : perShard capacity ≠ 0) (A : Atomic hf capacity a H) : Cur a H := by
  induction A with
  | init h => exact ⟨by (intro _ _ _ _ _ _ _ h; cases h), by (intro _ _ _ _ _ _ h; cases h), by (intro _ _ _ _ _ _ _ _ _ _ h; cases h)⟩
  | @call a H t c r h ih =>
    have hsub : ∀ {c1 : Call} {H1 : Hist} {kb : Bytes}, writeCalls H1 kb + 1 ≤ writeCalls H kb → OnlyWriter H1 (.call t c :: H) kb →
        OnlyWriter H1 H kb := by
      intro c1 H1 kb h1 ⟨o1, o2⟩
      have := writeCalls_cons (.call t c) H kb
      exact ⟨o1, by omega⟩
    refine ⟨?_, ?_, ?_⟩
    · intro u k v ch d y H1 hp hn ho
      simp only [pendingAt] at hp
      simp only [Atom.at] at hn
      by_cases e : u = t
      · subst e
        simp at hn
      · rw [if_neg e] at hn
        rw [if_neg (fun x => e x.symm)] at hp
        exact ih.pend u k v ch d y H1 hp hn (hsub (c1 := c) (writeCalls_pendingAt hp rfl) ho)
    · intro k v ch d y H1 hr ho
      cases hr with
      | before hr => exact ih.ret k v ch d y H1 hr (hsub (c1 := c) (writeCalls_returned hr rfl) ho)
    · intro u k x H0 k' v ch d H1 y hp hn hr hb ho hg
      simp only [pendingAt] at hp
      simp only [Atom.at] at hn
      by_cases e : u = t
      · subst e
        simp at hn
      · rw [if_neg e] at hn
        rw [if_neg (fun x => e x.symm)] at hp
        refine ih.look u k x H0 k' v ch d H1 y hp hn hr hb (hsub (c1 := c) ?_ ho) (Nat.lt_of_le_of_lt (begun_cons _ _ _) hg)
        exact writeCalls_returned (hr.pendingAt hp) hb
  | @effect a a' H t c es e r h n o ih =>
    have hnow : a'.now = a.now := by cases o <;> rfl
    -- an entry that is current stays so
    have stays : ∀ {kb : Bytes} {y : Handle}, ¬ Writes kb c → current a.tr kb = some y → current a'.tr kb = some y := by
      intro kb y hw hc
      cases o with
      | op ha e => rw [← hc]; exact current_not_write n.is hw
      | _ => exact hc
    have hpt : pending H t = some c := by rw [r.pend, h]; rfl
    have hret : ∀ k v ch d y H1, Returned H (.insert k v ch d) H1 (.handle (some y)) → OnlyWriter H1 H k.bytes →
        current a'.tr k.bytes = some y := by
      intro k v ch d y H1 hr ho
      refine stays (fun hw => ?_) (ih.ret k v ch d y H1 hr ho)
      have := second_returned hr rfl hpt hw ho.1
      have := ho.2
      omega
    refine ⟨?_, hret, ?_⟩
    · intro u k v ch d y H1 hp hn ho
      simp only [Atom.at, hnow] at hn
      by_cases e' : u = t
      · subst e'
        rw [if_pos rfl] at hn
        injection hn with hn
        injection hn with hn1 hn2
        subst hn1
        cases n.is with
        | insert _ _ _ _ z =>
          cases o with
          | op ha e =>
            simp only [List.nil_append, List.cons.injEq, Effect.op.injEq, CEvent.mk.injEq, Option.some.injEq, true_and, and_true] at hn2
            subst hn2
            show current _ _ = _
            simp only [Atom.at, current, if_true]
      · rw [if_neg e'] at hn
        refine stays (fun hw => ?_) (ih.pend u k v ch d y H1 hp hn ho)
        have := second_pending hp rfl (fun h => e' h.symm) hpt hw ho.1
        have := ho.2
        omega
    · intro u k x H0 k' v ch d H1 y hp hn hr hb ho hg
      simp only [Atom.at, hnow] at hn
      by_cases e' : u = t
      · subst e'
        rw [if_pos rfl] at hn
        injection hn with hn
        injection hn with hn1 hn2
        subst hn1
        cases n.is with
        | lookup _ z =>
          cases o with
          | op ha e =>
            simp only [List.nil_append, List.cons.injEq, Effect.op.injEq, CEvent.mk.injEq, true_and, and_true] at hn2
            subst hn2
            have hr' := hr.pendingAt hp
            have hcur := ih.ret k' v ch d y H1 hr' (by rw [hb]; exact ho)
            obtain ⟨⟨m, -, c1⟩, ⟨m', -, c2⟩⟩ := r.counts y
            obtain ⟨L, rfl⟩ := pendingAt_suffix hp
            have hg' : got H0 y ≤ got (L ++ .call u (.lookup k) :: H0) y := by
              have := got_append (L ++ [.call u (.lookup k)]) H0 y
              simpa using this
            have hout : 0 < outstanding a.tr y := by unfold outstanding; omega
            have hca := in_use_cached hH hcap r.reach hcur hout
            obtain ⟨i, hi, hk⟩ : ∃ i, inserted a.tr y = some i ∧ i.key = k.bytes := by
              obtain ⟨Hh, hHh⟩ := id hH
              obtain ⟨i, h1, h2⟩ := (reach_inv hHh r.reach).curkey _ _ hcur
              exact ⟨i, h1, h2.trans hb⟩
            obtain ⟨c3, e3⟩ := cached_finds hH r.reach ha.1 hi hk hca
            exact (det e (show cstep hf a.cache (.lookup k) = _ from e3)).2
      · rw [if_neg e'] at hn
        exact ih.look u k x H0 k' v ch d H1 y hp hn hr hb ho hg
  | @ret a H t c es x r h d ih =>
    refine ⟨?_, ?_, ?_⟩
    · intro u k v ch d' y H1 hp hn ho
      simp only [pendingAt] at hp
      simp only [Atom.at] at hn
      by_cases e : u = t
      · subst e
        simp at hn
      · rw [if_neg e] at hn
        rw [if_neg (fun x => e x.symm)] at hp
        exact ih.pend u k v ch d' y H1 hp hn ho
    · intro k v ch d' y H1 hr ho
      cases hr with
      | before hr => exact ih.ret k v ch d' y H1 hr ho
      | now hp =>
        obtain ⟨es', hn⟩ := r.pendAt' hp
        rw [h] at hn
        injection hn with hn
        injection hn with hn1 hn2
        subst hn1
        obtain ⟨z, rfl, hz⟩ := d
        injection hz with hz
        injection hz with hz
        subst hz
        exact ih.pend t k v ch d' y H1 hp h ho
    · intro u k x' H0 k' v ch d' H1 y hp hn hr hb ho hg
      simp only [pendingAt] at hp
      simp only [Atom.at] at hn
      by_cases e : u = t
      · subst e
        simp at hn
      · rw [if_neg e] at hn
        rw [if_neg (fun x => e x.symm)] at hp
        exact ih.look u k x' H0 k' v ch d' H1 y hp hn hr hb ho hg

/-! ## Prune -/

/-- The effects of a call so far are the first ones of a complete call. -/
theorem Atomic.parts (A : Atomic hf capacity a H) {t : Tid} {c : Call} {es : List Effect} (h : a.now t = some (c, es)) :
    ∃ es' x, Complete c (es ++ es') x := by
  induction A generalizing t c es with
  | init => cases h
  | @call a H u c' r h' ih =>
    simp only [Atom.at] at h
    split at h
    · cases h
      obtain ⟨es, x, h⟩ := Complete.exists c'
      exact ⟨es, x, h⟩
    · exact ih h
  | @effect a a' H u c' es' e r h' n o ih =>
    have hnow : a'.now = a.now := by cases o <;> rfl
    simp only [Atom.at, hnow] at h
    split at h
    · cases h
      obtain ⟨es, x, h⟩ := n
      exact ⟨es, x, by simpa using h⟩
    · exact ih h
  | @ret a H u c' es' x r h' d ih =>
    simp only [Atom.at] at h
    split at h
    · cases h
    · exact ih h

theorem Returned.new {k : Slice} {v : Nat} {ch : UInt64} {d : Nat} {H1 : Hist} {h : Handle}
    (r : Returned H (.insert k v ch d) H1 (.handle (some h))) : h ∈ newHandles H := by
  generalize hc : Call.insert k v ch d = c at r
  generalize hx : Res.handle (some h) = x at r
  induction r with
  | @now H t x c H0 p =>
    subst hc; subst hx
    have : CacheConc.pending H t = some (.insert k v ch d) := by rw [← pendingAt_pending, p]; rfl
    simp only [newHandles, this]
    exact List.mem_cons_self
  | @before H e x c H0 r ih =>
    have := ih hc hx
    cases e with
    | call => exact this
    | ret t y =>
      cases y with
      | handle o =>
        cases o with
        | none => exact this
        | some z =>
          simp only [newHandles]
          split
          · exact List.mem_cons_of_mem _ this
          · exact this
      | _ => exact this

/-- While a thread is in Prune: an entry that nobody referred to at its start and that no Lookup asked for. -/
def Pruning (hf : Slice → M UInt32) (a : Atom) (H : Hist) : Prop :=
  ∀ t es Hp k v ch d H1 h, pendingAt H t = some (.prune, Hp) → a.now t = some (.prune, es) →
    Returned Hp (.insert k v ch d) H1 (.handle (some h)) → GivenBack Hp h → NoLookup Hp H k.bytes →
    outstanding a.tr h = 0 ∧ (h.shard < es.length → ¬ Cached hf a.cache h)

theorem Atomic.pruning (hH : HashFn hf) (A : Atomic hf capacity a H) : Pruning hf a H := by
  induction A with
  | init h => intro _ _ _ _ _ _ _ _ _ h; cases h
  | @call a H t c r h ih =>
    intro u es Hp k v ch d H1 y hp hn hi hb hl
    simp only [pendingAt] at hp
    simp only [Atom.at] at hn
    by_cases e : u = t
    · subst e
      rw [if_pos rfl] at hp hn
      injection hp with hp
      injection hp with hp1 hp2
      subst hp2
      injection hn with hn
      injection hn with hn1 hn2
      subst hn2
      refine ⟨?_, fun h => absurd h (Nat.not_lt_zero _)⟩
      show outstanding a.tr y = 0
      obtain ⟨⟨m, T, c1⟩, ⟨m', T', c2⟩⟩ := r.counts y
      have z1 : m = 0 := by
        refine T.zero (fun w => ?_)
        have f := r.facts hH
        obtain ⟨z, hz1, hz2⟩ := f.ret _ _ _ hi
        injection hz1 with hz1
        injection hz1 with hz1
        subst hz1
        cases hw : a.now w with
        | none => rfl
        | some s =>
          obtain ⟨c', es'⟩ := s
          unfold wGot
          split
          · rename_i heq
            split
            · rename_i hx
              subst hx
              injection heq with heq
              have := ((r.uniq hH).pnew w y (by rw [hw, heq]; rfl)).2
              exact absurd hi.new this
            · rfl
          · rename_i heq
            split
            · rename_i hx
              subst hx
              injection heq with heq
              rw [heq] at hw
              rename_i k2 o2
              have hcomp : Complete (.lookup k2) [.op ⟨o2, some y⟩] (.handle (some y)) := by
                obtain ⟨es3, r3, z3, h3, -⟩ := r.parts hw
                simp only [List.cons_append, List.nil_append, List.cons.injEq, Effect.op.injEq, CEvent.mk.injEq] at h3
                obtain ⟨⟨rfl, rfl⟩, rfl⟩ := h3
                exact ⟨_, rfl, rfl⟩
              obtain hf2 | ⟨z, i, hz, hi2, hk2⟩ := f.pend w _ _ _ hw hcomp
              · cases hf2
              · injection hz with hz
                injection hz with hz
                subst hz
                rw [hz2] at hi2
                injection hi2 with hi2
                subst hi2
                exact absurd hk2.symm (hl.1 w k2 (by rw [r.pend, hw]; rfl))
            · rfl
          · rfl
      have z2 : m' = 0 := by
        refine T'.zero (fun w => ?_)
        cases hw : a.now w with
        | none => rfl
        | some s =>
          obtain ⟨c', es'⟩ := s
          unfold wRel
          split
          · rename_i heq
            split
            · rename_i hx
              subst hx
              injection heq with heq
              rw [heq] at hw
              refine absurd ?_ (hb.2 w)
              rw [r.pend, hw]; rfl
            · rfl
          · rfl
      have := hb.1
      unfold outstanding
      omega
    · rw [if_neg e] at hn
      rw [if_neg (fun x => e x.symm)] at hp
      refine ih u es Hp k v ch d H1 y hp hn hi hb ⟨hl.1, ?_⟩
      obtain ⟨L, hL⟩ := pendingAt_suffix hp
      have h1 := lookupCalls_cons (.call t c) H k.bytes
      have h2 := lookupCalls_append (L ++ [.call u .prune]) Hp k.bytes
      rw [List.append_assoc, List.singleton_append, ← hL] at h2
      have := hl.2
      omega
  | @effect a a' H t c es e r h n o ih =>
    have hnow : a'.now = a.now := by cases o <;> rfl
    intro u es' Hp k v ch d H1 y hp hn hi hb hl
    simp only [Atom.at, hnow] at hn
    obtain ⟨es0, hn0⟩ := r.pendAt' hp
    obtain ⟨g1, g2⟩ := ih u es0 Hp k v ch d H1 y hp hn0 hi hb hl
    have f := r.facts hH
    obtain ⟨z, hz1, hz2⟩ := f.ret _ _ _ (hi.pendingAt hp)
    injection hz1 with hz1
    injection hz1 with hz1
    subst hz1
    -- no new reference
    have out : outstanding a'.tr y = 0 := by
      cases o with
      | op ha e =>
        cases n.is with
        | insert k2 v2 ch2 d2 z =>
          obtain ⟨z', hz', hn'⟩ := insert_new hH r.reach ha e
          injection hz' with hz'
          subst hz'
          have : z ≠ y := by rintro rfl; rw [hn'] at hz2; cases hz2
          simp only [outstanding, obtained, released, Option.some.injEq, this, if_false] at g1 ⊢
          exact g1
        | lookup k2 =>
          rename_i x
          have : x ≠ some y := by
            rintro rfl
            have h1 := finds_current hH r.reach ha.1 ⟨_, e⟩
            obtain ⟨Hh, hHh⟩ := id hH
            obtain ⟨i, h2, h3⟩ := (reach_inv hHh r.reach).curkey _ _ h1
            rw [hz2] at h2
            injection h2 with h2
            subst h2
            obtain ⟨L, hL⟩ := pendingAt_suffix hp
            have hL' : H = (L ++ [.call u .prune]) ++ Hp := by rw [hL]; simp
            rw [hL'] at hl
            refine hl.pending (u := t) (k := k2) ?_ h3.symm
            rw [← hL', r.pend, h]; rfl
          simp only [outstanding, obtained, released, this, if_false] at g1 ⊢
          exact g1
        | release z =>
          simp only [outstanding, obtained, released] at g1 ⊢
          omega
        | erase k2 => exact g1
        | prune hl => exact g1
      | _ => exact g1
    refine ⟨out, ?_⟩
    have old : y.shard < es0.length → ¬ Cached hf a'.cache y := by
      intro hlt
      have L0 : Left hf a.cache a.tr y := ⟨by rw [hz2]; exact Option.some_ne_none _, g1, g2 hlt⟩
      cases o with
      | op ha e => exact (L0.step hH r.reach ha e).2.2
      | _ => exact L0.2.2
    show y.shard < es'.length → ¬ Cached hf a'.cache y
    by_cases e' : u = t
    · subst e'
      rw [if_pos rfl] at hn
      injection hn with hn
      injection hn with hn1 hn2
      subst hn1
      rw [h] at hn0
      injection hn0 with hn0
      injection hn0 with hn3 hn4
      subst hn4
      subst hn2
      intro hlt
      rw [List.length_append, List.length_singleton] at hlt
      by_cases hlt2 : y.shard < es.length
      · exact old hlt2
      · cases n.is with
        | prune hl16 =>
          cases o with
          | op ha e =>
            obtain ⟨c1, e1, hall⟩ := C32_prune_shard hH r.reach ha
            obtain ⟨rfl, -⟩ := det e e1
            intro hc
            have := ((hall y).mp hc).2 (by omega)
            omega
    · rw [if_neg e', hn0] at hn
      injection hn with hn
      injection hn with hn1 hn2
      subst hn2
      exact old
  | @ret a H t c es x r h d ih =>
    intro u es' Hp k v ch d' H1 y hp hn hi hb hl
    simp only [pendingAt] at hp
    simp only [Atom.at] at hn
    by_cases e : u = t
    · subst e
      simp at hn
    · rw [if_neg e] at hn
      rw [if_neg (fun x => e x.symm)] at hp
      exact ih u es' Hp k v ch d' H1 y hp hn hi hb hl

end CacheConc
end Lsmdb
