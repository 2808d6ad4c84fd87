import Verif.Proof.CacheOom1
import Verif.Spec.CacheOom

/-! # The invariant of the sharded cache when memory runs out

The history in which every Insert that threw and left its entry behind is an Insert that returned a handle nobody ever releases. -/

namespace Lsmdb
namespace Cache
open Spec

/-- `tr` is such a history for `otr`; `L`: the handles of the entries left behind. -/
inductive Match : OTrace → CTrace → List Handle → Prop where
  | nil : Match [] [] []
  | ret {otr tr L op r} : Match otr tr L →
      (∀ k v ch d, op = .insert k v ch d → ∃ h, r = some h ∧ inserted tr h = none) →
      (∀ k h, op = .lookup k → r = some h → inserted tr h ≠ none) →
      Match (⟨op, some r⟩ :: otr) (⟨op, r⟩ :: tr) L
  | gone {otr tr L k v ch d} : Match otr tr L → Match (⟨.insert k v ch d, none⟩ :: otr) tr L
  | lost {otr tr L k v ch d h} : Match otr tr L → inserted tr h = none →
      Match (⟨.insert k v ch d, none⟩ :: otr) (⟨.insert k v ch d, some h⟩ :: tr) (h :: L)

variable {otr : OTrace} {tr : CTrace} {L : List Handle}

theorem Match.released (m : Match otr tr L) (h : Handle) : released tr h = released (completed otr) h := by
  induction m with
  | nil => rfl
  | @ret otr tr L op r m hn hl ih => cases op <;> simp only [Spec.released, completed, ih]
  | gone m ih => exact ih
  | lost m hn ih => exact ih

theorem Match.lost_inserted (m : Match otr tr L) {h : Handle} (hh : h ∈ L) : inserted tr h ≠ none := by
  induction m with
  | nil => cases hh
  | @ret otr tr L op r m hn hl ih =>
    have := ih hh
    cases op <;> try exact this
    simp only [inserted]
    split
    · intro h; cases h
    · exact this
  | gone m ih => exact ih hh
  | @lost otr tr L k v ch d h' m hn ih =>
    simp only [inserted]
    split
    · intro h; cases h
    · rename_i hne
      rcases List.mem_cons.mp hh with rfl | hh
      · exact absurd rfl hne
      · exact ih hh

theorem Match.obtained (m : Match otr tr L) (h : Handle) :
    obtained tr h = obtained (completed otr) h + if h ∈ L then 1 else 0 := by
  induction m with
  | nil => rfl
  | @ret otr tr L op r m hn hl ih => cases op <;> simp only [Spec.obtained, completed, ih] <;> omega
  | gone m ih => exact ih
  | @lost otr tr L k v ch d h' m hn ih =>
    simp only [Spec.obtained, completed, ih, List.mem_cons, Option.some.injEq]
    by_cases e : h' = h
    · subst e
      have : h' ∉ L := fun hh => m.lost_inserted hh hn
      simp [this]
    · have e' : ¬ h = h' := fun x => e x.symm
      simp [e, e']

theorem Match.unobtained (m : Match otr tr L) {h : Handle} (hi : inserted tr h = none) : Spec.obtained tr h = 0 := by
  induction m with
  | nil => rfl
  | @ret otr tr L op r m hn hl ih =>
    cases op with
    | insert k v ch d =>
      simp only [inserted] at hi
      split at hi
      · cases hi
      · rename_i hne
        simp only [Spec.obtained, ih hi, if_neg hne]
    | lookup k =>
      have hi : inserted tr h = none := hi
      simp only [Spec.obtained, ih hi]
      rw [if_neg (fun e => hl k h rfl e hi)]
    | release h' => exact ih hi
    | erase k => exact ih hi
    | pruneShard i => exact ih hi
  | gone m ih => exact ih hi
  | @lost otr tr L k v ch d h' m hn ih =>
    simp only [inserted] at hi
    split at hi
    · cases hi
    · rename_i hne
      simp only [Spec.obtained, ih hi, if_neg hne]

/-- The value a key has in `tr` is one it may have. -/
theorem Match.mayHold (m : Match otr tr L) {kb : Bytes} {h : Handle} (hc : current tr kb = some h) :
    ∃ info, inserted tr h = some info ∧ info.key = kb ∧ info.value ∈ mayHold otr kb := by
  induction m with
  | nil => cases hc
  | @ret otr tr L op r m hn hl ih =>
    cases op with
    | insert k v ch d =>
      obtain ⟨h0, hr, h0n⟩ := hn k v ch d rfl
      subst hr
      simp only [current] at hc
      by_cases e : k.bytes = kb
      · rw [if_pos e] at hc
        cases hc
        exact ⟨⟨k.bytes, v, ch, d⟩, by simp [inserted], e, by simp [Spec.mayHold, e]⟩
      · rw [if_neg e] at hc
        obtain ⟨info, h1, h2, h3⟩ := ih hc
        refine ⟨info, ?_, h2, by simpa [Spec.mayHold, e] using h3⟩
        have : ¬ h0 = h := fun e => by rw [e, h1] at h0n; cases h0n
        simp [inserted, this, h1]
    | erase k =>
      simp only [current] at hc
      by_cases e : k.bytes = kb
      · rw [if_pos e] at hc; cases hc
      · rw [if_neg e] at hc
        obtain ⟨info, h1, h2, h3⟩ := ih hc
        exact ⟨info, h1, h2, by simpa [Spec.mayHold, e] using h3⟩
    | lookup k => exact ih hc
    | release h => exact ih hc
    | pruneShard i => exact ih hc
  | @gone otr tr L k v ch d m ih =>
    obtain ⟨info, h1, h2, h3⟩ := ih hc
    refine ⟨info, h1, h2, ?_⟩
    simp only [Spec.mayHold]
    split
    · exact List.mem_cons_of_mem _ h3
    · exact h3
  | @lost otr tr L k v ch d h' m hn ih =>
    simp only [current] at hc
    by_cases e : k.bytes = kb
    · rw [if_pos e] at hc
      cases hc
      exact ⟨⟨k.bytes, v, ch, d⟩, by simp [inserted], e, by simp [Spec.mayHold, e]⟩
    · rw [if_neg e] at hc
      obtain ⟨info, h1, h2, h3⟩ := ih hc
      refine ⟨info, ?_, h2, by simpa [Spec.mayHold, e] using h3⟩
      have : ¬ h' = h := fun e => by rw [e, h1] at hn; cases hn
      simp [inserted, this, h1]

/-- A key no Insert of which has thrown since is as in the calls that returned. -/
theorem Match.current (m : Match otr tr L) {kb : Bytes} (hu : Undisturbed otr kb) :
    current tr kb = current (completed otr) kb := by
  induction m with
  | nil => rfl
  | @ret otr tr L op r m hn hl ih =>
    cases op with
    | insert k v ch d =>
      simp only [Undisturbed] at hu
      simp only [Spec.current, completed]
      by_cases e : k.bytes = kb
      · rw [if_pos e, if_pos e]
      · rw [if_neg e, if_neg e]; exact ih (hu.resolve_left e)
    | erase k =>
      simp only [Undisturbed] at hu
      simp only [Spec.current, completed]
      by_cases e : k.bytes = kb
      · rw [if_pos e, if_pos e]
      · rw [if_neg e, if_neg e]; exact ih (hu.resolve_left e)
    | lookup k => exact ih hu
    | release h => exact ih hu
    | pruneShard i => exact ih hu
  | @gone otr tr L k v ch d m ih => exact ih hu.2
  | @lost otr tr L k v ch d h' m hn ih =>
    simp only [Spec.current, completed]
    rw [if_neg hu.1]; exact ih hu.2

theorem Match.allowed (m : Match otr tr L) {op : COp} (ha : AllowedO otr op) : Allowed tr op := by
  cases op with
  | insert k v ch d =>
    refine ⟨ha.1, fun ks hnd hks => ha.2 ks hnd ?_⟩
    intro k hk
    cases hc : Spec.current tr k with
    | none => exact absurd hc (hks k hk)
    | some h =>
      obtain ⟨info, -, -, h3⟩ := m.mayHold hc
      intro e; rw [e] at h3; cases h3
  | lookup k =>
    refine ⟨ha.1, fun h => ?_⟩
    have := ha.2 h
    have h1 := m.released h
    have h2 := m.obtained h
    unfold outstanding at this ⊢
    split at h2 <;> omega
  | release h =>
    show Spec.released tr h < Spec.obtained tr h
    have ha : Spec.released (completed otr) h < Spec.obtained (completed otr) h := ha
    have h1 := m.released h
    have h2 := m.obtained h
    split at h2 <;> omega
  | erase k => exact ha
  | pruneShard i => exact ha

structure OInv (H : Bytes → UInt32) (cap : UInt64) (c : Sharded) (otr : OTrace) (tr : CTrace) (L : List Handle) : Prop where
  g : GInv H cap c tr
  m : Match otr tr L
  bal : ∀ h, released (completed otr) h ≤ obtained (completed otr) h

variable {H : Bytes → UInt32} {cap : UInt64} {c : Sharded} {hf : Slice → M UInt32}

/-- What an Insert does, whatever allocations fail. -/
inductive InsertCase (H : Bytes → UInt32) (cap : UInt64) (hf : Slice → M UInt32) (c : Sharded) (tr : CTrace)
    (k : Slice) (v : Nat) (ch : UInt64) (d : Nat) (o : Oom) : Prop where
  /-- It throws and has done nothing. -/
  | gone : o.node = true → cstepO hf c (.insert k v ch d) o = .ok (c, none) → InsertCase H cap hf c tr k v ch d o
  /-- It behaves as usual. -/
  | ret {c' h} : o.node = false → cstep hf c (.insert k v ch d) = .ok (c', some h) →
      cstepO hf c (.insert k v ch d) o = .ok (c', some (some h)) →
      inserted tr h = none → GInv H cap c' (⟨.insert k v ch d, some h⟩ :: tr) → InsertCase H cap hf c tr k v ch d o
  /-- It throws in the middle. -/
  | lost {c' h} : o.node = false → o.table = true → cstepO hf c (.insert k v ch d) o = .ok (c', none) → inserted tr h = none →
      GInv H cap c' (⟨.insert k v ch d, some h⟩ :: tr) →
      Finds hf c' k (some h) → Sharded.TotalCharge c' = Sharded.TotalCharge c + ch → ¬ (∃ x, Finds hf c k (some x)) → InsertCase H cap hf c tr k v ch d o

theorem setShard_same (c : Sharded) (i : Nat) (s : Shard) (hs : c.shards[i]? = some s) : setShard c i s = c := by
  unfold setShard
  have : c.shards.set i s = c.shards := by
    refine List.ext_getElem? (fun j => ?_)
    rw [List.getElem?_set]
    split
    · rename_i e; subst e
      rw [hs]
      have : i < c.shards.length := by
        rcases Nat.lt_or_ge i c.shards.length with h | h
        · exact h
        · rw [List.getElem?_eq_none h] at hs; cases hs
      simp [this]
    · rfl
  rw [this]

theorem foldl_charge : ∀ (L : List Shard) (i : Nat) (s s' : Shard) (acc x : UInt64), L[i]? = some s → s'.usage = s.usage + x →
    (L.set i s').foldl (fun total s => total + Cache.TotalCharge s) acc =
      L.foldl (fun total s => total + Cache.TotalCharge s) acc + x
  | [], i, s, s', acc, x, h, _ => by simp at h
  | s0 :: L, 0, s, s', acc, x, h, hu => by
    cases h
    simp only [List.set_cons_zero, List.foldl_cons, Cache.TotalCharge, hu]
    have : ∀ (L : List Shard) (a : UInt64), L.foldl (fun total s => total + s.usage) (a + x) =
        L.foldl (fun total s => total + s.usage) a + x := by
      intro L
      induction L with
      | nil => intro a; rfl
      | cons s1 L ih =>
        intro a
        simp only [List.foldl_cons]
        rw [← ih, UInt64.add_assoc, UInt64.add_comm x, ← UInt64.add_assoc]
    rw [← this, UInt64.add_assoc]
  | s0 :: L, i + 1, s, s', acc, x, h, hu => by
    simp only [List.set_cons_succ, List.foldl_cons]
    exact foldl_charge L i s s' _ x h hu

theorem totalCharge_set {i : Nat} {s s' : Shard} {x : UInt64} (hs : c.shards[i]? = some s) (hu : s'.usage = s.usage + x) :
    Sharded.TotalCharge (setShard c i s') = Sharded.TotalCharge c + x :=
  foldl_charge c.shards i s s' 0 x hs hu

theorem insertO_cases (g : GInv H cap c tr) (hH : ∀ k : Slice, k.WF → hf k = .ok (H k.bytes)) {k : Slice}
    {v : Nat} {ch : UInt64} {d : Nat} (ha : Allowed tr (.insert k v ch d)) {o : Oom} (hkf : o.key = true → o.node = false → k.bytes = []) :
    InsertCase H cap hf c tr k v ch d o := by
  have ha0 := ha
  obtain ⟨hk, hsz⟩ := ha
  have hj := shardIndex_lt (H k.bytes)
  obtain ⟨s, A, hg, hs, r, t⟩ := getShard_ok g hj
  have hstep : ∀ s' a, InsertO s k (H k.bytes) v ch d o = .ok (s', a) →
      cstepO hf c (.insert k v ch d) o = .ok (setShard c (shardIndex (H k.bytes)) s',
        (a.map (fun a => (⟨shardIndex (H k.bytes), a⟩ : Handle))).map some) := by
    intro s' a e
    simp only [cstepO, Sharded.InsertO, hH k hk, bind, Except.bind, hg, e]
    rfl
  cases hn : o.node with
  | true =>
    refine .gone hn ?_
    rw [hstep s none (by unfold InsertO; rw [hn]; rfl), setShard_same c _ s hs]
    rfl
  | false =>
    have hkf' : o.key = true → k.bytes = [] := fun h => hkf h hn
    by_cases hth : o.table = true ∧ s.capacity > 0 ∧ A.find s.heap.key k.bytes = none ∧ Full s.tab
    · obtain ⟨ht, hcap, hnone, hfull⟩ := hth
      obtain ⟨s', e, r', nd, hc', hus⟩ := InsertO_throw r hk v ch d hn hkf' ht hcap (size_bound r t hsz) hnone hfull
      have hadd : A.add s.heap.key k.bytes s.heap.fresh =
          { A with busy := A.busy ++ [s.heap.fresh], held := upd A.held s.heap.fresh 1 } := by
        simp only [Abs.add, hnone]
      have t' := t.insert (ev := []) (rest := A.idle) r hcap k v ch d nd hc' rfl (by rw [hadd]; rfl)
      have hA : { A.add s.heap.key k.bytes s.heap.fresh with
          idle := A.idle
          dead := (A.add s.heap.key k.bytes s.heap.fresh).dead ++ [] } =
          { A with busy := A.busy ++ [s.heap.fresh], held := upd A.held s.heap.fresh 1 } := by
        rw [hadd]; simp
      rw [hA] at t'
      have hins : inserted tr ⟨shardIndex (H k.bytes), s.heap.fresh⟩ = none := t.noins _ (Nat.le_refl _)
      have g' := g.local hj r' t' (by
        intro i hi
        refine ⟨?_, fun e => hi e.symm⟩
        intro h e
        injection e with e
        subst e
        exact fun e => hi e.symm) (fun _ _ _ _ _ => ⟨_, rfl, hins⟩)
      have hs' : (setShard c (shardIndex (H k.bytes)) s').shards[shardIndex (H k.bytes)]? = some s' := by
        simp only [setShard]
        rw [List.getElem?_set_self (by rw [g.len]; exact hj)]
      refine .lost hn ht (hstep s' none e) hins g' ?_ ?_ ?_
      · refine (Finds_iff g' hH hk hs' r' _).mpr ?_
        have hkey : s'.heap.key s.heap.fresh = k.bytes := by rw [nd.key, upd_same]
        rw [← hkey, r'.find_eq (by simp [Abs.all]), hkey]; rfl
      · exact totalCharge_set hs hus
      · rintro ⟨x, hx⟩
        have := (Finds_iff g hH hk hs r (some x)).mp hx
        rw [hnone] at this; cases this
    · have heq : InsertO s k (H k.bytes) v ch d o = InsertO s k (H k.bytes) v ch d { o with table := false } := by
        cases ht : o.table with
        | false => rw [← ht]
        | true => exact InsertO_true_ne r (fun h => hth ⟨ht, h⟩)
      rw [InsertO_ok s k (H k.bytes) v ch d { o with table := false } hn hkf' rfl] at heq
      obtain ⟨s1, A1, s', A', hs1, r1, t1, e1, -, -, g', -⟩ := step_insert g hH ha0
      rw [hs] at hs1
      cases hs1
      have e2 := e1
      simp only [cstep, Sharded.Insert, hH k hk, bind, Except.bind, hg] at e1
      cases hI : Insert s k (H k.bytes) v ch d with
      | error f => rw [hI] at e1; cases e1
      | ok q =>
        rw [hI] at e1 heq
        simp only [pure, Except.pure] at e1
        injection e1 with e1
        injection e1 with e1 e3
        injection e3 with e3
        injection e3 with e4 e5
        have hset : s' = q.1 := by
          have := congrArg (fun c : Sharded => c.shards[shardIndex (H k.bytes)]?) e1
          simp only [setShard] at this
          rw [List.getElem?_set_self (by rw [g.len]; exact hj), List.getElem?_set_self (by rw [g.len]; exact hj)] at this
          injection this with this
          exact this.symm
        refine .ret hn e2 ?_ (t.noins _ (Nat.le_refl _)) g'
        rw [hstep q.1 (some q.2) heq, hset, e5]; rfl

/-- `malloc` returns null for the copy of the key. -/
theorem key_crash (g : GInv H cap c tr) (hH : ∀ k : Slice, k.WF → hf k = .ok (H k.bytes)) {k : Slice}
    {v : Nat} {ch : UInt64} {d : Nat} (hk : k.WF) {o : Oom} (hn : o.node = false) (hkey : o.key = true) (hne : k.bytes ≠ []) :
    cstepO hf c (.insert k v ch d) o = .error .nullDeref := by
  obtain ⟨s, A, hg, hs, -⟩ := getShard_ok g (shardIndex_lt (H k.bytes))
  have hc : copyKey k true = .error .nullDeref := by
    simp only [copyKey, toString_ok hk, bind, Except.bind]
    cases hb : k.bytes with
    | nil => exact absurd hb hne
    | cons _ _ => rfl
  simp only [cstepO, Sharded.InsertO, hH k hk, bind, Except.bind, hg, InsertO, hn, hkey, hc, Bool.false_eq_true, if_false]

theorem lookup_inserted (g : GInv H cap c tr) (hH : ∀ k : Slice, k.WF → hf k = .ok (H k.bytes)) {k : Slice} (ha : Allowed tr (.lookup k))
    {c' : Sharded} {h : Handle} (e : cstep hf c (.lookup k) = .ok (c', some h)) : inserted tr h ≠ none := by
  obtain ⟨s, A, s', A', x, hs, r, t, hx, e', -⟩ := step_lookup g hH ha
  rw [e] at e'
  injection e' with e'
  injection e' with e1 e2
  subst e2
  cases hfd : A.find s.heap.key k.bytes with
  | none => rw [hfd] at hx; cases hx
  | some a =>
    rw [hfd] at hx
    injection hx with hx
    subst hx
    rw [t.ins a (r.l.lt a (find_mem hfd).1)]
    exact fun h => nomatch h

theorem stepO_inv (i : OInv H cap c otr tr L) (hH : ∀ k : Slice, k.WF → hf k = .ok (H k.bytes)) {op : COp} {o : Oom} {c' : Sharded}
    {r : Option (Option Handle)} (ha : AllowedO otr op) (e : cstepO hf c op o = .ok (c', r)) :
    ∃ tr' L', OInv H cap c' (⟨op, r⟩ :: otr) tr' L' ∧ (∀ h ∈ L, h ∈ L') ∧ (∀ h, inserted tr h ≠ none → inserted tr' h = inserted tr h) := by
  have hA := i.m.allowed ha
  have hbal : ∀ h, released (completed (⟨op, r⟩ :: otr)) h ≤ obtained (completed (⟨op, r⟩ :: otr)) h := by
    intro h
    have h0 := i.bal h
    cases r with
    | none => exact h0
    | some r =>
      cases op <;> simp only [completed, released, obtained] <;> try omega
      rename_i h'
      have ha : released (completed otr) h' < obtained (completed otr) h' := ha
      split
      · rename_i e; subst e; omega
      · omega
  by_cases hop : ∃ k v ch d, op = .insert k v ch d
  · obtain ⟨k, v, ch, d, rfl⟩ := hop
    have hkf : o.key = true → o.node = false → k.bytes = [] := by
      intro h1 h2
      rcases Decidable.em (k.bytes = []) with hb | hb
      · exact hb
      · rw [key_crash i.g hH hA.1 h2 h1 hb] at e; cases e
    have hmono : ∀ (h h' : Handle), inserted tr h' = none → inserted tr h ≠ none →
        inserted (⟨.insert k v ch d, some h'⟩ :: tr) h = inserted tr h := by
      intro h h' hn hh
      have : ¬ h' = h := fun e => hh (by rw [← e]; exact hn)
      simp [inserted, this]
    rcases insertO_cases i.g hH hA hkf with ⟨-, e1⟩ | @⟨c1, h, -, -, e1, hins, g'⟩ | @⟨c1, h, -, -, e1, hins, g', -⟩ <;>
      (rw [e] at e1; injection e1 with e1; injection e1 with e2 e3; subst e2; subst e3)
    · exact ⟨tr, L, ⟨i.g, .gone i.m, hbal⟩, fun _ h => h, fun _ _ => rfl⟩
    · exact ⟨_, L, ⟨g', .ret i.m (fun _ _ _ _ _ => ⟨h, rfl, hins⟩) (fun _ _ e => nomatch e), hbal⟩, fun _ h => h, fun h' hh => hmono h' h hins hh⟩
    · exact ⟨_, h :: L, ⟨g', .lost i.m hins, hbal⟩, fun _ hh => List.mem_cons_of_mem _ hh, fun h' hh => hmono h' h hins hh⟩
  · obtain ⟨c1, x, e1, g1⟩ := step_ok i.g hH hA
    have e2 : cstepO hf c op o = .ok (c1, some x) := by
      cases op with
      | insert k v ch d => exact absurd ⟨k, v, ch, d, rfl⟩ hop
      | _ => simp only [cstepO, e1]; rfl
    rw [e] at e2
    injection e2 with e2
    injection e2 with e3 e4
    subst e3; subst e4
    refine ⟨_, L, ⟨g1, .ret i.m (fun k v ch d e => absurd ⟨k, v, ch, d, e⟩ hop) (fun k h eo ex => by
      subst eo; subst ex; exact lookup_inserted i.g hH hA e1), hbal⟩, fun _ h => h, ?_⟩
    intro h _
    cases op with
    | insert k v ch d => exact absurd ⟨k, v, ch, d, rfl⟩ hop
    | _ => rfl

theorem reachO_inv (hH : ∀ k : Slice, k.WF → hf k = .ok (H k.bytes)) (hr : ReachO hf cap c otr) :
    ∃ tr L, OInv H cap c otr tr L := by
  induction hr with
  | init h => exact ⟨[], [], GInv.init h, .nil, fun _ => Nat.le_refl _⟩
  | step _ ha he ih =>
    obtain ⟨tr, L, i⟩ := ih
    obtain ⟨tr', L', i', -⟩ := stepO_inv i hH ha he
    exact ⟨tr', L', i'⟩

theorem laterO_inv {c0 : Sharded} {otr0 : OTrace} {tr0 : CTrace} {L0 : List Handle}
    (hH : ∀ k : Slice, k.WF → hf k = .ok (H k.bytes)) (i : OInv H cap c0 otr0 tr0 L0) (hl : LaterO hf c0 otr0 c otr) :
    ∃ tr L, OInv H cap c otr tr L ∧ (∀ h ∈ L0, h ∈ L) ∧ (∀ h, inserted tr0 h ≠ none → inserted tr h = inserted tr0 h) := by
  induction hl with
  | here => exact ⟨tr0, L0, i, fun _ h => h, fun _ _ => rfl⟩
  | step _ ha he ih =>
    obtain ⟨tr, L, i, hL, hi⟩ := ih
    obtain ⟨tr', L', i', hL', hi'⟩ := stepO_inv i hH ha he
    refine ⟨tr', L', i', fun h hh => hL' h (hL h hh), fun h hh => ?_⟩
    rw [hi' h (by rw [hi h hh]; exact hh), hi h hh]

/-- A held handle. -/
theorem GInv.heldOk (g : GInv H cap c tr) {h : Handle} (ho : 0 < outstanding tr h) :
    ∃ info, inserted tr h = some info ∧ Sharded.Value c h = .ok info.value ∧ deletions c.shards h = [] := by
  have hj : h.shard < 16 := by
    rcases Nat.lt_or_ge h.shard 16 with h1 | h1
    · exact h1
    · have := (g.far h h1).1
      unfold outstanding at ho; omega
  obtain ⟨i, a⟩ := h
  obtain ⟨s, A, hg, hs, r, t⟩ := getShard_ok g hj
  rw [t.outstanding_eq] at ho
  have haf : a < s.heap.fresh := by
    rcases Nat.lt_or_ge a s.heap.fresh with h1 | h1
    · exact h1
    · have := r.l.heldlt a h1; omega
  refine ⟨_, t.ins a haf, ?_, ?_⟩
  · have hl := (r.l.live a).mpr ⟨haf, Or.inl ho⟩
    simp only [Sharded.Value, bind, Except.bind, hg]
    simp [derefNode, hl, pure, Except.pure]
  · rw [deletions_eq hs r, if_neg]
    intro hd
    have := ((r.l.dead a).mp hd).2.1
    omega

/-- The entry of a handle is passed to a deleter at most once. -/
theorem GInv.onceOk (g : GInv H cap c tr) (h : Handle) : (deletions c.shards h).length ≤ 1 := by
  obtain ⟨i, a⟩ := h
  rcases Nat.lt_or_ge i 16 with hj | hj
  · obtain ⟨s, A, hs, r, t⟩ := g.sh i hj
    rw [deletions_eq hs r]
    split <;> simp
  · have : deletions c.shards ⟨i, a⟩ = [] := by
      unfold deletions
      rw [List.getElem?_eq_none (by rw [g.len]; exact hj)]
    rw [this]; simp

theorem destroyShard_busy {s : Shard} {A : Abs} (r : Rel H s A) (hb : A.busy ≠ []) : destroyShard s = .error .assertFail := by
  have h1 := r.l.dl_use.next_head
  cases hA : A.busy with
  | nil => exact absurd hA hb
  | cons b B =>
    rw [hA] at h1
    unfold destroyShard
    rw [h1]
    rfl

/-- Destroying the shards: an assertion fails if a cached entry is in use. -/
theorem destroyShards_busy : ∀ (L : List Shard), (∀ (i : Nat) (s : Shard), L[i]? = some s → ∃ A, Rel H s A) →
    (∃ (i : Nat) (s : Shard) (A : Abs), L[i]? = some s ∧ Rel H s A ∧ A.busy ≠ []) → destroyShards L = .error .assertFail
  | [], _, ⟨i, s, A, hs, _⟩ => by simp at hs
  | s :: L, h, ⟨i, s1, A1, hs1, r1, hb1⟩ => by
    obtain ⟨A, r⟩ := h 0 s rfl
    by_cases hb : A.busy = []
    · obtain ⟨s', e, -⟩ := destroyShard_spec r hb
      cases i with
      | zero =>
        cases hs1
        simp only [destroyShards, bind, Except.bind, destroyShard_busy r1 hb1]
      | succ i =>
        have := destroyShards_busy L (fun i s hi => h (i + 1) s hi) ⟨i, s1, A1, hs1, r1, hb1⟩
        simp only [destroyShards, bind, Except.bind, e, this]
    · simp only [destroyShards, bind, Except.bind, destroyShard_busy r hb]

/-- What destroying the cache does about a handle with references. -/
theorem GInv.destroy_held (g : GInv H cap c tr) {h : Handle} (ho : 0 < outstanding tr h) :
    ((∃ k c', k.WF ∧ hf k = .ok (H k.bytes) ∧ Sharded.Lookup hf c k = .ok (c', some h)) → destroyShards c.shards = .error .assertFail) ∧
      ∀ L', destroyShards c.shards = .ok L' → deletions L' h = [] := by
  have hj : h.shard < 16 := by
    rcases Nat.lt_or_ge h.shard 16 with h1 | h1
    · exact h1
    · have := (g.far h h1).1
      unfold Spec.outstanding at ho; omega
  obtain ⟨i, a⟩ := h
  obtain ⟨s, A, hg, hs, r, t⟩ := getShard_ok g hj
  have hs : c.shards[i]? = some s := hs
  rw [t.outstanding_eq] at ho
  have hlt : ∀ (i : Nat) (s : Shard), c.shards[i]? = some s → i < 16 := by
    intro i s hs
    rcases Nat.lt_or_ge i 16 with h | h
    · exact h
    · rw [List.getElem?_eq_none (by rw [g.len]; exact h)] at hs; cases hs
  have hrel : ∀ (i : Nat) (s : Shard), c.shards[i]? = some s → ∃ A, Rel H s A := by
    intro i s hs
    obtain ⟨s2, A2, hs2, r2, -⟩ := g.sh i (hlt i s hs)
    rw [hs] at hs2; cases hs2
    exact ⟨A2, r2⟩
  constructor
  · rintro ⟨k, c', hk, hhk, hl⟩
    refine destroyShards_busy _ hrel ⟨i, s, A, hs, r, ?_⟩
    obtain ⟨s2, A2, hs2, r2, t2⟩ := g.sh _ (shardIndex_lt (H k.bytes))
    obtain ⟨s', e⟩ := Lookup_result r2 hk
    simp only [Sharded.Lookup, getShard, hhk, bind, Except.bind, hs2, e] at hl
    injection hl with hl
    injection hl with h1 h2
    cases hfd : A2.find s2.heap.key k.bytes with
    | none => rw [hfd] at h2; cases h2
    | some b =>
      rw [hfd] at h2
      injection h2 with h2
      injection h2 with h3 h4
      subst h4
      rw [h3, hs] at hs2
      cases hs2
      have h5 := (find_mem hfd).1
      have h6 := r2.l.inC b (r2.l.live_all h5)
      have h7 := r.l.inC b (r2.l.live_all h5)
      rw [h6] at h7
      have h8 : b ∈ A.all := by simpa [h5] using h7.symm
      rcases List.mem_append.mp h8 with h9 | h9
      · have := r.l.idle0 b h9; omega
      · intro e; rw [e] at h9; cases h9
  · intro L' hd
    have hb : ∀ (i : Nat) (s : Shard), c.shards[i]? = some s → ∃ A, Rel H s A ∧ A.busy = [] := by
      intro j sj hsj
      obtain ⟨Aj, rj⟩ := hrel j sj hsj
      refine ⟨Aj, rj, ?_⟩
      by_cases hb : Aj.busy = []
      · exact hb
      · rw [destroyShards_busy _ hrel ⟨j, sj, Aj, hsj, rj, hb⟩] at hd; cases hd
    obtain ⟨L1, e1, hlen, hL⟩ := destroyShards_spec (H := H) c.shards hb
    rw [hd] at e1
    injection e1 with e1
    subst e1
    have hbA : A.busy = [] := by
      by_cases hb : A.busy = []
      · exact hb
      · rw [destroyShards_busy _ hrel ⟨i, s, A, hs, r, hb⟩] at hd; cases hd
    obtain ⟨s', hs', hlog⟩ := hL i s A hs r hbA
    unfold deletions
    simp only [hs', hlog]
    rw [List.filter_eq_nil_iff]
    intro x hx
    obtain ⟨b, hb, rfl⟩ := List.mem_map.mp hx
    have : b ≠ a := by
      rintro rfl
      rcases List.mem_append.mp hb with h | h
      · have := ((r.l.dead b).mp h).2.1; omega
      · have := r.l.idle0 b h; omega
    simpa [deletion] using this

theorem OInv.outstanding (i : OInv H cap c otr tr L) (h : Handle) :
    outstanding tr h = outstanding (completed otr) h + if h ∈ L then 1 else 0 := by
  have h1 := i.m.released h
  have h2 := i.m.obtained h
  have h3 := i.bal h
  unfold Spec.outstanding
  omega

end Cache
end Lsmdb
