import Verif.Proof.CacheOom2
import Verif.Props.Cache

/-!
# C88: the cache when memory runs out
-/

namespace Lsmdb
namespace Props
open Spec Cache

variable {hf : Slice → M UInt32} {capacity : UInt64} {c : Sharded} {otr : OTrace}

/-- C88, violated: when there is no memory for the copy of the key, `Insert` writes to a null pointer. -/
theorem C88_key_crash (hH : HashFn hf) (hr : ReachO hf capacity c otr) {k : Slice} (hk : k.WF) (hne : k.bytes ≠ []) (v : Nat) (ch : UInt64)
    (d : Nat) {o : Oom} (hn : o.node = false) (hkey : o.key = true) :
    cstepO hf c (.insert k v ch d) o = .error .nullDeref := by
  obtain ⟨H, hH⟩ := hH
  obtain ⟨tr, L, i⟩ := reachO_inv hH hr
  exact key_crash i.g hH hk hn hkey hne

/-- C88, violated: an `Insert` that threw because the table could not grow has inserted the entry all the same: the key is found and
the charge counted.  Nobody has its handle: its deleter never runs, whatever is called later, not even when the cache is destroyed; and
destroying the cache fails an assertion as long as the entry is found. -/
theorem C88_failed_insert_stays (hH : HashFn hf) (hr : ReachO hf capacity c otr) {k : Slice} {v : Nat} {ch : UInt64} {d : Nat}
    (ha : AllowedO otr (.insert k v ch d)) {o : Oom} (hn : o.node = false) {c' : Sharded}
    (e : cstepO hf c (.insert k v ch d) o = .ok (c', none)) :
    ∃ h, obtained (completed otr) h = 0 ∧ Finds hf c' k (some h) ∧ Sharded.Value c' h = .ok v ∧
      Sharded.TotalCharge c' = Sharded.TotalCharge c + ch ∧
      ∀ c'' otr'', LaterO hf c' (⟨.insert k v ch d, none⟩ :: otr) c'' otr'' →
        deletions c''.shards h = [] ∧ (∀ L', destroyShards c''.shards = .ok L' → deletions L' h = []) ∧
        (Finds hf c'' k (some h) → destroyShards c''.shards = .error .assertFail) := by
  obtain ⟨H, hH⟩ := hH
  obtain ⟨tr, L, i⟩ := reachO_inv hH hr
  have hA := i.m.allowed ha
  have hkf : o.key = true → o.node = false → k.bytes = [] := by
    intro h1 h2
    rcases Decidable.em (k.bytes = []) with hb | hb
    · exact hb
    · rw [key_crash i.g hH hA.1 h2 h1 hb] at e; cases e
  rcases insertO_cases i.g hH hA hkf with ⟨h1, e1⟩ | @⟨c1, h, -, -, e1, hins, g'⟩ | @⟨c1, h, -, -, e1, hins, g', hfd, htc, -⟩
  · rw [hn] at h1; cases h1
  · rw [e] at e1; injection e1 with e1; injection e1 with e2 e3; cases e3
  · rw [e] at e1
    injection e1 with e1
    injection e1 with e2 e3
    subst e2
    have i' : OInv H capacity c' (⟨.insert k v ch d, none⟩ :: otr) (⟨.insert k v ch d, some h⟩ :: tr) (h :: L) :=
      ⟨g', .lost i.m hins, i.bal⟩
    have hobt : obtained (completed otr) h = 0 := by
      have h1 := i.m.obtained h
      have : h ∉ L := fun hh => i.m.lost_inserted hh hins
      have h2 := i.m.unobtained hins
      rw [if_neg this] at h1
      omega
    have hval : Sharded.Value c' h = .ok v := by
      obtain ⟨info, h1, h2, -⟩ := g'.heldOk (h := h) (by
        rw [i'.outstanding h]; simp)
      simp only [inserted, if_true] at h1
      cases h1
      exact h2
    refine ⟨h, hobt, hfd, hval, htc, ?_⟩
    intro c'' otr'' hl
    obtain ⟨tr'', L'', i'', hL, -⟩ := laterO_inv hH i' hl
    have ho : 0 < outstanding tr'' h := by
      rw [i''.outstanding h, if_pos (hL h (List.mem_cons_self ..))]; omega
    obtain ⟨info, -, -, hdel⟩ := i''.g.heldOk ho
    obtain ⟨h1, h2⟩ := i''.g.destroy_held (hf := hf) ho
    exact ⟨hdel, h2, fun ⟨c3, h3⟩ => h1 ⟨k, c3, hA.1, hH k hA.1, h3⟩⟩

/-- C88, the rest: a call with allowed arguments never faults, unless there is no memory for a key.  Only `Insert` throws; it has no
effect if the first allocation fails, and the key was not in the cache if a later one does; it is an ordinary `Insert` if it does not
throw. -/
theorem C88_no_fault_partial (hH : HashFn hf) (hr : ReachO hf capacity c otr) {op : COp} (ha : AllowedO otr op) (o : Oom)
    (hk : o.key = true → o.node = false → ∀ k v ch d, op = .insert k v ch d → k.bytes = []) :
    ∃ c' r, cstepO hf c op o = .ok (c', r) ∧
      (∀ x, r = some x → cstep hf c op = .ok (c', x)) ∧
      (r = none → ∃ k v ch d, op = .insert k v ch d ∧
        (o.node = true ∧ c' = c ∨ o.node = false ∧ o.table = true ∧ ¬ ∃ h, Finds hf c k (some h))) := by
  obtain ⟨H, hH⟩ := hH
  obtain ⟨tr, L, i⟩ := reachO_inv hH hr
  have hA := i.m.allowed ha
  by_cases hop : ∃ k v ch d, op = .insert k v ch d
  · obtain ⟨k, v, ch, d, rfl⟩ := hop
    rcases insertO_cases i.g hH hA (fun h1 h2 => hk h1 h2 k v ch d rfl) with
      ⟨h1, e1⟩ | @⟨c1, h, -, e0, e1, hins, g'⟩ | @⟨c1, h, h0, h1, e1, hins, g', -, -, hnf⟩
    · exact ⟨_, _, e1, (fun x h => nomatch h), fun _ => ⟨k, v, ch, d, rfl, Or.inl ⟨h1, rfl⟩⟩⟩
    · exact ⟨_, _, e1, (fun x h => by cases h; exact e0), (fun h => nomatch h)⟩
    · exact ⟨_, _, e1, (fun x h => nomatch h), fun _ => ⟨k, v, ch, d, rfl, Or.inr ⟨h0, h1, hnf⟩⟩⟩
  · obtain ⟨c1, x, e1, g1⟩ := step_ok i.g hH hA
    have e2 : cstepO hf c op o = .ok (c1, some x) := by
      cases op with
      | insert k v ch d => exact absurd ⟨k, v, ch, d, rfl⟩ hop
      | _ => simp only [cstepO, e1]; rfl
    exact ⟨_, _, e2, (fun y h => by cases h; exact e1), (fun h => nomatch h)⟩

/-- C88, the rest: a Lookup finds nothing or a value the key may have: that of the last `Insert` of this key that returned, or of one that
threw since; and exactly the handle of the last `Insert` if none has thrown since. -/
theorem C88_lookup_partial (hH : HashFn hf) (hr : ReachO hf capacity c otr) {k : Slice} (ha : AllowedO otr (.lookup k)) (o : Oom) :
    ∃ c' r, cstepO hf c (.lookup k) o = .ok (c', some r) ∧
      ∀ h, r = some h → (∃ v, Sharded.Value c' h = .ok v ∧ v ∈ mayHold otr k.bytes) ∧
        (Undisturbed otr k.bytes → current (completed otr) k.bytes = some h) := by
  obtain ⟨H, hH⟩ := hH
  obtain ⟨tr, L, i⟩ := reachO_inv hH hr
  have hA := i.m.allowed ha
  obtain ⟨s, A, s', A', x, hs, r, t, hx, e, r', hp, fr, t', g'⟩ := step_lookup i.g hH hA
  refine ⟨_, x, by simp only [cstepO, e]; rfl, ?_⟩
  intro h hh
  rw [hh] at hx
  cases hfd : A.find s.heap.key k.bytes with
  | none => rw [hfd] at hx; cases hx
  | some a =>
    rw [hfd] at hx
    injection hx with hx
    subst hx
    obtain ⟨h1, h2⟩ := find_mem hfd
    have hcur : current tr k.bytes = some ⟨shardIndex (H k.bytes), a⟩ := by have := t.cur a h1; rw [h2] at this; exact this
    obtain ⟨info, h3, -, h4⟩ := i.m.mayHold hcur
    refine ⟨⟨info.value, ?_, h4⟩, fun hu => by rw [← i.m.current hu]; exact hcur⟩
    have h5 := t.ins a (r.l.lt a h1)
    rw [h3] at h5
    injection h5 with h5
    have hlive := r'.l.live_all (hp.mem_iff.mpr h1)
    simp only [Sharded.Value, getShard, setShard, bind, Except.bind]
    rw [List.getElem?_set_self (by rw [i.g.len]; exact shardIndex_lt (H k.bytes))]
    simp [derefNode, hlive, pure, Except.pure, fr.value, h5]

/-- C88, the rest: whatever allocations failed and will fail, a held handle gives its value, always the same, and its entry has not been
passed to the deleter; no entry is passed to a deleter twice. -/
theorem C88_held_partial (hH : HashFn hf) (hr : ReachO hf capacity c otr) :
    (∀ h, (deletions c.shards h).length ≤ 1) ∧
    ∀ h, 0 < outstanding (completed otr) h → ∃ v, Sharded.Value c h = .ok v ∧ deletions c.shards h = [] ∧
      ∀ c' otr', LaterO hf c otr c' otr' → 0 < outstanding (completed otr') h → Sharded.Value c' h = .ok v ∧ deletions c'.shards h = [] := by
  obtain ⟨H, hH⟩ := hH
  obtain ⟨tr, L, i⟩ := reachO_inv hH hr
  refine ⟨i.g.onceOk, ?_⟩
  intro h ho
  obtain ⟨info, h1, h2, h3⟩ := i.g.heldOk (h := h) (by rw [i.outstanding h]; omega)
  refine ⟨info.value, h2, h3, ?_⟩
  intro c' otr' hl ho'
  obtain ⟨tr', L', i', -, hi⟩ := laterO_inv hH i hl
  obtain ⟨info', h1', h2', h3'⟩ := i'.g.heldOk (h := h) (by rw [i'.outstanding h]; omega)
  rw [hi h (by rw [h1]; exact fun h => nomatch h), h1] at h1'
  cases h1'
  exact ⟨h2', h3'⟩

/-! ## Concrete cases -/

/-- The conditions of `AllowedO` that do not hold by themselves in short histories. -/
def okOpO (tr : OTrace) : COp → Bool := okOp (completed tr)

/-- Run a list of calls if they are allowed (used in examples). -/
def crunO (hf : Slice → M UInt32) : Sharded → OTrace → List (COp × Oom) → M (Sharded × OTrace)
  | c, tr, [] => .ok (c, tr)
  | c, tr, (op, o) :: ops => do
    cassert (okOpO tr op)
    let (c, r) ← cstepO hf c op o
    crunO hf c (⟨op, r⟩ :: tr) ops

def insertKeysO : OTrace → List Bytes
  | [] => []
  | ⟨.insert k _ _ _, _⟩ :: tr => k.bytes :: insertKeysO tr
  | _ :: tr => insertKeysO tr

theorem insertKeysO_length : ∀ tr : OTrace, (insertKeysO tr).length ≤ tr.length
  | [] => Nat.le_refl _
  | ⟨op, r⟩ :: tr => by
    have := insertKeysO_length tr
    cases op <;> simp only [insertKeysO, List.length_cons] <;> omega

theorem mayHold_insertKeysO : ∀ (tr : OTrace) (kb : Bytes), mayHold tr kb ≠ [] → kb ∈ insertKeysO tr
  | [], kb, h => absurd rfl h
  | ⟨op, r⟩ :: tr, kb, h => by
    have ih := mayHold_insertKeysO tr kb
    cases op with
    | insert k v ch d =>
      simp only [insertKeysO, List.mem_cons]
      by_cases e : k.bytes = kb
      · exact Or.inl e.symm
      · refine Or.inr (ih ?_)
        cases r <;> simpa [mayHold, e] using h
    | erase k =>
      by_cases e : k.bytes = kb
      · simp [mayHold, e] at h
      · exact ih (by simpa [mayHold, e] using h)
    | lookup k => exact ih h
    | release h' => exact ih h
    | pruneShard i => exact ih h

theorem completed_length : ∀ tr : OTrace, (completed tr).length ≤ tr.length
  | [] => Nat.le_refl _
  | ⟨op, none⟩ :: tr => by have := completed_length tr; simp only [completed, List.length_cons]; omega
  | ⟨op, some r⟩ :: tr => by have := completed_length tr; simp only [completed, List.length_cons]; omega

theorem crunO_reach : ∀ (ops : List (COp × Oom)) {c c' : Sharded} {tr tr' : OTrace},
    tr.length + ops.length < 2 ^ 31 → ReachO hf capacity c tr → crunO hf c tr ops = .ok (c', tr') → ReachO hf capacity c' tr'
  | [], c, c', tr, tr', _, hr, e => by
    injection e with e
    injection e with e1 e2
    subst e1; subst e2; exact hr
  | (op, o) :: ops, c, c', tr, tr', hlen, hr, e => by
    simp only [List.length_cons] at hlen
    rw [crunO] at e
    cases ho : okOpO tr op with
    | false => rw [ho] at e; cases e
    | true =>
      rw [ho] at e
      simp only [cassert, if_true, bind, Except.bind] at e
      cases h1 : cstepO hf c op o with
      | error f => rw [h1] at e; cases e
      | ok p =>
        rw [h1] at e
        refine crunO_reach ops (by simp only [List.length_cons]; omega) (ReachO.step hr ?_ h1) e
        unfold okOpO at ho
        cases op with
        | insert k v ch d =>
          refine ⟨by simpa [okOp] using ho, fun ks hnd hks => ?_⟩
          have h1 := nodup_length_le ks (insertKeysO tr) hnd (fun k hk => mayHold_insertKeysO tr k (hks k hk))
          have h2 := insertKeysO_length tr
          omega
        | lookup k =>
          refine ⟨by simpa [okOp] using ho, fun h => ?_⟩
          have := obtained_le (completed tr) h
          have := completed_length tr
          unfold outstanding; omega
        | release h => simpa [okOp, AllowedO] using ho
        | erase k => simpa [okOp, AllowedO] using ho
        | pruneShard i => simpa [okOp, AllowedO] using ho

/-- Everything works. -/
def fine : Oom := ⟨false, false, false⟩
/-- The table cannot grow. -/
def noTable : Oom := ⟨false, false, true⟩

/-- Four keys in one shard (all hashes are 0), the first released; then a fifth one, whose `Insert` throws. -/
def oomCalls : List (COp × Oom) :=
  [(.insert keyA 1 10 0, fine), (.insert keyB 2 10 0, noTable), (.insert keyC 3 10 0, ⟨true, false, false⟩), (.insert keyC 3 10 0, fine),
   (.insert (Slice.ofBytes [100]) 4 10 0, fine), (.release ⟨0, 0⟩, fine), (.insert (Slice.ofBytes [101]) 5 10 0, noTable)]

/-- The history `oomCalls` is possible, and its last call threw with the entry in the cache: so the hypotheses of
`C88_failed_insert_stays` are met. -/
example : ∃ c tr, ReachO (fun _ => .ok 0) 1600 c tr ∧
    tr.map (fun e => e.outcome) = [none, some none, some (some ⟨0, 3⟩), some (some ⟨0, 2⟩), none, some (some ⟨0, 1⟩), some (some ⟨0, 0⟩)] ∧
    Sharded.TotalCharge c = 50 ∧ (Sharded.Lookup (fun _ => .ok 0) c (Slice.ofBytes [101])).toOption.map (·.2) = some (some ⟨0, 4⟩) := by
  obtain ⟨c0, e0⟩ := init_ok 1600
  have hrun : ((newSharded 1600).bind fun c => crunO (fun _ => .ok 0) c [] oomCalls).toOption.map (fun q =>
      (q.2.map (fun e => e.outcome), Sharded.TotalCharge q.1,
        (Sharded.Lookup (fun _ => .ok 0) q.1 (Slice.ofBytes [101])).toOption.map (·.2))) =
      some ([none, some none, some (some ⟨0, 3⟩), some (some ⟨0, 2⟩), none, some (some ⟨0, 1⟩), some (some ⟨0, 0⟩)], 50,
        some (some ⟨0, 4⟩)) := by decide +kernel
  rw [e0] at hrun
  change (crunO (fun _ => .ok 0) c0 [] oomCalls).toOption.map _ = _ at hrun
  cases hc : crunO (fun _ => .ok 0) c0 [] oomCalls with
  | error f => rw [hc] at hrun; cases hrun
  | ok q =>
    rw [hc] at hrun
    obtain ⟨c, tr⟩ := q
    simp only [Except.toOption, Option.map_some, Option.some.injEq, Prod.mk.injEq] at hrun
    exact ⟨c, tr, crunO_reach oomCalls (by decide) (.init e0) hc, hrun.1, hrun.2.1, hrun.2.2⟩

end Props
end Lsmdb
