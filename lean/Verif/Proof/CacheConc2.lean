import Verif.Proof.CacheConc1

/-!
# The shared cache simulates the atomic cache
-/

namespace Lsmdb
namespace CacheConc
open Cache Spec

variable {hf : Slice → M UInt32} {capacity : UInt64} {a : Atom} {H : Hist} {body : Method → Prog Shard MRes}

/-- `p0`, started in `s0`, has come to `p` in `s1`. -/
inductive Comes (p0 : Prog Shard MRes) (s0 : Shard) : Prog Shard MRes → Shard → Prop
  | refl : Comes p0 s0 p0 s0
  | step {β : Type} {f : Shard → M (Shard × β)} {next : β → Prog Shard MRes} {s s' : Shard} {b : β}
      (h : Comes p0 s0 (.step f next) s) (e : f s = .ok (s', b)) : Comes p0 s0 (next b) s'

theorem Comes.run {p0 p : Prog Shard MRes} {s0 s1 : Shard} (h : Comes p0 s0 p s1) : p.run s1 = p0.run s0 := by
  induction h with
  | refl => rfl
  | step h e ih =>
    rw [← ih, Prog.run, e]
    rfl

theorem Comes.mid {p0 p : Prog Shard MRes} {s0 s1 : Shard} (h : Comes p0 s0 p s1) :
    ∀ {s2}, Mid p s1 s2 → Mid p0 s0 s2 := by
  induction h with
  | refl => exact fun h => h
  | step h e ih => exact fun m => ih (.step e m)

/-- A call that has had the effects `es` is about to run method `m` of shard `i`. -/
inductive Ready (hf : Slice → M UInt32) : Nat → Method → After → Call → List Effect → Prop
  | insert {k : Slice} {v : Nat} {ch : UInt64} {d : Nat} {hash : UInt32} (e : hf k = .ok hash) :
      Ready hf (shardIndex hash) (.insert k hash v ch d) (.handle (shardIndex hash)) (.insert k v ch d) []
  | lookup {k : Slice} {hash : UInt32} (e : hf k = .ok hash) :
      Ready hf (shardIndex hash) (.lookup k hash) (.handle (shardIndex hash)) (.lookup k) []
  | erase {k : Slice} {hash : UInt32} (e : hf k = .ok hash) :
      Ready hf (shardIndex hash) (.erase k hash) .unit (.erase k) []
  | release (h : Handle) : Ready hf h.shard (.release h.addr) .unit (.release h) []
  | prune {i : Nat} (hi : i < 16) :
      Ready hf i .prune (.prune i) .prune ((List.range i).map fun j => .op ⟨.pruneShard j, none⟩)
  | charge {i : Nat} (hi : i < 16) (n : Nat → UInt64) :
      Ready hf i .totalCharge (.charge i (((List.range i).map n).foldl (· + ·) 0)) .totalCharge
        ((List.range i).map fun j => .charge j (n j))

/-- Where a thread is after a method of a shard. -/
def Then (hf : Slice → M UInt32) (c : Call) (es : List Effect) : Pc → Prop
  | .enter i m k => Ready hf i m k c es
  | .leave r => Complete c es r
  | _ => False

/-- What a handle with a reference points to. -/
theorem live_of_outstanding {H : Bytes → UInt32} {c : Sharded} {tr : CTrace} (g : GInv H capacity c tr) {h : Handle}
    (ho : 0 < outstanding tr h) : ∃ s, c.shards[h.shard]? = some s ∧ s.heap.live h.addr = true ∧ h.addr < s.heap.fresh ∧
      shardIndex (s.heap.hash h.addr) = h.shard := by
  have hj : h.shard < 16 := by
    rcases Nat.lt_or_ge h.shard 16 with h1 | h1
    · exact h1
    · have := (g.far h h1).1
      unfold outstanding at ho; omega
  obtain ⟨i, x⟩ := h
  obtain ⟨s, A, hs, r, t⟩ := g.sh i hj
  rw [t.outstanding_eq] at ho
  have haf : x < s.heap.fresh := by
    rcases Nat.lt_or_ge x s.heap.fresh with h1 | h1
    · exact h1
    · have := r.l.heldlt x h1; omega
  refine ⟨s, hs, (r.l.live x).mpr ⟨haf, Or.inl ho⟩, haf, ?_⟩
  show shardIndex (s.heap.hash x) = i
  rw [r.hash x haf]
  exact t.shard x haf

theorem set_self {α : Type} {L : List α} {i : Nat} {x : α} (h : L[i]? = some x) : L.set i x = L := by
  apply List.ext_getElem?
  intro j
  rw [List.getElem?_set]
  split
  · rename_i e
    subst e
    rw [h]
    have := (List.getElem?_eq_some_iff.mp h).1
    simp [this]
  · rfl

theorem foldl_snoc (n : Nat → UInt64) (i : Nat) :
    ((List.range (i + 1)).map n).foldl (· + ·) 0 = ((List.range i).map n).foldl (· + ·) 0 + n i := by
  rw [List.range_succ, List.map_append, List.foldl_append]
  rfl

theorem step_no_fault (hH : HashFn hf) {c : Sharded} {tr : CTrace} (hr : Reach hf capacity c tr) {op : COp} (ha : Allowed tr op) :
    ∃ c' x, cstep hf c op = .ok (c', x) := by
  obtain ⟨H, hH⟩ := hH
  obtain ⟨c', x, e, -⟩ := step_ok (reach_inv hH hr) hH ha
  exact ⟨c', x, e⟩

/-- The method of the shard succeeds, and it is the next effect of the call. -/
theorem Inv.section (hH : HashFn hf) (i : Inv hf capacity a H) (hlen : H.length < 2 ^ 31) {t : Tid} {j : Nat} {m : Method}
    {k : After} {c : Call} {es : List Effect} (h : a.now t = some (c, es)) (rd : Ready hf j m k c es) {s0 : Shard}
    (hs : a.cache.shards[j]? = some s0) :
    ∃ s2 r e a', m.run s0 = .ok (s2, r) ∧ Next c es e ∧ Occurs hf a e a' ∧ a'.cache = setShard a.cache j s2 ∧
      a'.lastId = a.lastId ∧ Then hf c (es ++ [e]) (proceed k r) ∧ (a'.tr = a.tr ∨ ∃ ev, e = .op ev ∧ a'.tr = ev :: a.tr) := by
  have nofault := fun o ha => (step_no_fault hH i.reach (op := o) ha)
  cases rd with
  | @insert key v ch d hash e0 =>
    have nx : ∀ y, Next (.insert key v ch d) [] (.op ⟨.insert key v ch d, some y⟩) := fun y => ⟨[], _, y, rfl, rfl⟩
    obtain ⟨c', x, ec⟩ := nofault _ (i.allowed hlen h (nx ⟨0, 0⟩))
    have ec0 := ec
    simp only [cstep, Sharded.Insert, getShard, e0, hs, bind, Except.bind] at ec
    cases er : Cache.Insert s0 key hash v ch d with
    | error f => rw [er] at ec; cases ec
    | ok p =>
      obtain ⟨s2, b⟩ := p
      rw [er] at ec
      cases ec
      refine ⟨s2, .handle (some b), _, _, ?_, nx _, .op (i.allowed hlen h (nx ⟨0, 0⟩)) ec0, rfl, rfl, ⟨_, rfl, rfl⟩, Or.inr ⟨_, rfl, rfl⟩⟩
      simp only [Method.run, er, bind, Except.bind, pure, Except.pure]
  | @lookup key hash e0 =>
    have nx : ∀ x, Next (.lookup key) [] (.op ⟨.lookup key, x⟩) := fun x => ⟨[], _, x, rfl, rfl⟩
    obtain ⟨c', x, ec⟩ := nofault _ (i.allowed hlen h (nx none))
    have ec0 := ec
    simp only [cstep, Sharded.Lookup, getShard, e0, hs, bind, Except.bind] at ec
    cases er : Cache.Lookup s0 key hash with
    | error f => rw [er] at ec; cases ec
    | ok p =>
      obtain ⟨s2, b⟩ := p
      rw [er] at ec
      cases ec
      refine ⟨s2, .handle b, _, _, ?_, nx _, .op (i.allowed hlen h (nx none)) ec0, rfl, rfl, ⟨_, rfl, rfl⟩, Or.inr ⟨_, rfl, rfl⟩⟩
      simp only [Method.run, er, bind, Except.bind, pure, Except.pure]
  | @erase key hash e0 =>
    have nx : Next (.erase key) [] (.op ⟨.erase key, none⟩) := ⟨[], _, rfl, rfl⟩
    obtain ⟨c', x, ec⟩ := nofault _ (i.allowed hlen h nx)
    have ec0 := ec
    simp only [cstep, Sharded.Erase, getShard, e0, hs, bind, Except.bind] at ec
    cases er : Cache.Erase s0 key hash with
    | error f => rw [er] at ec; cases ec
    | ok s2 =>
      rw [er] at ec
      cases ec
      refine ⟨s2, .unit, _, _, ?_, nx, .op (i.allowed hlen h nx) ec0, rfl, rfl, ⟨rfl, rfl⟩, Or.inr ⟨_, rfl, rfl⟩⟩
      simp only [Method.run, er, bind, Except.bind, pure, Except.pure]
  | release y =>
    have nx : Next (.release y) [] (.op ⟨.release y, none⟩) := ⟨[], _, rfl, rfl⟩
    obtain ⟨c', x, ec⟩ := nofault _ (i.allowed hlen h nx)
    have ec0 := ec
    obtain ⟨Hh, hH⟩ := hH
    obtain ⟨s, hs', hl, hf', hi⟩ := live_of_outstanding (reach_inv hH i.reach) (i.has (Or.inr h) (es := []))
    rw [hs] at hs'
    cases hs'
    simp only [cstep, Sharded.Release, getShard, hs, bind, Except.bind, derefNode, hl, if_true, hi, ne_eq, not_true_eq_false,
      if_false] at ec
    cases er : Cache.Release s0 y.addr with
    | error f => rw [er] at ec; cases ec
    | ok s2 =>
      rw [er] at ec
      cases ec
      refine ⟨s2, .unit, _, _, ?_, nx, .op (i.allowed hlen h nx) ec0, rfl, rfl, ⟨rfl, rfl⟩, Or.inr ⟨_, rfl, rfl⟩⟩
      simp only [Method.run, er, bind, Except.bind, pure, Except.pure]
  | prune hi =>
    have hr : ∀ n, n < 16 → List.range 16 = List.range n ++ n :: (List.range (15 - n)).map (fun x => x + (n + 1)) := by decide
    have nx : Next .prune ((List.range j).map fun j => .op ⟨.pruneShard j, none⟩) (.op ⟨.pruneShard j, none⟩) := by
      refine ⟨((List.range (15 - j)).map (fun x => x + (j + 1))).map (fun i => Effect.op ⟨.pruneShard i, none⟩), .unit, ?_, rfl⟩
      rw [hr j hi, List.map_append, List.map_cons]
    obtain ⟨c', x, ec⟩ := nofault _ (i.allowed hlen h nx)
    have ec0 := ec
    simp only [cstep, Sharded.PruneShard, getShard, hs, bind, Except.bind] at ec
    cases er : Cache.Prune s0 with
    | error f => rw [er] at ec; cases ec
    | ok s2 =>
      rw [er] at ec
      cases ec
      refine ⟨s2, .unit, _, _, ?_, nx, .op (i.allowed hlen h nx) ec0, rfl, rfl, ?_, Or.inr ⟨_, rfl, rfl⟩⟩
      · simp only [Method.run, er, bind, Except.bind, pure, Except.pure]
      · have e1 : ((List.range j).map fun j => Effect.op ⟨.pruneShard j, none⟩) ++ [.op ⟨.pruneShard j, none⟩] =
            (List.range (j + 1)).map fun j => Effect.op ⟨.pruneShard j, none⟩ := by
          rw [List.range_succ, List.map_append]; rfl
        rw [e1, proceed]
        split
        · rename_i h1
          exact Ready.prune h1
        · rename_i h1
          have : j + 1 = 16 := by have : ¬ j + 1 < 16 := h1; omega
          rw [this]
          exact ⟨rfl, rfl⟩
  | charge hi n =>
    have nx : Next .totalCharge ((List.range j).map fun j => .charge j (n j)) (.charge j (TotalCharge s0)) := by
      let n' : Nat → UInt64 := fun x => if x = j then TotalCharge s0 else n x
      have hr : ∀ n, n < 16 → List.range 16 = List.range n ++ n :: (List.range (15 - n)).map (fun x => x + (n + 1)) := by decide
      refine ⟨((List.range (15 - j)).map (fun x => x + (j + 1))).map (fun i => Effect.charge i (n' i)), _, n', ?_, rfl⟩
      rw [hr j hi, List.map_append, List.map_cons]
      have e1 : ((List.range j).map fun i => Effect.charge i (n' i)) = (List.range j).map fun i => Effect.charge i (n i) := by
        refine List.map_congr_left (fun x hx => ?_)
        have : x ≠ j := by rw [List.mem_range] at hx; omega
        simp [n', this]
      rw [e1]
      have e2 : n' j = TotalCharge s0 := by simp [n']
      rw [e2]
    refine ⟨s0, .charge (TotalCharge s0), _, a, rfl, nx, .charge hs, ?_, rfl, ?_, Or.inl rfl⟩
    · unfold setShard
      rw [set_self hs]
    · let n' : Nat → UInt64 := fun x => if x = j then TotalCharge s0 else n x
      have e1 : ((List.range j).map fun i => Effect.charge i (n' i)) = (List.range j).map fun i => Effect.charge i (n i) := by
        refine List.map_congr_left (fun x hx => ?_)
        have : x ≠ j := by rw [List.mem_range] at hx; omega
        simp [n', this]
      have e3 : (List.range j).map n' = (List.range j).map n := by
        refine List.map_congr_left (fun x hx => ?_)
        have : x ≠ j := by rw [List.mem_range] at hx; omega
        simp [n', this]
      have e2 : n' j = TotalCharge s0 := by simp [n']
      have e4 : ((List.range j).map fun i => Effect.charge i (n i)) ++ [.charge j (TotalCharge s0)] =
          (List.range (j + 1)).map fun i => Effect.charge i (n' i) := by
        rw [List.range_succ, List.map_append, e1, List.map_singleton, e2]
      have e5 : ((List.range j).map n).foldl (· + ·) 0 + TotalCharge s0 = ((List.range (j + 1)).map n').foldl (· + ·) 0 := by
        rw [foldl_snoc, e3, e2]
      rw [e4, proceed, e5]
      split
      · rename_i h1
        exact Ready.charge h1 n'
      · rename_i h1
        have : j + 1 = 16 := by have : ¬ j + 1 < 16 := h1; omega
        rw [this]
        exact ⟨n', rfl, rfl⟩

end CacheConc
end Lsmdb
