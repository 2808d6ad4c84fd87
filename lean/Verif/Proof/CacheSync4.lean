import Verif.Proof.CacheSync3
import Verif.Proof.CacheConc10

/-!
# A run in which two threads use an entry and the second of them deletes it
-/

namespace Lsmdb
namespace CacheConc
open Cache Spec Props

variable {hf : Slice → M UInt32} {capacity : UInt64}

/-- A run as a numbered execution. -/
theorem Run.exec {w : World} {H : Hist} (r : Run hf code capacity w H) :
    ∃ (N : Nat) (x : Exec hf capacity N), x.w N = w ∧ hist x.ev N = H := by
  have add : ∀ {w w' : World} {H : Hist} (e : Option Ev), Step hf code w e w' → (∀ t c, e = some (.call t c) → Permitted H c) →
      (∃ (N : Nat) (x : Exec hf capacity N), x.w N = w ∧ hist x.ev N = H) →
      ∃ (N : Nat) (x : Exec hf capacity N), x.w N = w' ∧ hist x.ev N = e.toList ++ H := by
    rintro w w' H e s p ⟨N, x, rfl, rfl⟩
    have hh : ∀ n, n ≤ N → hist (fun i => if i = N then e else x.ev i) n = hist x.ev n := by
      intro n
      induction n with
      | zero => intro _; rfl
      | succ n ih =>
        intro hn
        simp only [hist]
        rw [ih (by omega), if_neg (by omega)]
    refine ⟨N + 1, ⟨fun i => if i = N + 1 then w' else x.w i, fun i => if i = N then e else x.ev i, ?_, ?_, ?_⟩, ?_, ?_⟩
    · obtain ⟨c, h1, h2⟩ := x.start
      exact ⟨c, h1, by rw [if_neg (by omega)]; exact h2⟩
    · intro i hi
      rw [if_neg (by omega : i ≠ N + 1)]
      by_cases hiN : i = N
      · subst hiN
        rw [if_pos rfl, if_pos rfl]
        exact s
      · rw [if_neg hiN, if_neg (by omega)]
        exact x.step i (by omega)
    · intro i hi t c he
      rw [hh i (by omega)]
      by_cases hiN : i = N
      · subst hiN
        rw [if_pos rfl] at he
        exact p t c he
      · rw [if_neg hiN] at he
        exact x.rules i (by omega) t c he
    · simp
    · show (if N = N then e else x.ev N).toList ++ hist (fun i => if i = N then e else x.ev i) N = _
      rw [if_pos rfl, hh N (Nat.le_refl N)]
  induction r with
  | init h => exact ⟨0, ⟨fun _ => _, fun _ => none, ⟨_, h, rfl⟩, fun i hi => absurd hi (Nat.not_lt_zero i), fun i hi => absurd hi (Nat.not_lt_zero i)⟩, rfl, rfl⟩
  | internal r s ih => exact add none s (fun _ _ h => nomatch h) ih
  | call r s p ih => exact add _ s (fun _ _ h => by cases h; exact p) ih
  | ret r s ih => exact add _ s (fun _ _ h => nomatch h) ih

theorem mem_hist {ev : Nat → Option Ev} {e : Ev} : ∀ {n : Nat}, e ∈ hist ev n → ∃ i, i < n ∧ ev i = some e
  | 0, h => nomatch h
  | n + 1, h => by
    simp only [hist, List.mem_append, Option.mem_toList] at h
    rcases h with h | h
    · exact ⟨n, Nat.lt_succ_self n, h⟩
    · obtain ⟨i, h1, h2⟩ := mem_hist h
      exact ⟨i, by omega, h2⟩

/-- Some step runs the deleter. -/
theorem Exec.deletes {N : Nat} (x : Exec hf capacity N) {h : Handle} (hd : deletions (x.w N).cache.shards h ≠ []) :
    ∃ k, k < N ∧ x.Deletes k h := by
  have key : ∀ n, n ≤ N → deletions (x.w n).cache.shards h ≠ [] → ∃ k, k < n ∧ x.Deletes k h := by
    intro n
    induction n with
    | zero =>
      intro _ h0
      exfalso
      obtain ⟨c, h1, h2⟩ := x.start
      obtain ⟨s0, e3, e4⟩ : ∃ s0, newShard (perShard capacity) = .ok s0 ∧ c = ⟨List.replicate 16 s0, 0⟩ := by
        unfold newSharded at h1
        cases e : newShard (perShard capacity) with
        | error f => rw [e] at h1; cases h1
        | ok s => rw [e] at h1; cases h1; exact ⟨s, rfl, rfl⟩
      have hl : s0.log = [] := by
        unfold newShard at e3
        simp only [bind, Except.bind] at e3
        split at e3
        · cases e3
        · cases e3; rfl
      rw [h2, e4] at h0
      apply h0
      unfold Spec.deletions
      split
      · rename_i s hs
        rw [List.eq_of_mem_replicate (List.mem_of_getElem? hs), hl]
        rfl
      · rfl
    | succ n ih =>
      intro hn h1
      by_cases h0 : deletions (x.w n).cache.shards h = []
      · exact ⟨n, Nat.lt_succ_self n, h0, h1⟩
      · obtain ⟨k, h2, h3⟩ := ih (by omega) h0
        exact ⟨k, by omega, h3⟩
  exact key N (Nat.le_refl N) hd

theorem ok_bind {α β : Type} {y : M α} {f : α → M β} {b : β} (h : (y >>= f) = .ok b) : ∃ a, y = .ok a ∧ f a = .ok b := by
  cases y with
  | error e => cases h
  | ok a => exact ⟨a, rfl, h⟩

/-- What the calls do to the shard. -/
def sharedShards : M (List MRes × List Bool × List UInt32 × List Nat) := do
  let s0 ← newShard (perShard 1600)
  let r1 ← Method.run (.insert keyA hashA 7 10 9) s0
  let r2 ← Method.run (.lookup keyA hashA) r1.1
  let r3 ← Method.run (.erase keyA hashA) r2.1
  let r4 ← Method.run (.release 0) r3.1
  let r5 ← Method.run (.release 0) r4.1
  .ok ([r1.2, r2.2, r3.2, r4.2, r5.2], [r3.1.heap.live 0, r4.1.heap.live 0], [r3.1.heap.hash 0, r4.1.heap.hash 0], r5.1.log.map (·.addr))

theorem sharedShards_eq : sharedShards = .ok ([.handle (some 0), .handle (some 0), .unit, .unit, .unit], [true, true], [hashA, hashA], [0]) := by
  decide +kernel

theorem shared_shards : ∃ s0 s1 s2 s3 s4 s5, newShard (perShard 1600) = .ok s0 ∧
    Method.run (.insert keyA hashA 7 10 9) s0 = .ok (s1, .handle (some 0)) ∧
    Method.run (.lookup keyA hashA) s1 = .ok (s2, .handle (some 0)) ∧
    Method.run (.erase keyA hashA) s2 = .ok (s3, .unit) ∧ Method.run (.release 0) s3 = .ok (s4, .unit) ∧
    Method.run (.release 0) s4 = .ok (s5, .unit) ∧ s3.heap.live 0 = true ∧ s3.heap.hash 0 = hashA ∧ s4.heap.live 0 = true ∧
    s4.heap.hash 0 = hashA ∧ s5.log.map (·.addr) = [0] := by
  have h := sharedShards_eq
  unfold sharedShards at h
  obtain ⟨s0, e0, h⟩ := ok_bind h
  obtain ⟨⟨s1, r1⟩, e1, h⟩ := ok_bind h
  obtain ⟨⟨s2, r2⟩, e2, h⟩ := ok_bind h
  obtain ⟨⟨s3, r3⟩, e3, h⟩ := ok_bind h
  obtain ⟨⟨s4, r4⟩, e4, h⟩ := ok_bind h
  obtain ⟨⟨s5, r5⟩, e5, h⟩ := ok_bind h
  simp only [Except.ok.injEq, Prod.mk.injEq, List.cons.injEq, and_true] at h
  obtain ⟨⟨rfl, rfl, rfl, rfl, rfl⟩, ⟨g1, g3⟩, ⟨g2, g4⟩, g5⟩ := h
  exact ⟨s0, s1, s2, s3, s4, s5, e0, e1, e2, e3, e4, e5, g1, g2, g3, g4, g5⟩

variable {body : Method → Prog Shard MRes} {P : World → Prop} {w0 w : World} {H0 H : Hist}

theorem Path.found (hI : Implements body) {t : Tid} {k : Slice} {hash : UInt32} {s s' : Shard} {y : Nat}
    (hp : Path hf body P w0 H0 w H) (hpc : w.pc t = .idle) (hk : k.WF) (hh : hf k = .ok hash)
    (hown : w.owner (shardIndex hash) = none) (hs : w.cache.shards[shardIndex hash]? = some s)
    (e : Method.run (.lookup k hash) s = .ok (s', .handle (some y)))
    (hP : ∀ w', (∀ j, j ≠ shardIndex hash → w'.cache.shards[j]? = w.cache.shards[j]?) → P w') :
    Path hf body P w0 H0 (w.to (setShard w.cache (shardIndex hash) s') t .idle)
      (.ret t (.handle (some ⟨shardIndex hash, y⟩)) :: .call t (.lookup k) :: H) := by
  have h1 := Path.call (c := .lookup k) hp (.call _ hpc) hk (hP _ (fun _ _ => rfl))
  have h2 := Path.internal h1 (.hash (World.at_pc _ _ _) rfl hh) (hP _ (fun _ _ => rfl))
  have h3 := Path.section hI h2 (World.at_pc _ _ _) hown hs e hP
  have h4 := Path.ret h3 (.ret (r := .handle (some ⟨shardIndex hash, y⟩)) (World.at_pc _ _ _)) (hP _ (fun j hj => setShard_ne _ _ hj))
  refine h4.to ?_
  unfold World.to World.at
  simp only [World.mk.injEq, true_and]
  funext u
  by_cases eu : u = t <;> simp [eu]

theorem Path.release (hI : Implements body) {t : Tid} {h : Handle} {s s' : Shard}
    (hp : Path hf body P w0 H0 w H) (hpc : w.pc t = .idle) (hperm : Permitted H (.release h)) (hl : s.heap.live h.addr = true)
    (hsh : shardIndex (s.heap.hash h.addr) = h.shard)
    (hown : w.owner h.shard = none) (hs : w.cache.shards[h.shard]? = some s)
    (e : Method.run (.release h.addr) s = .ok (s', .unit))
    (hP : ∀ w', (∀ j, j ≠ h.shard → w'.cache.shards[j]? = w.cache.shards[j]?) → P w') :
    Path hf body P w0 H0 (w.to (setShard w.cache h.shard s') t .idle) (.ret t .unit :: .call t (.release h) :: H) := by
  have h1 := Path.call (c := .release h) hp (.call _ hpc) hperm (hP _ (fun _ _ => rfl))
  have h2 := Path.internal h1 (.readHash (World.at_pc _ _ _) hs (by simp [derefNode, hl]) hsh) (hP _ (fun _ _ => rfl))
  have h3 := Path.section hI h2 (World.at_pc _ _ _) hown hs e hP
  have h4 := Path.ret h3 (.ret (r := .unit) (World.at_pc _ _ _)) (hP _ (fun j hj => setShard_ne _ _ hj))
  refine h4.to ?_
  unfold World.to World.at
  simp only [World.mk.injEq, true_and]
  funext u
  by_cases eu : u = t <;> simp [eu]

theorem deletions_ne {L : List Shard} {s : Shard} (h : L[12]? = some s) (lg : s.log.map (·.addr) = [0]) : deletions L ⟨12, 0⟩ ≠ [] := by
  intro hz
  unfold Spec.deletions at hz
  simp only [h] at hz
  have : (0 : Nat) ∈ s.log.map (·.addr) := by rw [lg]; exact List.mem_singleton_self 0
  obtain ⟨d, h1, h2⟩ := List.mem_map.mp this
  have := List.filter_eq_nil_iff.mp hz d h1
  simp [h2] at this

/-- Thread 2 inserts, thread 1 looks up, thread 2 erases and releases, thread 1 releases. -/
def sharedHist : Hist := [.ret 1 .unit, .call 1 (.release ⟨12, 0⟩), .ret 2 .unit, .call 2 (.release ⟨12, 0⟩), .ret 2 .unit, .call 2 (.erase keyA),
  .ret 1 (.handle (some ⟨12, 0⟩)), .call 1 (.lookup keyA), .ret 2 (.handle (some ⟨12, 0⟩)), .call 2 (.insert keyA 7 10 9)]

theorem shared_run : ∃ w, Run HashSlice code 1600 w sharedHist ∧ deletions w.cache.shards ⟨12, 0⟩ ≠ [] := by
  obtain ⟨s0, s1, s2, s3, s4, s5, e0, e1, e2, e3, e4, e5, l3, h3, l4, h4, lg⟩ := shared_shards
  obtain ⟨hA, hB, iA, iB⟩ := hashes
  have hc : newSharded 1600 = .ok ⟨List.replicate 16 s0, 0⟩ := by
    unfold newSharded
    rw [e0]; rfl
  have rep : (List.replicate 16 s0)[12]? = some s0 := by
    rw [List.getElem?_replicate, if_pos (by decide)]
  have q0 := Path.start (hf := HashSlice) (body := code) (P := fun _ => True)
    (w0 := ⟨⟨List.replicate 16 s0, 0⟩, fun _ => none, none, fun _ => .idle⟩) (H0 := []) trivial
  have q1 := Path.insert (t := 2) code_implements q0 rfl (k := keyA) (by decide) hA rfl (by rw [iA]; exact rep) e1 (fun _ _ => trivial)
  rw [iA] at q1
  have g1 := setShard_eq ⟨List.replicate 16 s0, 0⟩ s1 rep
  have q2 := Path.found code_implements (t := 1) (k := keyA) q1 rfl (by decide) hA rfl (by rw [iA]; exact g1) e2 (fun _ _ => trivial)
  rw [iA] at q2
  have g2 := setShard_eq _ s2 g1
  have q3 := Path.erase code_implements (t := 2) (k := keyA) q2 rfl (by decide) hA rfl (by rw [iA]; exact g2) e3 (fun _ _ => trivial)
  rw [iA] at q3
  have g3 := setShard_eq _ s3 g2
  have pv : ∀ {H : Hist} {h : Handle}, begun H h < got H h → (∀ t, pending H t = some (.value h) → False) →
      Permitted H (.release h) := fun h1 h2 => ⟨h1, fun t ht => (h2 t ht).elim⟩
  have q4 := Path.release code_implements (t := 2) (h := ⟨12, 0⟩) q3 rfl
    (pv (by decide) (fun t ht => by simp only [pending] at ht; (repeat' split at ht) <;> cases ht)) l3 (by rw [h3]; exact iA) rfl g3 e4 (fun _ _ => trivial)
  have g4 := setShard_eq _ s4 g3
  have q5 := Path.release code_implements (t := 1) (h := ⟨12, 0⟩) q4 rfl
    (pv (by decide) (fun t ht => by simp only [pending] at ht; (repeat' split at ht) <;> cases ht)) l4 (by rw [h4]; exact iA) rfl g4 e5 (fun _ _ => trivial)
  have g5 := setShard_eq _ s5 g4
  exact ⟨_, q5.run (.init hc), deletions_ne g5 lg⟩

end CacheConc
end Lsmdb
