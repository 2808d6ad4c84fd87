import Verif.Proof.CacheConc9

/-!
# A run in which TotalCharge returns a total that the cache never had
-/

namespace Lsmdb
namespace CacheConc
open Cache Spec Props

variable {hf : Slice → M UInt32} {body : Method → Prog Shard MRes} {P : World → Prop} {w0 w : World} {H0 H : Hist}

theorem Path.run {capacity : UInt64} (p : Path hf body P w0 H0 w H) (r : Run hf body capacity w0 H0) : Run hf body capacity w H := by
  induction p with
  | start h => exact r
  | internal _ s _ ih => exact .internal ih s
  | call _ s p _ ih => exact .call ih s p
  | ret _ s _ ih => exact .ret ih s

theorem Path.to (p : Path hf body P w0 H0 w H) {w' : World} (e : w = w') : Path hf body P w0 H0 w' H := e ▸ p

theorem World.at_at (w : World) (t : Tid) (p q : Pc) : (w.at t p).at t q = w.at t q := by
  unfold World.at
  simp only [World.mk.injEq, true_and]
  funext u
  split <;> rfl

theorem World.at_pc (w : World) (t : Tid) (p : Pc) : (w.at t p).pc t = p := by simp [World.at]

theorem World.at_ne (w : World) {t u : Tid} (h : u ≠ t) (p : Pc) : (w.at t p).pc u = w.pc u := by simp [World.at, h]

/-- The same world with another cache and another position of `t`. -/
def World.to (w : World) (c : Sharded) (t : Tid) (p : Pc) : World := { w with cache := c }.at t p

theorem Path.steps {t : Tid} {i : Nat} {m : Method} {k : After} {w1 : World}
    (hP : ∀ w', (∀ j, j ≠ i → w'.cache.shards[j]? = w1.cache.shards[j]?) → P w') :
    ∀ (p : Prog Shard MRes) {s s' : Shard} {x : MRes} {w : World}, w.cache.shards[i]? = some s → p.run s = .ok (s', x) →
      w.pc t = .inside i m p k → (∀ j, j ≠ i → w.cache.shards[j]? = w1.cache.shards[j]?) → Path hf body P w0 H0 w H →
      Path hf body P w0 H0 ((w.to (setShard w.cache i s') t (.inside i m (.done x) k))) H := by
  intro p
  induction p with
  | done r =>
    intro s s' x w hs e hpc hsame hp
    cases e
    refine hp.to ?_
    unfold World.to World.at setShard
    rw [set_self hs]
    cases w
    simp only [World.mk.injEq, true_and]
    funext u
    split
    · rename_i e; subst e; exact hpc
    · rfl
  | @step β f next ih =>
    intro s s' x w hs e hpc hsame hp
    simp only [Prog.run, bind, Except.bind] at e
    cases e1 : f s with
    | error y => rw [e1] at e; cases e
    | ok y =>
      obtain ⟨s1, b⟩ := y
      rw [e1] at e
      have hs1 : (setShard w.cache i s1).shards[i]? = some s1 := setShard_eq _ _ hs
      have hsame1 : ∀ j, j ≠ i → (setShard w.cache i s1).shards[j]? = w1.cache.shards[j]? := fun j hj =>
        (setShard_ne _ _ hj).trans (hsame j hj)
      have := ih b (w := w.to (setShard w.cache i s1) t (.inside i m (next b) k)) hs1 e (World.at_pc _ _ _) hsame1
        (.internal hp (.body hpc hs e1) (hP _ hsame1))
      refine this.to ?_
      unfold World.to
      rw [show ∀ (w : World) (c c' : Sharded) (p q : Pc), World.at { World.at { w with cache := c } t p with cache := c' } t q =
        World.at { w with cache := c' } t q from fun w c c' p q => World.at_at { w with cache := c' } t p q]
      congr 2
      simp only [World.at, setShard, List.set_set]

/-- A whole critical section. -/
theorem Path.section (hI : Implements body) {t : Tid} {i : Nat} {m : Method} {k : After} {s s' : Shard} {x : MRes}
    (hp : Path hf body P w0 H0 w H) (hpc : w.pc t = .enter i m k) (hown : w.owner i = none) (hs : w.cache.shards[i]? = some s)
    (e : m.run s = .ok (s', x)) (hP : ∀ w', (∀ j, j ≠ i → w'.cache.shards[j]? = w.cache.shards[j]?) → P w') :
    Path hf body P w0 H0 (w.to (setShard w.cache i s') t (proceed k x)) H := by
  have h1 : Path hf body P w0 H0 ((w.own i (some t)).at t (.inside i m (body m) k)) H :=
    .internal hp (.lock hpc (List.getElem?_eq_some_iff.mp hs).1 hown) (hP _ (fun _ _ => rfl))
  have h2 := Path.steps (m := m) (k := k) (t := t) hP (body m) (w := (w.own i (some t)).at t (.inside i m (body m) k)) hs
    ((hI m s).trans e) (World.at_pc _ _ _) (fun _ _ => rfl) h1
  have h3 := Path.internal h2 (.unlock (World.at_pc _ _ _)) (hP _ (fun j hj => setShard_ne _ _ hj))
  refine h3.to ?_
  unfold World.to World.own World.at
  simp only [World.mk.injEq, true_and]
  refine ⟨?_, ?_⟩
  · funext j
    by_cases ej : j = i
    · subst ej; simp [hown]
    · simp [ej]
  · funext u
    by_cases eu : u = t <;> simp [eu]

theorem World.to_self (w : World) {t : Tid} {p : Pc} : w.to w.cache t p = w.at t p := rfl

/-- Reading shards that are empty. -/
theorem Path.reads (hI : Implements body) {t : Tid} (tot : UInt64) : ∀ (n i : Nat) {w : World}, i + n < 16 →
    Path hf body P w0 H0 w H → w.pc t = .enter i .totalCharge (.charge i tot) → (∀ j, w.owner j = none) →
    (∀ j, i ≤ j → j < i + n → ∃ s, w.cache.shards[j]? = some s ∧ s.usage = 0) →
    (∀ j, i ≤ j → j < i + n → ∀ w' : World, (∀ l, l ≠ j → w'.cache.shards[l]? = w.cache.shards[l]?) → P w') →
    Path hf body P w0 H0 (w.at t (.enter (i + n) .totalCharge (.charge (i + n) tot))) H := by
  intro n
  induction n with
  | zero =>
    intro i w hi hp hpc _ _ _
    refine hp.to ?_
    unfold World.at
    cases w
    simp only [World.mk.injEq, true_and]
    funext u
    split
    · rename_i e; subst e; exact hpc
    · rfl
  | succ n ih =>
    intro i w hi hp hpc hown hz hP
    obtain ⟨s, hs, hu⟩ := hz i (Nat.le_refl _) (by omega)
    have h1 := Path.section hI (s' := s) (x := .charge s.usage) hp hpc (hown i) hs rfl (hP i (Nat.le_refl _) (by omega))
    rw [show setShard w.cache i s = w.cache from by unfold setShard; rw [set_self hs]] at h1
    rw [World.to_self] at h1
    have hpr : proceed (.charge i tot) (.charge s.usage) = .enter (i + 1) .totalCharge (.charge (i + 1) tot) := by
      have hlt : i + 1 < kNumShards := by show i + 1 < 16; omega
      simp only [proceed, if_pos hlt, hu, UInt64.add_zero]
    rw [hpr] at h1
    have h2 := ih (i + 1) (w := w.at t (.enter (i + 1) .totalCharge (.charge (i + 1) tot))) (by omega) h1 (World.at_pc _ _ _)
      hown (fun j h3 h4 => hz j (by omega) (by omega)) (fun j h3 h4 => hP j (by omega) (by omega))
    rw [World.at_at] at h2
    have e : i + 1 + n = i + (n + 1) := by omega
    rw [e] at h2
    exact h2

/-- A complete Insert by thread 2, or as far as its return. -/
theorem Path.insert (hI : Implements body) {t : Tid} {k : Slice} {v : Nat} {ch : UInt64} {d : Nat} {hash : UInt32} {s s' : Shard}
    {y : Nat} (hp : Path hf body P w0 H0 w H) (hpc : w.pc t = .idle) (hk : k.WF) (hh : hf k = .ok hash)
    (hown : w.owner (shardIndex hash) = none) (hs : w.cache.shards[shardIndex hash]? = some s)
    (e : Method.run (.insert k hash v ch d) s = .ok (s', .handle (some y)))
    (hP : ∀ w', (∀ j, j ≠ shardIndex hash → w'.cache.shards[j]? = w.cache.shards[j]?) → P w') :
    Path hf body P w0 H0 (w.to (setShard w.cache (shardIndex hash) s') t .idle)
      (.ret t (.handle (some ⟨shardIndex hash, y⟩)) :: .call t (.insert k v ch d) :: H) := by
  have h1 := Path.call (c := .insert k v ch d) hp (.call _ hpc) hk (hP _ (fun _ _ => rfl))
  have h2 := Path.internal h1 (.hash (World.at_pc _ _ _) rfl hh) (hP _ (fun _ _ => rfl))
  have h3 := Path.section hI h2 (World.at_pc _ _ _) hown hs e hP
  have h4 := Path.ret h3 (.ret (r := .handle (some ⟨shardIndex hash, y⟩)) (World.at_pc _ _ _)) (hP _ (fun j hj => setShard_ne _ _ hj))
  refine h4.to ?_
  unfold World.to World.at
  simp only [World.mk.injEq, true_and]
  funext u
  by_cases eu : u = t <;> simp [eu]

theorem Path.erase (hI : Implements body) {t : Tid} {k : Slice} {hash : UInt32} {s s' : Shard}
    (hp : Path hf body P w0 H0 w H) (hpc : w.pc t = .idle) (hk : k.WF) (hh : hf k = .ok hash)
    (hown : w.owner (shardIndex hash) = none) (hs : w.cache.shards[shardIndex hash]? = some s)
    (e : Method.run (.erase k hash) s = .ok (s', .unit))
    (hP : ∀ w', (∀ j, j ≠ shardIndex hash → w'.cache.shards[j]? = w.cache.shards[j]?) → P w') :
    Path hf body P w0 H0 (w.to (setShard w.cache (shardIndex hash) s') t .idle) (.ret t .unit :: .call t (.erase k) :: H) := by
  have h1 := Path.call (c := .erase k) hp (.call _ hpc) hk (hP _ (fun _ _ => rfl))
  have h2 := Path.internal h1 (.hash (World.at_pc _ _ _) rfl hh) (hP _ (fun _ _ => rfl))
  have h3 := Path.section hI h2 (World.at_pc _ _ _) hown hs e hP
  have h4 := Path.ret h3 (.ret (r := .unit) (World.at_pc _ _ _)) (hP _ (fun j hj => setShard_ne _ _ hj))
  refine h4.to ?_
  unfold World.to World.at
  simp only [World.mk.injEq, true_and]
  funext u
  by_cases eu : u = t <;> simp [eu]

/-! ## The run -/

def hashA : UInt32 := 3396115926
def hashB : UInt32 := 2433827902

theorem hashes : HashSlice keyA = .ok hashA ∧ HashSlice keyB = .ok hashB ∧ shardIndex hashA = 12 ∧ shardIndex hashB = 9 := by
  decide +kernel

/-- What the calls do to the two shards. -/
def tornShards : M (List UInt64 × MRes × MRes × MRes × MRes) := do
  let s0 ← newShard (perShard 1600)
  let (s1, r1) ← Method.run (.insert keyA hashA 7 10 9) s0
  let (s2, r2) ← Method.run (.insert keyB hashB 8 10 9) s0
  let (s3, r3) ← Method.run (.erase keyA hashA) s1
  let (_, r4) ← Method.run (.lookup keyA hashA) s3
  return ([s0.usage, s1.usage, s2.usage, s3.usage], r1, r2, r3, r4)

theorem tornShards_eq : tornShards = .ok ([0, 10, 10, 0], .handle (some 0), .handle (some 0), .unit, .handle none) := by decide +kernel

theorem torn_shards : ∃ s0 s1 s2 s3 s4, newShard (perShard 1600) = .ok s0 ∧
    Method.run (.insert keyA hashA 7 10 9) s0 = .ok (s1, .handle (some 0)) ∧
    Method.run (.insert keyB hashB 8 10 9) s0 = .ok (s2, .handle (some 0)) ∧
    Method.run (.erase keyA hashA) s1 = .ok (s3, .unit) ∧ Method.run (.lookup keyA hashA) s3 = .ok (s4, .handle none) ∧
    s0.usage = 0 ∧ s1.usage = 10 ∧ s2.usage = 10 ∧ s3.usage = 0 := by
  have h := tornShards_eq
  unfold tornShards at h
  cases e0 : newShard (perShard 1600) with
  | error x => rw [e0] at h; cases h
  | ok s0 =>
    rw [e0] at h
    change (Method.run (.insert keyA hashA 7 10 9) s0 >>= _) = _ at h
    cases e1 : Method.run (.insert keyA hashA 7 10 9) s0 with
    | error x => rw [e1] at h; cases h
    | ok p1 =>
      obtain ⟨s1, r1⟩ := p1
      rw [e1] at h
      change (Method.run (.insert keyB hashB 8 10 9) s0 >>= _) = _ at h
      cases e2 : Method.run (.insert keyB hashB 8 10 9) s0 with
      | error x => rw [e2] at h; cases h
      | ok p2 =>
        obtain ⟨s2, r2⟩ := p2
        rw [e2] at h
        change (Method.run (.erase keyA hashA) s1 >>= _) = _ at h
        cases e3 : Method.run (.erase keyA hashA) s1 with
        | error x => rw [e3] at h; cases h
        | ok p3 =>
          obtain ⟨s3, r3⟩ := p3
          rw [e3] at h
          change (Method.run (.lookup keyA hashA) s3 >>= _) = _ at h
          cases e4 : Method.run (.lookup keyA hashA) s3 with
          | error x => rw [e4] at h; cases h
          | ok p4 =>
            obtain ⟨s4, r4⟩ := p4
            rw [e4] at h
            change Except.ok ([s0.usage, s1.usage, s2.usage, s3.usage], r1, r2, r3, r4) = _ at h
            injection h with h
            injection h with h1 h2
            injection h2 with h2 h3
            injection h3 with h3 h4
            injection h4 with h4 h5
            subst h2; subst h3; subst h4; subst h5
            injection h1 with g0 h1
            injection h1 with g1 h1
            injection h1 with g2 h1
            injection h1 with g3 h1
            exact ⟨s0, s1, s2, s3, s4, rfl, e1, e2, e3, e4, g0, g1, g2, g3⟩

/-- A shard holds an entry of charge 10. -/
def Holds10 (w : World) : Prop := ∃ (i : Nat) (s : Shard), w.cache.shards[i]? = some s ∧ Cache.TotalCharge s = 10

/-- The events of the run, newest first. -/
def tornBefore : Hist := [.ret 2 (.handle (some ⟨12, 0⟩)), .call 2 (.insert keyA 7 10 9)]
def tornDuring : Hist := .ret 2 .unit :: .call 2 (.erase keyA) :: .ret 2 (.handle (some ⟨9, 0⟩)) :: .call 2 (.insert keyB 8 10 9) ::
  .call 1 .totalCharge :: tornBefore

theorem torn_run (hI : Implements body) : ∃ w0 w1, Run HashSlice body 1600 w0 tornBefore ∧ Quiet w0 ∧
    Path HashSlice body Holds10 w0 tornBefore w1 (.ret 1 (.charge 0) :: tornDuring) := by
  obtain ⟨s0, s1, s2, s3, -, e0, e1, e2, e3, -, u0, u1, u2, u3⟩ := torn_shards
  obtain ⟨hA, hB, iA, iB⟩ := hashes
  have hc : newSharded 1600 = .ok ⟨List.replicate 16 s0, 0⟩ := by
    unfold newSharded
    rw [e0]; rfl
  have rep : ∀ j, j < 16 → (List.replicate 16 s0)[j]? = some s0 := fun j hj => by
    rw [List.getElem?_replicate, if_pos hj]
  let c0 : Sharded := ⟨List.replicate 16 s0, 0⟩
  let c1 : Sharded := setShard c0 12 s1
  let c2 : Sharded := setShard c1 9 s2
  let c3 : Sharded := setShard c2 12 s3
  have g0 : ∀ j, j < 16 → c0.shards[j]? = some s0 := rep
  have g1a : c1.shards[12]? = some s1 := setShard_eq _ _ (g0 12 (by decide))
  have g1 : ∀ j, j < 16 → j ≠ 12 → c1.shards[j]? = some s0 := fun j h1 h2 => (setShard_ne _ _ h2).trans (g0 j h1)
  have g2b : c2.shards[9]? = some s2 := setShard_eq _ _ (g1 9 (by decide) (by decide))
  have g2a : c2.shards[12]? = some s1 := (setShard_ne _ _ (by decide)).trans g1a
  have g2 : ∀ j, j < 16 → j ≠ 12 → j ≠ 9 → c2.shards[j]? = some s0 := fun j h1 h2 h3 => (setShard_ne _ _ h3).trans (g1 j h1 h2)
  have g3a : c3.shards[12]? = some s3 := setShard_eq _ _ g2a
  have g3b : c3.shards[9]? = some s2 := (setShard_ne _ _ (by decide)).trans g2b
  have g3 : ∀ j, j < 16 → j ≠ 12 → j ≠ 9 → c3.shards[j]? = some s0 := fun j h1 h2 h3 => (setShard_ne _ _ h2).trans (g2 j h1 h2 h3)
  let wn : World := ⟨c0, fun _ => none, none, fun _ => .idle⟩
  have r0 : Run HashSlice body 1600 wn [] := .init hc
  -- thread 2 inserts keyA
  have q1 := Path.insert (t := 2) (P := fun _ => True) hI (Path.start (w0 := wn) (H0 := []) trivial) rfl (k := keyA) (by decide) hA rfl
    (by rw [iA]; exact g0 12 (by decide)) e1 (fun _ _ => trivial)
  rw [iA] at q1
  have r1 := q1.run r0
  have key : ∀ (w : World) (j i : Nat) (s : Shard), i ≠ j → w.cache.shards[i]? = some s → s.usage = 10 →
      ∀ w' : World, (∀ l, l ≠ j → w'.cache.shards[l]? = w.cache.shards[l]?) → Holds10 w' := by
    intro w j i s hne hs hu w' hw
    exact ⟨i, s, (hw i hne).trans hs, hu⟩
  -- thread 1 calls TotalCharge and reads the shards 0 to 9
  have p0 := Path.start (hf := HashSlice) (body := body) (P := Holds10) (w0 := wn.to c1 2 .idle)
    (H0 := [.ret 2 (.handle (some ⟨12, 0⟩)), .call 2 (.insert keyA 7 10 9)]) ⟨12, s1, g1a, u1⟩
  have p1 := Path.call (t := 1) (c := .totalCharge) p0 (.call _ rfl) trivial ⟨12, s1, g1a, u1⟩
  have p2 := Path.reads hI (t := 1) 0 10 0 (by decide) p1 rfl (fun _ => rfl) (fun j _ h => ⟨s0, g1 j (by omega) (by omega), u0⟩)
    (fun j _ h => key _ j 12 s1 (by omega) g1a u1)
  -- thread 2 inserts keyB and erases keyA
  have p3 := Path.insert hI (t := 2) (k := keyB) p2 rfl (by decide) hB rfl (by rw [iB]; exact g1 9 (by decide) (by decide)) e2
    (by rw [iB]; exact key _ 9 12 s1 (by decide) g1a u1)
  rw [iB] at p3
  have p4 := Path.erase hI (t := 2) (k := keyA) p3 rfl (by decide) hA rfl (by rw [iA]; exact g2a) e3
    (by rw [iA]; exact key _ 12 9 s2 (by decide) g2b u2)
  rw [iA] at p4
  -- thread 1 reads the rest
  have p5 := Path.reads hI (t := 1) 0 5 10 (by decide) p4 rfl (fun _ => rfl)
    (fun j _ h => by
      by_cases e : j = 12
      · subst e; exact ⟨s3, g3a, u3⟩
      · exact ⟨s0, g3 j (by omega) e (by omega), u0⟩)
    (fun j _ h => key _ j 9 s2 (by omega) g3b u2)
  have p6 := Path.section hI (t := 1) p5 (World.at_pc _ _ _) rfl (show _ = some s0 from g3 15 (by decide) (by decide) (by decide))
    (s' := s0) (x := .charge s0.usage) rfl (key _ 15 9 s2 (by decide) g3b u2)
  have hpr : proceed (.charge (10 + 5) 0) (.charge s0.usage) = .leave (.charge 0) := by rw [u0]; rfl
  rw [hpr] at p6
  have p7 := Path.ret p6 (.ret (World.at_pc _ _ _)) ⟨9, s2, (setShard_ne _ _ (by decide)).trans g3b, u2⟩
  refine ⟨_, _, r1, ?_, p7⟩
  intro t
  show (if t = 2 then Pc.idle else Pc.idle) = _
  split <;> rfl

theorem torn (hI : Implements body) : ∃ w0 H0 w1 H1, Run HashSlice body 1600 w0 H0 ∧ Quiet w0 ∧
    Path HashSlice body Holds10 w0 H0 w1 (.ret 1 (.charge 0) :: H1) ∧ pendingAt H1 1 = some (.totalCharge, H0) := by
  obtain ⟨w0, w1, h1, h2, h3⟩ := torn_run hI
  exact ⟨w0, _, w1, _, h1, h2, h3, rfl⟩

/-! ## Two more runs -/

theorem Path.lookup (hI : Implements body) {t : Tid} {k : Slice} {hash : UInt32} {s s' : Shard}
    (hp : Path hf body P w0 H0 w H) (hpc : w.pc t = .idle) (hk : k.WF) (hh : hf k = .ok hash)
    (hown : w.owner (shardIndex hash) = none) (hs : w.cache.shards[shardIndex hash]? = some s)
    (e : Method.run (.lookup k hash) s = .ok (s', .handle none))
    (hP : ∀ w', (∀ j, j ≠ shardIndex hash → w'.cache.shards[j]? = w.cache.shards[j]?) → P w') :
    ∃ w', Path hf body P w0 H0 w' (.ret t (.handle none) :: .call t (.lookup k) :: H) := by
  have h1 := Path.call (c := .lookup k) hp (.call _ hpc) hk (hP _ (fun _ _ => rfl))
  have h2 := Path.internal h1 (.hash (World.at_pc _ _ _) rfl hh) (hP _ (fun _ _ => rfl))
  have h3 := Path.section hI h2 (World.at_pc _ _ _) hown hs e hP
  exact ⟨_, Path.ret h3 (.ret (r := .handle none) (World.at_pc _ _ _)) (hP _ (fun j hj => setShard_ne _ _ hj))⟩

theorem stale_run (hI : Implements body) : ∃ w, Run HashSlice body 1600 w
    (.ret 1 (.handle none) :: .call 1 (.lookup keyA) :: .ret 2 .unit :: .call 2 (.erase keyA) :: tornBefore) := by
  obtain ⟨s0, s1, s2, s3, s4, e0, e1, e2, e3, e4, u0, u1, u2, u3⟩ := torn_shards
  obtain ⟨hA, hB, iA, iB⟩ := hashes
  have hc : newSharded 1600 = .ok ⟨List.replicate 16 s0, 0⟩ := by
    unfold newSharded
    rw [e0]; rfl
  have rep : (List.replicate 16 s0)[12]? = some s0 := by
    rw [List.getElem?_replicate, if_pos (by decide)]
  have q0 := Path.start (hf := HashSlice) (body := body) (P := fun _ => True)
    (w0 := ⟨⟨List.replicate 16 s0, 0⟩, fun _ => none, none, fun _ => .idle⟩) (H0 := []) trivial
  have q1 := Path.insert (t := 2) hI q0 rfl (k := keyA) (by decide) hA rfl (by rw [iA]; exact rep) e1 (fun _ _ => trivial)
  rw [iA] at q1
  have g1 := setShard_eq ⟨List.replicate 16 s0, 0⟩ s1 rep
  have q2 := Path.erase hI (t := 2) (k := keyA) q1 rfl (by decide) hA rfl (by rw [iA]; exact g1) e3 (fun _ _ => trivial)
  rw [iA] at q2
  have g2 := setShard_eq (setShard ⟨List.replicate 16 s0, 0⟩ 12 s1) s3 g1
  obtain ⟨w, q3⟩ := Path.lookup hI (t := 1) (k := keyA) q2 rfl (by decide) hA rfl (by rw [iA]; exact g2) e4 (fun _ _ => trivial)
  exact ⟨w, q3.run (.init hc)⟩

theorem total_run (hI : Implements body) : ∃ w w', Run HashSlice body 1600 w (.call 1 .totalCharge :: tornBefore) ∧
    Step HashSlice body w (some (.ret 1 (.charge 10))) w' := by
  obtain ⟨s0, s1, s2, s3, s4, e0, e1, e2, e3, e4, u0, u1, u2, u3⟩ := torn_shards
  obtain ⟨hA, hB, iA, iB⟩ := hashes
  have hc : newSharded 1600 = .ok ⟨List.replicate 16 s0, 0⟩ := by
    unfold newSharded
    rw [e0]; rfl
  have rep : ∀ j, j < 16 → (List.replicate 16 s0)[j]? = some s0 := fun j hj => by
    rw [List.getElem?_replicate, if_pos hj]
  let c0 : Sharded := ⟨List.replicate 16 s0, 0⟩
  let c1 : Sharded := setShard c0 12 s1
  have g1a : c1.shards[12]? = some s1 := setShard_eq _ _ (rep 12 (by decide))
  have g1 : ∀ j, j < 16 → j ≠ 12 → c1.shards[j]? = some s0 := fun j h1 h2 => (setShard_ne _ _ h2).trans (rep j h1)
  have q0 := Path.start (hf := HashSlice) (body := body) (P := fun _ => True)
    (w0 := ⟨c0, fun _ => none, none, fun _ => .idle⟩) (H0 := []) trivial
  have q1 := Path.insert (t := 2) hI q0 rfl (k := keyA) (by decide) hA rfl (by rw [iA]; exact rep 12 (by decide)) e1
    (fun _ _ => trivial)
  rw [iA] at q1
  have q2 := Path.call (t := 1) (c := .totalCharge) q1 (.call _ rfl) trivial trivial
  have q3 := Path.reads hI (t := 1) 0 12 0 (by decide) q2 rfl (fun _ => rfl) (fun j _ h => ⟨s0, g1 j (by omega) (by omega), u0⟩)
    (fun _ _ _ _ _ => trivial)
  have q4 := Path.section hI (t := 1) q3 (World.at_pc _ _ _) rfl (show _ = some s1 from g1a) (s' := s1) (x := .charge s1.usage) rfl
    (fun _ _ => trivial)
  have hpr : proceed (.charge (0 + 12) 0) (.charge s1.usage) = .enter 13 .totalCharge (.charge 13 10) := by rw [u1]; rfl
  rw [hpr] at q4
  have g2 : ∀ j, 13 ≤ j → j < 16 → (setShard c1 12 s1).shards[j]? = some s0 := fun j h1 h2 =>
    (setShard_ne _ _ (by omega)).trans (g1 j h2 (by omega))
  have q5 := Path.reads hI (t := 1) 10 2 13 (by decide) q4 rfl (fun _ => rfl) (fun j _ h => ⟨s0, g2 j (by omega) (by omega), u0⟩)
    (fun _ _ _ _ _ => trivial)
  have q6 := Path.section hI (t := 1) q5 (World.at_pc _ _ _) rfl (show _ = some s0 from g2 15 (by decide) (by decide)) (s' := s0)
    (x := .charge s0.usage) rfl (fun _ _ => trivial)
  have hpr : proceed (.charge (13 + 2) 10) (.charge s0.usage) = .leave (.charge 10) := by rw [u0]; rfl
  rw [hpr] at q6
  exact ⟨_, _, q6.run (.init hc), .ret (World.at_pc _ _ _)⟩

end CacheConc
end Lsmdb
