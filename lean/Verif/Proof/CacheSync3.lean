import Verif.Proof.CacheSync2

/-!
# Which call made an entry, and that who gets a handle knows it
-/

namespace Lsmdb
namespace CacheConc
open Cache Spec Props

variable {hf : Slice → M UInt32} {capacity : UInt64} {N : Nat}

/-- The entry has been made. -/
def Born (w : World) (h : Handle) : Prop := ∃ s, w.cache.shards[h.shard]? = some s ∧ h.addr < s.heap.fresh

theorem Exec.born_step (x : Exec hf capacity N) {n : Nat} (hn : n < N) {h : Handle} (hb : Born (x.w n) h) : Born (x.w (n + 1)) h := by
  obtain ⟨s, h1, h2⟩ := hb
  rcases shards_step (x.bodies n (by omega)) (x.step n hn) with hs | ⟨t, i, m, p, k, s1, s2, -, -, h5, h6, -, -, h8⟩
  · exact ⟨s, by rw [hs]; exact h1, h2⟩
  · by_cases hi : h.shard = i
    · subst hi
      rw [h5] at h1
      cases h1
      have hlt := (List.getElem?_eq_some_iff.mp h5).1
      refine ⟨s2, by rw [h6, List.getElem?_set_self hlt], ?_⟩
      rcases h8 with h8 | ⟨_, _, _, _, _, -, h8, -⟩
      · rw [h8.fresh]; exact h2
      · rw [h8]; omega
    · exact ⟨s, by rw [h6, List.getElem?_set_ne (Ne.symm hi)]; exact h1, h2⟩

theorem Exec.born_mono (x : Exec hf capacity N) {h : Handle} {m : Nat} (hb : Born (x.w m) h) : ∀ n, m ≤ n → n ≤ N → Born (x.w n) h := by
  intro n hmn
  induction hmn with
  | refl => exact fun _ => hb
  | step _ ih => exact fun hn => x.born_step (by omega) (ih (by omega))

/-- Where a thread comes from that is about to return a handle. -/
theorem Exec.leave_step (hH : HashFn hf) (x : Exec hf capacity N) (hlen : (hist x.ev N).length < 2 ^ 31) {n : Nat} (hn : n < N) {t : Tid}
    {h : Handle} (hp : (x.w (n + 1)).pc t = .leave (.handle (some h))) :
    (x.w n).pc t = .leave (.handle (some h)) ∨
      ((x.w n).owner h.shard = some t ∧ (x.w (n + 1)).pc t ≠ (x.w n).pc t ∧ (x.w (n + 1)).owner h.shard = none ∧
        (x.w (n + 1)).cache = (x.w n).cache) := by
  obtain ⟨a, A, i, S⟩ := (x.run n (by omega)).sim hH code_implements code_steady (Nat.lt_of_le_of_lt (hist_length _ (by omega)) hlen)
  have s := x.step n hn
  by_cases hm : (x.w (n + 1)).pc t = (x.w n).pc t
  · exact .inl (hm ▸ hp)
  right
  generalize x.w (n + 1) = w' at s hp hm
  generalize x.w n = w at s hm S
  generalize x.ev n = e at s
  have only : ∀ {w1 : World} {u : Tid} {p : Pc}, w1.pc = w.pc → (w1.at u p).pc t ≠ w.pc t → u = t := by
    intro w1 u p h1 h2
    refine Classical.byContradiction fun hu => h2 ?_
    rw [World.at_ne _ (Ne.symm hu), h1]
  cases s with
  | @call u c h' =>
    have := only rfl hm; subst this
    rw [World.at_pc] at hp
    cases c <;> cases hp
  | @hash u c k hash h' hk e =>
    have := only rfl hm; subst this
    rw [World.at_pc] at hp
    cases c <;> cases hp
  | @readHash u a s h' hs e hi =>
    have := only rfl hm; subst this
    rw [World.at_pc] at hp
    cases hp
  | @readValue u a v h' e =>
    have := only rfl hm; subst this
    rw [World.at_pc] at hp
    cases hp
  | @lock u i m k h' hi free =>
    have := only (w1 := w.own i (some u)) rfl hm; subst this
    rw [World.at_pc] at hp
    cases hp
  | @body u i m k β f next s s' b h' hs e =>
    have := only (w1 := { w with cache := setShard w.cache i s' }) rfl hm; subst this
    rw [World.at_pc] at hp
    cases hp
  | @unlock u j m k r h' =>
    have := only (w1 := w.own j none) rfl hm; subst this
    rw [World.at_pc] at hp
    have hpc := S.pc u
    rw [h'] at hpc
    obtain ⟨⟨c, es, -, rd⟩, ho, -⟩ := hpc
    have hj : j = h.shard := by
      cases rd <;> cases r <;> simp only [proceed] at hp <;> (try split at hp) <;> (try cases hp)
      all_goals
        rename_i o
        cases o with
        | none => cases hp
        | some b => cases hp; rfl
    subst hj
    exact ⟨ho, hm, by simp [World.at, World.own], rfl⟩
  | @idLock u h' free =>
    have := only (w1 := { w with idOwner := some u }) rfl hm; subst this
    rw [World.at_pc] at hp
    cases hp
  | @idNext u h' =>
    have := only (w1 := { w with cache := { w.cache with lastId := w.cache.lastId + 1 } }) rfl hm; subst this
    rw [World.at_pc] at hp
    cases hp
  | @idUnlock u n h' =>
    have := only (w1 := { w with idOwner := none }) rfl hm; subst this
    rw [World.at_pc] at hp
    cases hp
  | @ret u r h' =>
    have := only rfl hm; subst this
    rw [World.at_pc] at hp
    cases hp

/-- A handle that is about to be returned has a reference. -/
theorem leaving_outstanding {w : World} {a : Atom} {H : Hist} (S : Sim hf code w a) (i : Inv hf capacity a H) {t : Tid} {h : Handle}
    (hp : w.pc t = .leave (.handle (some h))) : 0 < outstanding a.tr h := by
  have hpc := S.pc t
  rw [hp] at hpc
  obtain ⟨c, es, hn, hc⟩ := hpc
  have hw : wGot h (a.now t) = 1 := by
    rw [hn]
    cases c with
    | insert k v ch d => obtain ⟨h', rfl, e⟩ := hc; cases e; simp [wGot]
    | lookup k => obtain ⟨y, rfl, e⟩ := hc; cases e; simp [wGot]
    | release y => cases hc.2
    | erase k => cases hc.2
    | value y => obtain ⟨_, _, e⟩ := hc; cases e
    | newId => obtain ⟨_, _, e⟩ := hc; cases e
    | prune => cases hc.2
    | totalCharge => obtain ⟨_, _, e⟩ := hc; cases e
  obtain ⟨m, T, e⟩ := i.got h
  have h1 := (T.upd t none).1
  obtain ⟨m', -, e'⟩ := i.rel h
  have := i.bal h
  unfold outstanding
  omega

theorem Exec.leaving_born (hH : HashFn hf) (x : Exec hf capacity N) (hlen : (hist x.ev N).length < 2 ^ 31) {t : Tid} {h : Handle} :
    ∀ n, n ≤ N → (x.w n).pc t = .leave (.handle (some h)) → Born (x.w n) h := by
  intro n
  induction n with
  | zero =>
    intro _ hp
    obtain ⟨c, -, h0⟩ := x.start
    rw [h0] at hp
    cases hp
  | succ n ih =>
    intro hn hp
    rcases x.leave_step hH hlen (by omega) hp with h1 | ⟨-, -, h3, -⟩
    · exact x.born_step (by omega) (ih (by omega) h1)
    · obtain ⟨a, A, i, S⟩ := (x.run (n + 1) hn).sim hH code_implements code_steady (Nat.lt_of_le_of_lt (hist_length _ hn) hlen)
      have ho := leaving_outstanding S i hp
      obtain ⟨Hh, hH'⟩ := hH
      obtain ⟨s, e1, -, e2, -⟩ := live_of_outstanding (reach_inv hH' i.reach) ho
      exact ⟨s, by rw [S.free _ h3]; exact e1, e2⟩

/-- The call at step `i` made the entry; the mutex of the shard, and who is about to return the handle, know it. -/
structure MadeBy (x : Exec hf capacity N) (h : Handle) (i n : Nat) : Prop where
  entry : ∀ s, (x.w n).cache.shards[h.shard]? = some s → h.addr < s.heap.fresh →
    (∃ t k ch d, x.ev i = some (.call t (.insert k (s.heap.value h.addr) ch d))) ∧ Has x.sync n ((x.w n).holder (some h.shard)) (some h.shard) i
  leaving : ∀ t, (x.w n).pc t = .leave (.handle (some h)) → Knows x.sync n t i

theorem MadeBy.unborn (hH : HashFn hf) {x : Exec hf capacity N} (hlen : (hist x.ev N).length < 2 ^ 31) {h : Handle} {n : Nat} (hn : n ≤ N)
    (hb : ¬ Born (x.w n) h) (i : Nat) : MadeBy x h i n where
  entry s h1 h2 := absurd ⟨s, h1, h2⟩ hb
  leaving _ hp := absurd (x.leaving_born hH hlen n hn hp) hb

theorem MadeBy.step (hH : HashFn hf) {x : Exec hf capacity N} (hlen : (hist x.ev N).length < 2 ^ 31) {h : Handle} {i n : Nat} (hn : n < N)
    (M : MadeBy x h i n) (hb : Born (x.w n) h) : MadeBy x h i (n + 1) := by
  obtain ⟨s, b1, b2⟩ := hb
  obtain ⟨⟨t0, k0, ch0, d0, he⟩, hhas⟩ := M.entry s b1 b2
  constructor
  · intro s' h1 _
    refine ⟨⟨t0, k0, ch0, d0, ?_⟩, hhas.step (x.turn hH hlen hn _)⟩
    rw [he]
    have : s'.heap.value h.addr = s.heap.value h.addr := by
      rcases shards_step (x.bodies n (by omega)) (x.step n hn) with hs | ⟨t, j, m, p, k, s1, s2, -, -, h5, h6, -, -, h8⟩
      · rw [hs, b1] at h1; cases h1; rfl
      · by_cases hi : h.shard = j
        · subst hi
          have hlt := (List.getElem?_eq_some_iff.mp h5).1
          rw [h6, List.getElem?_set_self hlt] at h1
          cases h1
          rw [b1] at h5
          cases h5
          rcases h8 with h8 | ⟨_, _, _, _, _, -, -, h8⟩
          · rw [h8.value]
          · rw [h8]
            unfold upd
            rw [if_neg (by omega)]
        · rw [h6, List.getElem?_set_ne (Ne.symm hi), b1] at h1
          cases h1; rfl
    rw [this]
  · intro t hp
    rcases x.leave_step hH hlen hn hp with h1 | ⟨h1, -, -, -⟩
    · exact (M.leaving t h1).mono (Nat.le_succ n)
    · exact ((x.guarded hH hlen _ n (by omega)).knows hhas h1).mono (Nat.le_succ n)

theorem MadeBy.new (hH : HashFn hf) {x : Exec hf capacity N} (hlen : (hist x.ev N).length < 2 ^ 31) {h : Handle} {n : Nat} (hn : n < N)
    (hb : ¬ Born (x.w n) h) : ∃ i, MadeBy x h i (n + 1) := by
  by_cases hb' : Born (x.w (n + 1)) h
  · obtain ⟨s', h1, h2⟩ := hb'
    rcases shards_step (x.bodies n (by omega)) (x.step n hn) with hs | ⟨t, j, m, p, q, s1, s2, h3, h4, h5, h6, h7, -, h8⟩
    · exact absurd ⟨s', by rw [← hs]; exact h1, h2⟩ hb
    · by_cases hi : h.shard = j
      · subst hi
        have hlt := (List.getElem?_eq_some_iff.mp h5).1
        rw [h6, List.getElem?_set_self hlt] at h1
        cases h1
        rcases h8 with h8 | ⟨k, hash, v, ch, d, hm, hf', hv⟩
        · exact absurd ⟨s1, h5, by rw [← h8.fresh]; exact h2⟩ hb
        · have ha : h.addr = s1.heap.fresh := by
            have : ¬ h.addr < s1.heap.fresh := fun hlt => hb ⟨s1, h5, hlt⟩
            omega
          subst hm
          obtain ⟨i, e1, e2⟩ := (x.calls hH hlen n (by omega)).inserting t _ _ _ _ _ _ _ (.inr ⟨p, h3⟩)
          have ho := (x.own hH hlen (Nat.le_of_lt hn)).1 _ _ _ _ _ h3
          refine ⟨i, ?_, ?_⟩
          · intro s'' e3 _
            rw [h6, List.getElem?_set_self hlt] at e3
            cases e3
            refine ⟨⟨t, k, ch, d, ?_⟩, .inr ⟨t, ?_, e2.mono (Nat.le_succ n)⟩⟩
            · rw [e1, hv, ha]
              simp [upd]
            · show (x.w (n + 1)).owner h.shard = some t
              rw [h7]; exact ho
          · intro u hp
            rcases x.leave_step hH hlen hn hp with h9 | ⟨_, _, h9, _⟩
            · exact absurd (x.leaving_born hH hlen n (by omega) h9) hb
            · rw [h7, ho] at h9; cases h9
      · rw [h6, List.getElem?_set_ne (Ne.symm hi)] at h1
        exact absurd ⟨s', h1, h2⟩ hb
  · exact ⟨0, .unborn hH hlen (by omega) hb' 0⟩

theorem Exec.made (hH : HashFn hf) (x : Exec hf capacity N) (hlen : (hist x.ev N).length < 2 ^ 31) (h : Handle) :
    ∃ i, ∀ m, m ≤ N → MadeBy x h i m := by
  have key : ∀ n, n ≤ N → ∃ i, ∀ m, m ≤ n → MadeBy x h i m := by
    intro n
    induction n with
    | zero =>
      intro _
      refine ⟨0, fun m hm => ?_⟩
      have : m = 0 := by omega
      subst this
      obtain ⟨c, h1, h2⟩ := x.start
      have hb : ¬ Born (x.w 0) h := by
        rintro ⟨s, e1, e2⟩
        rw [h2] at e1
        obtain ⟨s0, e3, e4⟩ : ∃ s0, newShard (perShard capacity) = .ok s0 ∧ c = ⟨List.replicate 16 s0, 0⟩ := by
          unfold newSharded at h1
          cases e : newShard (perShard capacity) with
          | error f => rw [e] at h1; cases h1
          | ok s => rw [e] at h1; cases h1; exact ⟨s, rfl, rfl⟩
        have hs : s = s0 := by
          rw [e4] at e1
          have := List.mem_of_getElem? e1
          exact List.eq_of_mem_replicate this
        subst hs
        have hz : s.heap.fresh = 0 := by
          unfold newShard at e3
          simp only [bind, Except.bind] at e3
          split at e3
          · cases e3
          · rename_i e5
            cases e3
            exact (Resize_same e5).fresh
        omega
      exact .unborn hH hlen (by omega) hb 0
    | succ n ih =>
      intro hn
      obtain ⟨i, hi⟩ := ih (by omega)
      by_cases hb : Born (x.w n) h
      · refine ⟨i, fun m hm => ?_⟩
        rcases Nat.lt_or_ge m (n + 1) with h1 | h1
        · exact hi m (by omega)
        · have : m = n + 1 := by omega
          subst this
          exact (hi n (Nat.le_refl n)).step hH hlen (by omega) hb
      · obtain ⟨i', hi'⟩ := MadeBy.new hH hlen (x := x) (by omega) hb
        refine ⟨i', fun m hm => ?_⟩
        rcases Nat.lt_or_ge m (n + 1) with h1 | h1
        · exact .unborn hH hlen (by omega) (fun hb' => hb (x.born_mono hb' n (by omega) (by omega))) i'
        · have : m = n + 1 := by omega
          subst this
          exact hi'
  exact key N (Nat.le_refl N)

/-- A handle that is being returned can be used. -/
theorem Exec.value_ok (hH : HashFn hf) (x : Exec hf capacity N) (hlen : (hist x.ev N).length < 2 ^ 31 - 1) {j : Nat} (hj : j < N) {u : Tid}
    {h : Handle} (he : x.ev j = some (.ret u (.handle (some h)))) :
    (x.w j).pc u = .leave (.handle (some h)) ∧ (x.w (j + 1)).pc u = .idle ∧ (∃ v, Sharded.Value (x.w j).cache h = .ok v) ∧
      begun (hist x.ev (j + 1)) h < got (hist x.ev (j + 1)) h := by
  have s := x.step j hj
  have r := x.run (j + 1) (by omega)
  have hl : (hist x.ev (j + 1)).length ≤ (hist x.ev N).length := hist_length _ (by omega)
  have hb : begun (hist x.ev (j + 1)) h < got (hist x.ev (j + 1)) h := by
    have r0 := x.run j (by omega)
    obtain ⟨a, A, i, S⟩ := r0.sim hH code_implements code_steady (Nat.lt_of_le_of_lt (hist_length _ (by omega)) (by omega : (hist x.ev N).length < 2 ^ 31))
    have := i.bal h
    simp only [hist, he, Option.toList, List.cons_append, List.nil_append, begun, got, if_true]
    omega
  rw [he] at s
  generalize hw' : x.w (j + 1) = w' at s r
  cases s with
  | ret hp =>
    refine ⟨hp, World.at_pc _ _ _, ?_, hb⟩
    have c : Step hf code ((x.w j).at u .idle) (some (.call u (.value h))) (((x.w j).at u .idle).at u (begin (.value h))) :=
      .call _ (World.at_pc _ _ _)
    have r2 := Run.call r c hb
    have nf := C78_no_fault hH code_implements code_steady r2 (by rw [List.length_cons]; omega)
    cases hv : Sharded.Value (x.w j).cache h with
    | ok v => exact ⟨v, rfl⟩
    | error f => exact (nf (.readValue (t := u) (World.at_pc ((x.w j).at u .idle) u (.readValue h)) hv)).elim

/-- While the deleter of an entry has run, no thread is about to release it. -/
theorem no_pending (hH : HashFn hf) {w : World} {H : Hist} (r : Run hf code capacity w H) (hlen : H.length < 2 ^ 31) {h : Handle}
    (hd : deletions w.cache.shards h ≠ []) (u : Tid) :
    ¬ (w.pc u = .readHash h ∨ ∃ q, w.pc u = .enter h.shard (.release h.addr) q) := by
  obtain ⟨a, A, i, S⟩ := r.sim hH code_implements code_steady hlen
  intro hp
  have hn : a.now u = some (.release h, []) := by
    have hpc := S.pc u
    rcases hp with hp | ⟨q, hp⟩
    · rw [hp] at hpc; exact hpc
    · rw [hp] at hpc
      obtain ⟨c, es, e1, rd⟩ := hpc
      rw [e1]
      obtain ⟨sh, ad⟩ := h
      generalize hm : Method.release ad = m at rd
      cases rd with
      | release h' => cases hm; rfl
      | _ => cases hm
  obtain ⟨a', i', hn', hp'⟩ : ∃ a', Inv hf capacity a' H ∧ a'.now u = a.now u ∧ deletions w.cache.shards h <+: deletions a'.cache.shards h := by
    cases ho : w.owner h.shard with
    | none =>
      refine ⟨a, i, rfl, ?_⟩
      unfold Spec.deletions
      rw [S.free _ ho]
    | some t =>
      obtain ⟨m, p, k, hpt⟩ := S.owned _ _ ho
      have hut : u ≠ t := by
        intro e
        subst e
        rw [hpt] at hp
        rcases hp with hp | ⟨q, hp⟩ <;> cases hp
      have := S.pc t
      rw [hpt] at this
      obtain ⟨⟨c, es, hnow, rd⟩, -, s0, s1, h0, h1, hc⟩ := this
      obtain ⟨s2, r, e, a', hrun, n, o, hca, -⟩ := i.section hH hlen hnow rd h0
      refine ⟨_, i.effect hnow n o, ?_, ?_⟩
      · show (if u = t then _ else a'.now u) = _
        rw [if_neg hut]
        cases o <;> rfl
      · have hm := hc.mid (Mid.here _ _)
        have := (code_recorded m s0 s1 s2 r hm ((code_implements m s0).trans hrun)).2
        have hs : (a'.at t (some (c, es ++ [e]))).cache.shards[h.shard]? = some s2 := by
          show a'.cache.shards[h.shard]? = _
          rw [hca]
          exact setShard_eq _ _ h0
        unfold Spec.deletions
        rw [h1, hs]
        exact this.filter _
  obtain ⟨-, -, -, hz⟩ := C27_held_handle hH i'.reach (i'.has (es := []) (.inr (hn'.trans hn)))
  rw [hz] at hp'
  exact hd (List.prefix_nil.mp hp')

theorem Exec.deletions_mono (x : Exec hf capacity N) {h : Handle} {m : Nat} (hd : deletions (x.w m).cache.shards h ≠ []) :
    ∀ n, m ≤ n → n ≤ N → deletions (x.w n).cache.shards h ≠ [] := by
  intro n hmn
  induction hmn with
  | refl => exact fun _ => hd
  | @step n _ ih =>
    intro hn
    have h0 := ih (by omega)
    rcases shards_step (x.bodies n (by omega)) (x.step n (by omega)) with hs | ⟨t, j, m, p, q, s1, s2, h3, h4, h5, h6, h7, h8, -⟩
    · rw [hs]; exact h0
    · by_cases hi : h.shard = j
      · subst hi
        have hlt := (List.getElem?_eq_some_iff.mp h5).1
        unfold Spec.deletions at h0 ⊢
        rw [h5] at h0
        rw [h6, List.getElem?_set_self hlt]
        intro hz
        have hpre := h8.filter (fun d => d.addr == h.addr)
        simp only at hz h0
        rw [hz] at hpre
        exact h0 (List.prefix_nil.mp hpre)
      · unfold Spec.deletions at h0 ⊢
        rw [h6, List.getElem?_set_ne (Ne.symm hi)]
        exact h0

/-- A step that runs the deleter is made under the mutex of the shard. -/
theorem Exec.deletes_step (hH : HashFn hf) (x : Exec hf capacity N) (hlen : (hist x.ev N).length < 2 ^ 31) {k : Nat} (hk : k < N) {h : Handle}
    (hd : x.Deletes k h) : ∃ t m p q, (x.w k).pc t = .inside h.shard m p q ∧ x.sync.thread k t ∧ (x.w k).holder (some h.shard) = some t := by
  obtain ⟨d1, d2⟩ := hd
  rcases shards_step (x.bodies k (by omega)) (x.step k hk) with hs | ⟨t, j, m, p, q, s1, s2, h3, h4, h5, h6, h7, h8, -⟩
  · rw [hs] at d2; exact absurd d1 d2
  · by_cases hi : h.shard = j
    · subst hi
      exact ⟨t, m, p, q, h3, h4, (x.own hH hlen (Nat.le_of_lt hk)).1 _ _ _ _ _ h3⟩
    · unfold Spec.deletions at d1 d2
      rw [h6, List.getElem?_set_ne (Ne.symm hi)] at d2
      exact absurd d1 d2

theorem Exec.release_before (hH : HashFn hf) (x : Exec hf capacity N) (hlen : (hist x.ev N).length < 2 ^ 31) {k : Nat} (hk : k < N) {h : Handle}
    (hd : x.Deletes k h) {i : Nat} (hi : i < N) {u : Tid} (he : x.ev i = some (.call u (.release h))) : HappensBefore x.sync i k := by
  obtain ⟨t, m, p, q, hp, ht, ho⟩ := x.deletes_step hH hlen hk hd
  rcases Nat.lt_trichotomy i k with hlt | heq | hgt
  · rcases (x.calls hH hlen k (by omega)).releasing i u h hlt he with h1 | ⟨-, h2⟩
    · exact ((x.guarded hH hlen _ k (by omega)).knows h1 ho).before ht
    · exfalso
      have hut : (x.w (k + 1)).pc u = (x.w k).pc u := by
        refine Classical.byContradiction fun hne => ?_
        have := only_thread (x.step k hk) ht hne
        subst this
        rw [hp] at h2
        rcases h2 with h2 | ⟨_, h2⟩ <;> cases h2
      rw [← hut] at h2
      exact no_pending hH (x.run (k + 1) (by omega)) (Nat.lt_of_le_of_lt (hist_length _ (by omega)) hlen) hd.2 u h2
  · exfalso
    subst heq
    have s := x.step i hi
    obtain ⟨d1, d2⟩ := hd
    rw [he] at s
    generalize x.w (i + 1) = w' at s d2
    cases s with
    | call c h' => exact d2 d1
  · exfalso
    have hperm := x.rules i hi u _ he
    have := (C76_deleter hH code_implements code_steady code_recorded (x.run i (by omega)) (Nat.lt_of_le_of_lt (hist_length _ (by omega)) hlen) h).2 hperm.1
    exact x.deletions_mono hd.2 i (by omega) (by omega) this

/-- What is known of an entry whose handle is returned. -/
theorem Exec.publication (hH : HashFn hf) (x : Exec hf capacity N) (hlen : (hist x.ev N).length < 2 ^ 31 - 1) :
    ∃ made : Handle → Nat, ∀ j u h, j < N → x.ev j = some (.ret u (.handle (some h))) →
      (∃ t k v ch d, x.ev (made h) = some (.call t (.insert k v ch d)) ∧ Sharded.Value (x.w j).cache h = .ok v) ∧
      HappensBefore x.sync (made h) j ∧
      ∀ k, k < N → x.Deletes k h → HappensBefore x.sync (made h) k := by
  have hlen' : (hist x.ev N).length < 2 ^ 31 := by omega
  choose made hmade using x.made hH hlen'
  refine ⟨made, fun j u h hj he => ?_⟩
  obtain ⟨hp, hp', ⟨v, hv⟩, hb⟩ := x.value_ok hH hlen hj he
  have M := hmade h j (by omega)
  have hB := x.leaving_born hH hlen' j (by omega) hp
  obtain ⟨s, b1, b2⟩ := hB
  obtain ⟨⟨t, k, ch, d, e1⟩, -⟩ := M.entry s b1 b2
  have hval : v = s.heap.value h.addr := by
    simp only [Sharded.Value, getShard, b1, bind, Except.bind] at hv
    split at hv
    · cases hv
    · cases hv; rfl
  refine ⟨⟨t, k, v, ch, d, by rw [hval]; exact e1, hv⟩, (M.leaving u hp).before ?_, ?_⟩
  · show (x.w (j + 1)).pc u ≠ (x.w j).pc u
    rw [hp, hp']; exact nofun
  · intro k' hk' hd
    have hjk : j < k' := by
      rcases Nat.lt_or_ge j k' with h1 | h1
      · exact h1
      · exfalso
        have := (C76_deleter hH code_implements code_steady code_recorded (x.run (j + 1) (by omega))
          (Nat.lt_of_le_of_lt (hist_length _ (by omega)) hlen') h).2 hb
        exact x.deletions_mono hd.2 (j + 1) (by omega) (by omega) this
    obtain ⟨t', m, p, q, -, ht, ho⟩ := x.deletes_step hH hlen' hk' hd
    obtain ⟨s', c1, c2⟩ := x.born_mono ⟨s, b1, b2⟩ k' (by omega) (by omega)
    exact ((x.guarded hH hlen' _ k' (by omega)).knows ((hmade h k' (by omega)).entry s' c1 c2).2 ho).before ht

/-- Steps of threads that hold the mutex of the same shard are ordered. -/
theorem Exec.ordered (hH : HashFn hf) (x : Exec hf capacity N) (hlen : (hist x.ev N).length < 2 ^ 31) {i j t u : Nat} {m : Option Nat}
    (hij : i < j) (hj : j < N) (hi : x.sync.thread i t) (hu : x.sync.thread j u) (oi : (x.w i).holder m = some t)
    (oj : (x.w j).holder m = some u) : HappensBefore x.sync i j := by
  have key : ∀ d, i + 1 + d ≤ N → Has x.sync (i + 1 + d) ((x.w (i + 1 + d)).holder m) m i := by
    intro d
    induction d with
    | zero =>
      intro _
      have := x.turn hH hlen (n := i) (by omega) m
      rw [oi] at this
      exact Has.own hi this
    | succ d ih => exact fun hd => (ih (by omega)).step (x.turn hH hlen (by omega) m)
  have h := key (j - (i + 1)) (by omega)
  rw [show i + 1 + (j - (i + 1)) = j by omega] at h
  exact ((x.guarded hH hlen m j (by omega)).knows h oj).before hu

end CacheConc
end Lsmdb
