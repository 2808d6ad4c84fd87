import Verif.Proof.CacheConc2

/-!
# The simulation, step by step
-/

namespace Lsmdb
namespace CacheConc
open Cache Spec

variable {hf : Slice → M UInt32} {capacity : UInt64} {a : Atom} {H : Hist} {body : Method → Prog Shard MRes} {w : World}

/-- Where a thread is in the shared cache and in the atomic cache. -/
def PcRel (hf : Slice → M UInt32) (body : Method → Prog Shard MRes) (w : World) (a : Atom) (t : Tid) : Pc → TState → Prop
  | .idle, x => x = none
  | .hashKey c, x => x = some (c, []) ∧ ∃ k, keyOfCall c = some k
  | .readHash h, x => x = some (.release h, [])
  | .readValue h, x => x = some (.value h, [])
  | .enter i m k, x => ∃ c es, x = some (c, es) ∧ Ready hf i m k c es
  | .inside i m p k, x => (∃ c es, x = some (c, es) ∧ Ready hf i m k c es) ∧ w.owner i = some t ∧
      ∃ s0 s1, a.cache.shards[i]? = some s0 ∧ w.cache.shards[i]? = some s1 ∧ Comes (body m) s0 p s1
  | .idEnter, x => x = some (.newId, [])
  | .idInside, x => x = some (.newId, []) ∧ w.idOwner = some t
  | .idLeave n, x => x = some (.newId, [.id n]) ∧ w.idOwner = some t
  | .leave r, x => ∃ c es, x = some (c, es) ∧ Complete c es r

structure Sim (hf : Slice → M UInt32) (body : Method → Prog Shard MRes) (w : World) (a : Atom) : Prop where
  len : w.cache.shards.length = 16
  id : w.cache.lastId = a.lastId
  free : ∀ i, w.owner i = none → w.cache.shards[i]? = a.cache.shards[i]?
  owned : ∀ i t, w.owner i = some t → ∃ m p k, w.pc t = .inside i m p k
  idOwned : ∀ t, w.idOwner = some t → w.pc t = .idInside ∨ ∃ n, w.pc t = .idLeave n
  pc : ∀ t, PcRel hf body w a t (w.pc t) (a.now t)

theorem PcRel.mono {w' : World} {a' : Atom} {u : Tid} {p : Pc} {x : TState} (h : PcRel hf body w a u p x)
    (ho : ∀ j, w.owner j = some u → w'.owner j = some u ∧ w'.cache.shards[j]? = w.cache.shards[j]? ∧
      a'.cache.shards[j]? = a.cache.shards[j]?)
    (hi : w.idOwner = some u → w'.idOwner = some u) : PcRel hf body w' a' u p x := by
  cases p with
  | inside i m p k =>
    obtain ⟨h1, h2, s0, s1, h3, h4, h5⟩ := h
    obtain ⟨g1, g2, g3⟩ := ho i h2
    exact ⟨h1, g1, s0, s1, g3 ▸ h3, g2 ▸ h4, h5⟩
  | idInside => exact ⟨h.1, hi h.2⟩
  | idLeave n => exact ⟨h.1, hi h.2⟩
  | _ => exact h

theorem Sim.init {c : Sharded} (h : newSharded capacity = .ok c) :
    Sim hf body ⟨c, fun _ => none, none, fun _ => .idle⟩ ⟨c, [], 0, fun _ => none⟩ := by
  obtain ⟨s, hs⟩ : ∃ s, c = ⟨List.replicate 16 s, 0⟩ := by
    unfold newSharded at h
    cases e : newShard (perShard capacity) with
    | error f => rw [e] at h; cases h
    | ok s => rw [e] at h; cases h; exact ⟨s, rfl⟩
  refine ⟨by rw [hs]; rfl, by rw [hs], fun i _ => rfl, by (intro i t h; cases h), by (intro t h; cases h), fun t => rfl⟩

/-- A step that only moves thread `t`, which holds no mutex. -/
theorem Sim.move (S : Sim hf body w a) {t : Tid} {p : Pc} {x : TState} (h1 : ∀ i m q k, w.pc t ≠ .inside i m q k)
    (h2 : w.pc t ≠ .idInside) (h3 : ∀ n, w.pc t ≠ .idLeave n) (h : PcRel hf body (w.at t p) (a.at t x) t p x) :
    Sim hf body (w.at t p) (a.at t x) where
  len := S.len
  id := S.id
  free := S.free
  owned := by
    intro i u hu
    obtain ⟨m, q, k, e⟩ := S.owned i u hu
    have ne : u ≠ t := by intro e2; rw [e2] at e; exact h1 _ _ _ _ e
    exact ⟨m, q, k, by simp only [World.at, if_neg ne]; exact e⟩
  idOwned := by
    intro u hu
    have e := S.idOwned u hu
    have ne : u ≠ t := by
      intro e2; rw [e2] at e
      rcases e with e | ⟨n, e⟩
      · exact h2 e
      · exact h3 _ e
    simp only [World.at, if_neg ne]
    exact e
  pc := by
    intro u
    by_cases e : u = t
    · subst e
      simp only [World.at, Atom.at, if_true]
      exact h
    · simp only [World.at, Atom.at, if_neg e]
      exact (S.pc u).mono (fun j hj => ⟨hj, rfl, rfl⟩) (fun h => h)

theorem Atom.at_self (a : Atom) (t : Tid) : a.at t (a.now t) = a := by
  unfold Atom.at
  cases a
  simp only [Atom.mk.injEq, true_and]
  funext u
  split
  · rename_i e; subst e; rfl
  · rfl

/-- The effect, while shard `j` is held by `t`, leaves the other shards alone. -/
theorem setShard_ne (c : Sharded) {i j : Nat} (s : Shard) (h : j ≠ i) : (setShard c i s).shards[j]? = c.shards[j]? := by
  simp only [setShard]
  rw [List.getElem?_set_ne (fun e => h e.symm)]

theorem setShard_eq (c : Sharded) {i : Nat} {s0 : Shard} (s : Shard) (h : c.shards[i]? = some s0) :
    (setShard c i s).shards[i]? = some s := by
  simp only [setShard]
  rw [List.getElem?_set_self (List.getElem?_eq_some_iff.mp h).1]

/-- A field of a handle with a reference, read without the mutex. -/
theorem Sim.read (hH : HashFn hf) (hI : Implements body) (hS : Steady body) (S : Sim hf body w a) (i : Inv hf capacity a H)
    (hlen : H.length < 2 ^ 31) {t : Tid} {y : Handle} {es : List Effect}
    (h : a.now t = some (.value y, es) ∨ a.now t = some (.release y, [])) (hp : ∀ i m q k, w.pc t ≠ .inside i m q k) :
    ∃ s0 s1, a.cache.shards[y.shard]? = some s0 ∧ w.cache.shards[y.shard]? = some s1 ∧ s0.heap.live y.addr = true ∧
      s1.heap.live y.addr = true ∧ s1.heap.hash y.addr = s0.heap.hash y.addr ∧ s1.heap.value y.addr = s0.heap.value y.addr ∧
      shardIndex (s0.heap.hash y.addr) = y.shard := by
  have hH' := hH
  obtain ⟨Hh, hHh⟩ := hH'
  obtain ⟨s0, hs0, hl, hfr, hi⟩ := live_of_outstanding (reach_inv hHh i.reach) (i.has h)
  cases ho : w.owner y.shard with
  | none => exact ⟨s0, s0, hs0, by rw [S.free _ ho]; exact hs0, hl, hl, rfl, rfl, hi⟩
  | some u =>
    obtain ⟨m, p, k, hpc⟩ := S.owned _ _ ho
    have ne : u ≠ t := by intro e; rw [e] at hpc; exact hp _ _ _ _ hpc
    have := S.pc u
    rw [hpc] at this
    obtain ⟨⟨c, es', hu, rd⟩, -, s0', s1, h3, h4, h5⟩ := this
    rw [hs0] at h3
    cases h3
    obtain ⟨s2, r, e, a', hr, nx, oc, hc, -, -, htr⟩ := i.section hH hlen hu rd hs0
    have hl2 : s2.heap.live y.addr = true := by
      have i' := i.effect hu nx oc
      have ho' : 0 < outstanding a'.tr y := by
        rcases htr with htr | ⟨⟨o, x⟩, rfl, htr⟩
        · rw [htr]; exact i.has h
        · rw [htr]; exact i.kept h hu ne nx
      obtain ⟨s, hs, hl', -⟩ := live_of_outstanding (reach_inv hHh i'.reach) (h := y) ho'
      have hs : a'.cache.shards[y.shard]? = some s := hs
      rw [hc, setShard_eq _ _ hs0] at hs
      cases hs
      exact hl'
    have hrun : (body m).run s0 = .ok (s2, r) := by rw [hI]; exact hr
    obtain ⟨g1, g2, g3⟩ := hS m s0 s1 s2 r (h5.mid (.here p s1)) hrun y.addr hfr hl2
    exact ⟨s0, s1, hs0, h4, hl, g1, g2, g3, hi⟩

/-- Every step of a thread is a step of the atomic cache, or none. -/
theorem Sim.internal (hH : HashFn hf) (hI : Implements body) (hS : Steady body) (S : Sim hf body w a) (i : Inv hf capacity a H)
    (hA : Atomic hf capacity a H) (hlen : H.length < 2 ^ 31) {w' : World} (s : Step hf body w none w') :
    ∃ a', Atomic hf capacity a' H ∧ Inv hf capacity a' H ∧ Sim hf body w' a' := by
  have hH' := hH
  obtain ⟨Hh, hHh⟩ := hH'
  have g := reach_inv hHh i.reach
  cases s with
  | @hash t c k hash h hk e =>
    have hp := S.pc t
    rw [h] at hp
    obtain ⟨hn, -⟩ := hp
    refine ⟨a, hA, i, ?_⟩
    have := S.move (t := t) (p := dispatch hash c) (x := a.now t) (by rw [h]; intros; simp) (by rw [h]; simp)
      (by rw [h]; intros; simp) (by
        rw [hn]
        cases c with
        | insert k' v ch d => cases hk; exact ⟨_, _, rfl, .insert e⟩
        | lookup k' => cases hk; exact ⟨_, _, rfl, .lookup e⟩
        | erase k' => cases hk; exact ⟨_, _, rfl, .erase e⟩
        | _ => cases hk)
    rw [Atom.at_self] at this
    exact this
  | @readHash t y s h hs e hi =>
    have hp := S.pc t
    rw [h] at hp
    have hn : a.now t = some (.release y, []) := hp
    refine ⟨a, hA, i, ?_⟩
    have := S.move (t := t) (p := .enter y.shard (.release y.addr) .unit) (x := a.now t) (by rw [h]; intros; simp)
      (by rw [h]; simp) (by rw [h]; intros; simp) (by
        rw [hn]
        exact ⟨_, _, rfl, .release y⟩)
    rw [Atom.at_self] at this
    exact this
  | @readValue t y v h e =>
    have hp := S.pc t
    rw [h] at hp
    have hn : a.now t = some (.value y, []) := hp
    obtain ⟨s0, s1, h1, h2, h3, h4, h5, h6, h7⟩ := S.read hH hI hS i hlen (Or.inl hn) (by rw [h]; intros; simp)
    have ev : Sharded.Value a.cache y = .ok v := by
      rw [← e]
      simp only [Sharded.Value, getShard, h1, h2, bind, Except.bind, derefNode, h3, h4, if_true, pure, Except.pure, h6]
    have nx : Next (.value y) [] (.value y v) := ⟨[], _, v, rfl, rfl⟩
    have oc : Occurs hf a (.value y v) a := .value (i.has (Or.inl hn)) ev
    refine ⟨_, hA.effect hn nx oc, i.effect hn nx oc, ?_⟩
    exact S.move (by rw [h]; intros; simp) (by rw [h]; simp) (by rw [h]; intros; simp) ⟨_, _, rfl, v, rfl, rfl⟩
  | @lock t j m k h hi free =>
    have hp := S.pc t
    rw [h] at hp
    refine ⟨a, hA, i, ?_⟩
    have hnt : ∀ u, w.owner j = some u → False := by intro u hu; rw [free] at hu; cases hu
    refine ⟨S.len, S.id, ?_, ?_, ?_, ?_⟩
    · intro i' hi'
      simp only [World.at, World.own] at hi'
      split at hi'
      · cases hi'
      · exact S.free i' hi'
    · intro i' u hu
      simp only [World.at, World.own] at hu ⊢
      split at hu
      · rename_i e; subst e; cases hu
        exact ⟨m, body m, k, by simp⟩
      · obtain ⟨m', q, k', e⟩ := S.owned i' u hu
        have ne : u ≠ t := by intro e2; rw [e2, h] at e; cases e
        exact ⟨m', q, k', by simp only [if_neg ne]; exact e⟩
    · intro u hu
      have e := S.idOwned u hu
      have ne : u ≠ t := by
        intro e2; rw [e2, h] at e
        rcases e with e | ⟨n, e⟩ <;> cases e
      simp only [World.at, World.own, if_neg ne]
      exact e
    · intro u
      by_cases e : u = t
      · subst e
        simp only [World.at, World.own, if_true]
        refine ⟨hp, by simp, ?_⟩
        have hi16 : j < 16 := by rw [← S.len]; exact hi
        obtain ⟨s0, A, hs0, -⟩ := g.sh j hi16
        have : w.cache.shards[j]? = some s0 := by rw [S.free j free]; exact hs0
        exact ⟨s0, s0, hs0, this, .refl⟩
      · simp only [World.at, World.own, if_neg e]
        refine (S.pc u).mono (fun j' hj' => ⟨?_, rfl, rfl⟩) (fun h => h)
        show (if j' = j then some t else w.owner j') = some u
        split
        · rename_i e2; subst e2; exact absurd hj' (fun h => hnt u h)
        · exact hj'
  | @body t j m k β f next s s' b h hs e =>
    have hp := S.pc t
    rw [h] at hp
    obtain ⟨h1, h2, s0, s1, h3, h4, h5⟩ := hp
    rw [hs] at h4
    cases h4
    refine ⟨a, hA, i, ?_⟩
    refine ⟨by simp only [World.at, setShard, List.length_set]; exact S.len, S.id, ?_, ?_, ?_, ?_⟩
    · intro i' hi'
      have ne : i' ≠ j := by intro e2; subst e2; rw [show w.owner i' = none from hi'] at h2; cases h2
      show (setShard w.cache j s').shards[i']? = _
      rw [setShard_ne _ _ ne]
      exact S.free i' hi'
    · intro i' u hu
      obtain ⟨m', q, k', e'⟩ := S.owned i' u hu
      by_cases e2 : u = t
      · subst e2
        rw [h] at e'
        cases e'
        exact ⟨m, next b, k, by simp [World.at]⟩
      · exact ⟨m', q, k', by simp only [World.at, if_neg e2]; exact e'⟩
    · intro u hu
      have e' := S.idOwned u hu
      have ne : u ≠ t := by
        intro e2; rw [e2, h] at e'
        rcases e' with e' | ⟨n, e'⟩ <;> cases e'
      simp only [World.at, if_neg ne]
      exact e'
    · intro u
      by_cases e2 : u = t
      · subst e2
        simp only [World.at, if_true]
        exact ⟨h1, h2, s0, s', h3, setShard_eq _ _ hs, h5.step e⟩
      · simp only [World.at, if_neg e2]
        refine (S.pc u).mono (fun j' hj' => ⟨hj', ?_, rfl⟩) (fun h => h)
        refine setShard_ne _ _ ?_
        intro e3
        subst e3
        rw [hj'] at h2
        cases h2
        exact e2 rfl
  | @unlock t j m k r h =>
    have hp := S.pc t
    rw [h] at hp
    obtain ⟨⟨c, es, hn, rd⟩, h2, s0, s1, h3, h4, h5⟩ := hp
    obtain ⟨s2, r', e, a', hr, nx, oc, hc, hid, hthen, htr⟩ := i.section hH hlen hn rd h3
    have hrun := h5.run
    rw [hI, hr] at hrun
    cases hrun
    refine ⟨_, hA.effect hn nx oc, i.effect hn nx oc, ?_⟩
    have hnow : a'.now = a.now := by cases oc <;> rfl
    have hcache : (a'.at t (some (c, es ++ [e]))).cache = setShard a.cache j s1 := hc
    refine ⟨S.len, by show w.cache.lastId = a'.lastId; rw [hid]; exact S.id, ?_, ?_, ?_, ?_⟩
    · intro i' hi'
      rw [hcache]
      show w.cache.shards[i']? = _
      by_cases e2 : i' = j
      · subst e2
        rw [setShard_eq _ _ h3]
        exact h4
      · rw [setShard_ne _ _ e2]
        refine S.free i' ?_
        simp only [World.at, World.own, if_neg e2] at hi'
        exact hi'
    · intro i' u hu
      simp only [World.at, World.own] at hu ⊢
      split at hu
      · cases hu
      · rename_i e2
        obtain ⟨m', q, k', e'⟩ := S.owned i' u hu
        have ne : u ≠ t := by intro e3; rw [e3, h] at e'; cases e'; exact e2 rfl
        exact ⟨m', q, k', by simp only [if_neg ne]; exact e'⟩
    · intro u hu
      have e' := S.idOwned u hu
      have ne : u ≠ t := by
        intro e2; rw [e2, h] at e'
        rcases e' with e' | ⟨n, e'⟩ <;> cases e'
      simp only [World.at, World.own, if_neg ne]
      exact e'
    · intro u
      by_cases e2 : u = t
      · subst e2
        simp only [World.at, World.own, Atom.at, if_true]
        cases hpr : proceed k r with
        | enter i' m' k' => rw [hpr] at hthen; exact ⟨_, _, rfl, hthen⟩
        | leave x => rw [hpr] at hthen; exact ⟨_, _, rfl, hthen⟩
        | _ => rw [hpr] at hthen; exact hthen.elim
      · simp only [World.at, World.own, Atom.at, if_neg e2, hnow]
        refine (S.pc u).mono (fun j' hj' => ?_) (fun h => h)
        have ne : j' ≠ j := by
          intro e3
          subst e3
          rw [hj'] at h2
          cases h2
          exact e2 rfl
        refine ⟨?_, rfl, ?_⟩
        · show (if j' = j then none else w.owner j') = some u
          rw [if_neg ne]; exact hj'
        · show a'.cache.shards[j']? = _
          rw [hc, setShard_ne _ _ ne]
  | @idLock t h free =>
    have hp := S.pc t
    rw [h] at hp
    refine ⟨a, hA, i, S.len, S.id, S.free, ?_, ?_, ?_⟩
    · intro i' u hu
      obtain ⟨m', q, k', e'⟩ := S.owned i' u hu
      have ne : u ≠ t := by intro e3; rw [e3, h] at e'; cases e'
      exact ⟨m', q, k', by simp only [World.at, if_neg ne]; exact e'⟩
    · intro u hu
      have : u = t := by
        have hu : some t = some u := hu
        cases hu; rfl
      subst this
      exact Or.inl (by simp [World.at])
    · intro u
      by_cases e2 : u = t
      · subst e2
        simp only [World.at, if_true]
        exact ⟨hp, rfl⟩
      · simp only [World.at, if_neg e2]
        exact (S.pc u).mono (fun j hj => ⟨hj, rfl, rfl⟩) (fun h => by rw [free] at h; cases h)
  | @idNext t h =>
    have hp := S.pc t
    rw [h] at hp
    obtain ⟨hn, ho⟩ := hp
    have nx : Next .newId [] (.id (a.lastId + 1)) := ⟨[], _, _, rfl, rfl⟩
    refine ⟨_, hA.effect hn nx .id, i.effect hn nx .id, S.len, ?_, S.free, ?_, ?_, ?_⟩
    · show w.cache.lastId + 1 = a.lastId + 1
      rw [S.id]
    · intro i' u hu
      obtain ⟨m', q, k', e'⟩ := S.owned i' u hu
      have ne : u ≠ t := by intro e3; rw [e3, h] at e'; cases e'
      exact ⟨m', q, k', by simp only [World.at, if_neg ne]; exact e'⟩
    · intro u hu
      have hu : w.idOwner = some u := hu
      rw [ho] at hu
      cases hu
      exact Or.inr ⟨w.cache.lastId + 1, by simp only [World.at, if_true]⟩
    · intro u
      by_cases e2 : u = t
      · subst e2
        simp only [World.at, Atom.at, if_true]
        exact ⟨by rw [S.id]; rfl, ho⟩
      · simp only [World.at, Atom.at, if_neg e2]
        exact (S.pc u).mono (fun j hj => ⟨hj, rfl, rfl⟩) (fun h => h)
  | @idUnlock t n h =>
    have hp := S.pc t
    rw [h] at hp
    obtain ⟨hn, ho⟩ := hp
    refine ⟨a, hA, i, S.len, S.id, S.free, ?_, ?_, ?_⟩
    · intro i' u hu
      obtain ⟨m', q, k', e'⟩ := S.owned i' u hu
      have ne : u ≠ t := by intro e3; rw [e3, h] at e'; cases e'
      exact ⟨m', q, k', by simp only [World.at, if_neg ne]; exact e'⟩
    · intro u hu
      cases hu
    · intro u
      by_cases e2 : u = t
      · subst e2
        simp only [World.at, if_true]
        exact ⟨_, _, hn, n, rfl, rfl⟩
      · simp only [World.at, if_neg e2]
        refine (S.pc u).mono (fun j hj => ⟨hj, rfl, rfl⟩) (fun h => ?_)
        rw [ho] at h
        cases h
        exact absurd rfl e2

theorem Sim.call (S : Sim hf body w a) (i : Inv hf capacity a H) (hA : Atomic hf capacity a H) {t : Tid} {c : Call} {w' : World}
    (s : Step hf body w (some (.call t c)) w') (p : Permitted H c) :
    ∃ a', Atomic hf capacity a' (.call t c :: H) ∧ Inv hf capacity a' (.call t c :: H) ∧ Sim hf body w' a' := by
  cases s with
  | call c h =>
    have hp := S.pc t
    rw [h] at hp
    have hn : a.now t = none := hp
    refine ⟨_, hA.call hn, i.call hn p, ?_⟩
    refine S.move (by rw [h]; intros; simp) (by rw [h]; simp) (by rw [h]; intros; simp) ?_
    cases c with
    | insert k v ch d => exact ⟨rfl, k, rfl⟩
    | lookup k => exact ⟨rfl, k, rfl⟩
    | erase k => exact ⟨rfl, k, rfl⟩
    | release y => rfl
    | value y => rfl
    | newId => rfl
    | prune => exact ⟨_, _, rfl, .prune (i := 0) (by decide)⟩
    | totalCharge => exact ⟨_, _, rfl, .charge (i := 0) (by decide) (fun _ => 0)⟩

theorem Sim.ret (S : Sim hf body w a) (i : Inv hf capacity a H) (hA : Atomic hf capacity a H) {t : Tid} {x : Res} {w' : World}
    (s : Step hf body w (some (.ret t x)) w') :
    ∃ a', Atomic hf capacity a' (.ret t x :: H) ∧ Inv hf capacity a' (.ret t x :: H) ∧ Sim hf body w' a' := by
  cases s with
  | ret h =>
    have hp := S.pc t
    rw [h] at hp
    obtain ⟨c, es, hn, hd⟩ := hp
    refine ⟨_, hA.ret hn hd, i.ret hn hd, ?_⟩
    exact S.move (by rw [h]; intros; simp) (by rw [h]; simp) (by rw [h]; intros; simp) rfl

/-- Every run of the shared cache is a run of the atomic cache. -/
theorem Run.sim (hH : HashFn hf) (hI : Implements body) (hS : Steady body) (r : Run hf body capacity w H)
    (hlen : H.length < 2 ^ 31) : ∃ a, Atomic hf capacity a H ∧ Inv hf capacity a H ∧ Sim hf body w a := by
  induction r with
  | init h => exact ⟨_, .init h, Inv.init h, Sim.init h⟩
  | internal r s ih =>
    obtain ⟨a, hA, i, S⟩ := ih hlen
    exact S.internal hH hI hS i hA hlen s
  | call r s p ih =>
    obtain ⟨a, hA, i, S⟩ := ih (by simp at hlen; omega)
    exact S.call i hA s p
  | ret r s ih =>
    obtain ⟨a, hA, i, S⟩ := ih (by simp at hlen; omega)
    exact S.ret i hA s

end CacheConc
end Lsmdb
