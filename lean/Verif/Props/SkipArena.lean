import Verif.Proof.SkipArena4

/-!
# C85: a skip list in an arena it shares with others
-/

namespace Lsmdb
namespace SkipArena
open SkipList (Build IterOp Ptr Valid kMaxHeight)
open Spec
open SkipList (keyFn)

section
variable {K : Type} {cmp : K → K → Int} {sz : Nat} {b : Build}

/-- C85, construction: in an arena that has been used in any way before, the constructor does not fault; it throws only if `new[]` does. -/
theorem C85_construct (hsz : 0 < sz) (hb12 : nodeBytes sz kMaxHeight + 8 ≤ 2 ^ 64) {hist : List (Arena.Call × Option Nat)} {ar : Arena.State}
    {A : List Arena.Alloc} (he : EnvOK Arena.init hist) (hr : Arena.run Arena.init [] hist = .ok (ar, A)) (mem : Memory K) (k0 : K)
    (seed : UInt32) {new : Option Nat} (hnew : NewGood ar (nodeBytes sz kMaxHeight) new) :
    ∃ r, construct sz ar mem k0 seed new = .ok r ∧ (r = none → new = none) := by
  obtain ⟨ar', A', hr', hi, _, _⟩ := Arena.run_inv Arena.inv_init hist he
  rw [hr] at hr'
  cases hr'
  rcases sim_construct hsz hb12 hi mem k0 seed hnew with ⟨e, hn⟩ | ⟨s', α, log, e, _⟩
  · exact ⟨none, e, fun _ => hn⟩
  · exact ⟨some s', e, fun h => by cases h⟩

variable (hc : CmpOK cmp) (hsz : 0 < sz) (hb12 : nodeBytes sz kMaxHeight + 8 ≤ 2 ^ 64) (hb : b.line249 = false)
  {s : FL K} {A : List Arena.Alloc} {ks : List K} {node : Ptr} (h : ListReach sz cmp b s A ks node)
include hc hsz hb12 hb h

/-- C85, insertion: inserting a key that does not compare equal to one that was inserted reads and writes only memory of the list's own
nodes (no fault) and throws only if `new[]` does; then the key is not inserted and the list goes on with the keys it had (`ListReach`).  In
both cases the iterator stays where it is, and what the client stored in its own allocations is unchanged. -/
theorem C85_insert {k : K} (hk : ∀ k' ∈ ks, cmp k k' ≠ 0) {new : Option Nat} (hnew : InsertNew sz b s new) :
    ∃ done s', Insert sz cmp b s k new = .ok (done, s') ∧ (done = false → new = none) ∧
      ListReach sz cmp b s' A (if done then ks ++ [k] else ks) node ∧
      (∃ c, seenKey sz b s node = .ok c ∧ seenKey sz b s' node = .ok c) ∧
      ∀ x ∈ A, ∀ a n, Inside a n x.addr x.size → readAt s'.arena s'.mem a n = readAt s.arena s.mem a n := by
  obtain ⟨α, log, sl, k0, node0, hr⟩ := reach_rel hc hsz hb12 hb h
  obtain ⟨done, s', α', log', sl', e, hn, hr', hsame⟩ := rel_insert hc hsz hb12 hb hr hk hnew
  refine ⟨done, s', e, hn, ListReach.insert h hk hnew e, ⟨node0.map (keyFn k0 ks), rel_at hr, ?_⟩, hsame⟩
  rw [rel_at hr']
  congr 1
  cases done with
  | false => rfl
  | true =>
    rcases hr.nodeOK with rfl | ⟨y, rfl, hy⟩
    · rfl
    · have hv := (hr.q.inv.valid 0 y hy).2.1
      rw [hr.q.len] at hv
      simp only [if_true, Option.map_some, Option.some.injEq]
      exact keyFn_append k0 k ks (by omega)

/-- C85, lookup: `Contains` is right about the keys inserted, whatever else the arena was used for. -/
theorem C85_contains (k : K) : ∃ r, Contains sz cmp b s k = .ok r ∧ (r = true ↔ ∃ k' ∈ ks, cmp k k' = 0) := by
  obtain ⟨α, log, sl, k0, node0, hr⟩ := reach_rel hc hsz hb12 hb h
  obtain ⟨r, e, hs⟩ := SkipList.contains_ok hc b hr.q.inv hr.q.height hr.q.keysAre k
  exact ⟨r, sim_contains hr.sim hr.head e, hs⟩

/-- C85, iteration: an iterator, obtained at any time before, is at no key or at an inserted one, and each operation moves it where the
ordered set of the keys inserted by now says. -/
theorem C85_iter {o : IterOp K} (hp : IterPre (Valid node) o) :
    ∃ cur node' cur', seenKey sz b s node = .ok cur ∧ iter sz cmp b s node o = .ok node' ∧ seenKey sz b s node' = .ok cur' ∧
      (∀ k, cur = some k → k ∈ ks) ∧ IterSpec cmp ks cur o cur' := by
  obtain ⟨α, log, sl, k0, node0, hr⟩ := reach_rel hc hsz hb12 hb h
  obtain ⟨node', node0', e, hr', hs⟩ := rel_iter (b := b) hc hr hp
  refine ⟨_, node', _, rel_at hr, e, rel_at hr', ?_, hs⟩
  intro k hk
  rcases hr.nodeOK with rfl | ⟨y, rfl, hy⟩
  · cases hk
  · have hv := hr.q.inv.valid 0 y hy
    rw [hr.q.len] at hv
    simp only [Option.map_some, Option.some.injEq] at hk
    rw [← hk]
    exact keyFn_mem k0 ks (by omega) (by omega)

/-- C85, the others: allocating from the arena and storing into one's own allocation do not move the iterator (for `Contains` and the
operations see the other theorems, which hold in the state after). -/
theorem C85_undisturbed :
    (∀ c new p ar, 0 < c.bytes ∧ c.bytes + 8 ≤ 2 ^ 64 → NewGood s.arena c.bytes new → Arena.step s.arena c new = .ok (some (p, ar)) →
      seenKey sz b { s with arena := ar } node = seenKey sz b s node) ∧
    ∀ x ∈ A, ∀ a n o mem, Inside a n x.addr x.size → writeAt s.arena s.mem a n o = .ok mem →
      seenKey sz b { s with mem := mem } node = seenKey sz b s node := by
  obtain ⟨α, log, sl, k0, node0, hr⟩ := reach_rel hc hsz hb12 hb h
  refine ⟨?_, ?_⟩
  · intro c new p ar hcb hnew hstep
    rcases Arena.step_inv hr.sim.inv c new hcb hnew with ⟨e, _⟩ | ⟨p', ar', e, hi, _⟩
    · rw [hstep] at e; cases e
    · rw [hstep] at e; cases e
      have hr' : Rel sz cmp { s with arena := ar } (A ++ [⟨p, c.bytes, c.aligned⟩]) ks node α (log ++ [⟨p, c.bytes, c.aligned⟩]) sl k0 node0 :=
        ⟨sim_client_alloc hr.sim hstep hi, hr.head, hr.rnd, hr.quiet, hr.iter, hr.nodeOK⟩
      rw [rel_at hr, rel_at hr']
  · intro x hx a n o mem hin hw
    have hr' : Rel sz cmp { s with mem := mem } A ks node α log sl k0 node0 :=
      ⟨sim_client_write hr.sim hx hin hw, hr.head, hr.rnd, hr.quiet, hr.iter, hr.nodeOK⟩
    rw [rel_at hr, rel_at hr']

end

/-! ## A concrete case -/

/-- An arena from which 13 bytes were taken (so that it is not aligned), and a list with 4-byte keys in the same block; the client
inserts 50, stores into its 13 bytes, inserts 10 and then 30, whose `new[]` throws if one is needed (none is). -/
def exRun : M (Bool × Bool × Nat × List Nat) := do
  let cmp : Nat → Nat → Int := fun a b => (a : Int) - b
  let (ar, _) ← Arena.run Arena.init [] [(⟨13, false⟩, some 8000)]
  match ← construct 4 ar [] 0 0xdeadbeef none with
  | none => throw .nullDeref
  | some s =>
    let (_, s) ← Insert 4 cmp .release s 50 none
    let mem ← writeAt s.arena s.mem 8000 13 .other
    let s := { s with mem := mem }
    let (_, s) ← Insert 4 cmp .release s 10 none
    let (_, s) ← Insert 4 cmp .release s 30 none
    let it ← iter 4 cmp .release s none (.seek 11)
    let k1 ← iterKey 4 .release s it
    let it ← iter 4 cmp .release s it .next
    let k2 ← iterKey 4 .release s it
    return (← Contains 4 cmp .release s 50, ← Contains 4 cmp .release s 51, s.head, [k1, k2])

example : exRun = .ok (true, false, 8016, [30, 50]) := by decide +kernel

/-- The hypotheses can be met: the client took 13 bytes, constructed a list, inserted 50 and 10, and moved an iterator to 10. -/
example : ∃ (s : FL Nat) (p : Nat), ListReach 4 (fun a b : Nat => (a : Int) - b) .release s [⟨8000, 13, false⟩] [50, 10] (some p) ∧
    s.head = 8016 := by
  have h0 := ListReach.start (K := Nat) (sz := 4) (cmp := fun a b : Nat => (a : Int) - b) (b := .release) (hist := [(⟨13, false⟩, some 8000)])
    (ar := ⟨8013, 4083, [(8000, 4096)], 4104⟩) (A := [⟨8000, 13, false⟩]) (mem := []) (k0 := 0) (seed := 0xdeadbeef) (new := none) (by
      simp [EnvOK, NewOK, Arena.init, Arena.step, Arena.Allocate, Arena.AllocateFallback, Arena.AllocateNewBlock, Arena.kBlockSize, cassert,
        bind, Except.bind, pure, Except.pure]) rfl (by intro a h; cases h) rfl
  have h1 := ListReach.insert (k := 50) (new := none) h0 (by intro _ h; cases h) (by intro _ _ _ a h; cases h) rfl
  have h2 := ListReach.insert (k := 10) (new := none) h1 (by intro k h; cases h with | head => decide | tail _ h => cases h)
    (by intro _ _ _ a h; cases h) rfl
  have h3 := ListReach.op (o := .seekToFirst) h2 trivial rfl
  exact ⟨_, _, h3, rfl⟩

/-- `new[]` throws in the insertion of a key of 5000 bytes: the key is not there, and the list still works. -/
example : ((do
    let cmp : Nat → Nat → Int := fun a b => (a : Int) - b
    match ← construct 5000 Arena.init [] 0 0xdeadbeef (some 8000) with
    | none => throw Fault.nullDeref
    | some s =>
      let (d1, s) ← Insert 5000 cmp .release s 50 (some 16000)
      let (d2, s) ← Insert 5000 cmp .release s 10 none
      let (d3, s) ← Insert 5000 cmp .release s 30 (some 32000)
      return (d1, d2, d3, ← Contains 5000 cmp .release s 50, ← Contains 5000 cmp .release s 10, ← Contains 5000 cmp .release s 30)) : M _) =
    .ok (true, false, true, true, false, true) := by
  decide +kernel

end SkipArena
end Lsmdb
