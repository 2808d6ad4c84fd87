import Verif.Proof.CacheConc10

/-!
# C76 to C78: the cache used by many threads

`Run hf body capacity w H`: some number of threads use a new cache; the clients follow the rules of `Permitted`; `H` are the calls and
returns so far and `w` is the state of the machine.  Threads interleave at every step, also inside of the critical sections.  The
theorems hold for every way `body` to cut the bodies of the methods into steps (`Implements`, `Steady`, `Recorded`); `code` cuts them
at every statement, and the examples show that it satisfies the conditions.
-/

namespace Lsmdb
namespace CacheConc
open Cache Spec Props

variable {hf : Slice → M UInt32} {capacity : UInt64} {H : Hist} {body : Method → Prog Shard MRes} {w : World}

/-! ## C76 -/

/-- C76: every history of calls and returns is one of the atomic cache, in which each call takes effect at one moment between its call
and its return (`Prune` and `TotalCharge` at one moment per shard), by the sequential meaning `cstep` of the calls, which the
properties C26 to C37 are about.  When no call is in progress the state of the cache is that of the atomic cache, and exactly the
references that clients got and did not give back are outstanding. -/
theorem C76_linearizable (hH : HashFn hf) (hI : Implements body) (hS : Steady body) (r : Run hf body capacity w H)
    (hlen : H.length < 2 ^ 31) :
    ∃ a, Atomic hf capacity a H ∧ Reach hf capacity a.cache a.tr ∧
      (Quiet w → w.cache.shards = a.cache.shards ∧ w.cache.lastId = a.lastId ∧
        ∀ h, outstanding a.tr h = got H h - begun H h) := by
  obtain ⟨a, A, i, S⟩ := r.sim hH hI hS hlen
  refine ⟨a, A, i.reach, ?_⟩
  intro q
  have hnow : ∀ t, a.now t = none := by
    intro t
    have := S.pc t
    rw [q t] at this
    exact this
  have zero : ∀ {W : TState → Nat} {n}, Total a.now W n → W none = 0 → n = 0 := by
    rintro W n ⟨L, -, -, hs⟩ h0
    rw [← hs]
    simp only [hnow, h0]
    clear hs
    induction L with
    | nil => rfl
    | cons x L ih => simp only [List.map_cons, List.sum_cons, ih]
  refine ⟨?_, S.id, ?_⟩
  · apply List.ext_getElem?
    intro j
    refine S.free j ?_
    cases ho : w.owner j with
    | none => rfl
    | some t =>
      obtain ⟨m, p, k, hp⟩ := S.owned j t ho
      rw [q t] at hp
      cases hp
  · intro h
    obtain ⟨n, T, h1⟩ := i.got h
    obtain ⟨m, T', h2⟩ := i.rel h
    have := zero T rfl
    have := zero T' rfl
    unfold outstanding
    omega

/-- C76, handles: there is one assignment of keys and values to handles such that every `Insert` returns a handle of what it
inserted, every `Lookup` returns nothing or a handle of its key, and every `Value` returns the value of its handle; and what is
assigned to a handle is what some call of `Insert` was given. -/
theorem C76_handles (hH : HashFn hf) (hI : Implements body) (hS : Steady body) (r : Run hf body capacity w H)
    (hlen : H.length < 2 ^ 31) :
    ∃ info : Handle → Option CInfo,
      (∀ h i, info h = some i → ∃ t k v ch d, Ev.call t (.insert k v ch d) ∈ H ∧ i = ⟨k.bytes, v, ch, d⟩) ∧
      (∀ k v ch d H0 x, Returned H (.insert k v ch d) H0 x → ∃ h, x = .handle (some h) ∧ info h = some ⟨k.bytes, v, ch, d⟩) ∧
      (∀ k H0 x, Returned H (.lookup k) H0 x →
        x = .handle none ∨ ∃ h i, x = .handle (some h) ∧ info h = some i ∧ i.key = k.bytes) ∧
      (∀ h H0 x, Returned H (.value h) H0 x → ∃ i, info h = some i ∧ x = .value i.value) := by
  obtain ⟨a, A, -, -⟩ := r.sim hH hI hS hlen
  have f := A.facts hH
  exact ⟨inserted a.tr, f.origin, fun k v ch d H0 x hr => f.ret _ _ _ hr, fun k H0 x hr => f.ret _ _ _ hr,
    fun h H0 x hr => f.ret _ _ _ hr⟩

/-- C76, never stale: once an `Insert` or `Erase` of the key, begun when some client had already got the handle, has returned, no
`Lookup` of the key begun after that returns the handle. -/
theorem C76_not_stale (hH : HashFn hf) (hI : Implements body) (hS : Steady body) (r : Run hf body capacity w H)
    (hlen : H.length < 2 ^ 31) {k : Slice} {H0 : Hist} {x : Res} {h : Handle} (hr : Returned H (.lookup k) H0 x)
    (hs : Stale H0 k.bytes h) : x ≠ .handle (some h) := by
  obtain ⟨a, A, -, -⟩ := r.sim hH hI hS hlen
  exact (A.facts hH).retStale _ _ _ _ hr hs

/-- C76, new handles: no two calls of `Insert` return the same handle. -/
theorem C76_insert_distinct (hH : HashFn hf) (hI : Implements body) (hS : Steady body) (r : Run hf body capacity w H)
    (hlen : H.length < 2 ^ 31) : (newHandles H).Nodup := by
  obtain ⟨a, A, -, -⟩ := r.sim hH hI hS hlen
  exact (A.uniq hH).nodup

/-- C76, ids: no two calls of `NewId` return the same id, however many threads call it. -/
theorem C76_ids_distinct (hH : HashFn hf) (hI : Implements body) (hS : Steady body) (r : Run hf body capacity w H)
    (hlen : H.length < 2 ^ 31) : (newIds H).Nodup := by
  obtain ⟨a, A, -, -⟩ := r.sim hH hI hS hlen
  exact (A.uniqId (by omega)).nodup

/-- C76, deleters: at every moment, also in the middle of calls, the deleter of an entry has run at most once, and not at all while
a client has a reference that it has not begun to give back. -/
theorem C76_deleter (hH : HashFn hf) (hI : Implements body) (hS : Steady body) (hR : Recorded body)
    (r : Run hf body capacity w H) (hlen : H.length < 2 ^ 31) (h : Handle) :
    (deletions w.cache.shards h).length ≤ 1 ∧ (begun H h < got H h → deletions w.cache.shards h = []) := by
  obtain ⟨a, A, i, S⟩ := r.sim hH hI hS hlen
  obtain ⟨a', i', hp⟩ := S.deletions hH hI hR i hlen h
  refine ⟨Nat.le_trans hp.length_le (C28_at_most_once hH i'.reach h).1, fun hb => ?_⟩
  obtain ⟨-, -, -, hd⟩ := C27_held_handle hH i'.reach (i'.outstanding_pos hb)
  rw [hd] at hp
  exact List.prefix_nil.mp hp

/-- C76, deleters: when no call is in progress, the deleter of an entry has run if and only if all references to it were given back
and it is no longer in the cache. -/
theorem C76_deleter_quiet (hH : HashFn hf) (hI : Implements body) (hS : Steady body) (r : Run hf body capacity w H)
    (hlen : H.length < 2 ^ 31) (q : Quiet w) {h : Handle} (hn : 0 < got H h) :
    (deletions w.cache.shards h).length = 1 ↔ begun H h = got H h ∧ ¬ Cached hf w.cache h := by
  obtain ⟨a, A, hr, hq⟩ := C76_linearizable hH hI hS r hlen
  obtain ⟨h1, h2, h3⟩ := hq q
  have hle : begun H h ≤ got H h := by
    obtain ⟨a2, A2, i, S2⟩ := r.sim hH hI hS hlen
    exact i.bal h
  have hc : Cached hf w.cache h ↔ Cached hf a.cache h := by
    have : ∀ (c c' : Sharded), c.shards = c'.shards → Cached hf c h → Cached hf c' h := by
      rintro c c' hcc ⟨k, c2, hk, e⟩
      refine ⟨k, ⟨c2.shards, c'.lastId⟩, hk, ?_⟩
      cases c with
      | mk L n =>
        cases c' with
        | mk L' n' =>
          cases (show L = L' from hcc)
          simp only [Sharded.Lookup, getShard, bind, Except.bind] at e ⊢
          cases e1 : hf k with
          | error y => rw [e1] at e; cases e
          | ok hash =>
            rw [e1] at e
            simp only [] at e ⊢
            cases e2 : L[shardIndex hash]? with
            | none => rw [e2] at e; cases e
            | some s =>
              rw [e2] at e
              simp only [] at e ⊢
              cases e3 : Cache.Lookup s k hash with
              | error y => rw [e3] at e; cases e
              | ok y =>
                rw [e3] at e
                injection e with e
                injection e with e4 e5
                subst e4
                show Except.ok (_, y.2.map fun a => (⟨shardIndex hash, a⟩ : Handle)) = _
                rw [e5]
                rfl
    exact ⟨this _ _ h1, this _ _ h1.symm⟩
  rw [h1, C28_exactly_when hH hr h, h3 h, hc]
  have hins : inserted a.tr h ≠ none := (A.facts hH).got h hn
  constructor
  · rintro ⟨-, h4, h5⟩; exact ⟨by omega, h5⟩
  · rintro ⟨h4, h5⟩; exact ⟨hins, by omega, h5⟩

/-! ## C77 -/

/-- C77 is false in general: there is a run with two threads in which `TotalCharge` returns 0 although at every moment from its call
to its return some shard holds entries of total charge 10. -/
theorem C77_torn (hI : Implements body) :
    ∃ w0 H0 w1 H1, Run HashSlice body 1600 w0 H0 ∧ Quiet w0 ∧
      Path HashSlice body (fun w => ∃ (i : Nat) (s : Shard), w.cache.shards[i]? = some s ∧ Cache.TotalCharge s = 10) w0 H0 w1
        (.ret 1 (.charge 0) :: H1) ∧ pendingAt H1 1 = some (.totalCharge, H0) := torn hI

/-- C77 for calls that no `Insert`, `Erase` or `Prune` overlaps: `TotalCharge` returns the total charge at the time of its return, which
is the sum of the charges of the entries in the cache (modulo 2^64).  Missing: calls that such a call overlaps, for which the claim is
false (`C77_torn`). -/
theorem C77_undisturbed_partial (hH : HashFn hf) (hI : Implements body) (hS : Steady body) (r : Run hf body capacity w H)
    (hlen : H.length < 2 ^ 31) {t : Tid} {x : Res} {w' : World} (s : Step hf body w (some (.ret t x)) w')
    (hp : pending H t = some .totalCharge) (hu : Undisturbed H t) :
    ∃ a, Atomic hf capacity a H ∧ x = .charge (Sharded.TotalCharge a.cache) ∧
      (∃ n, ChargeSum a.tr (Cached hf a.cache) n ∧ x = .charge (UInt64.ofNat n)) ∧
      (Quiet w' → x = .charge (Sharded.TotalCharge w'.cache)) := by
  obtain ⟨a, A, i, S⟩ := r.sim hH hI hS hlen
  cases s with
  | ret h =>
    have hpc := S.pc t
    rw [h] at hpc
    obtain ⟨c, es, hn, d⟩ := hpc
    have : c = .totalCharge := by
      have h1 := A.pend t
      rw [hp, hn] at h1
      injection h1 with h1
      exact h1.symm
    subst this
    have hx := A.total_exact hH hn d hu
    refine ⟨a, A, hx, ?_, ?_⟩
    · obtain ⟨n, h1, h2⟩ := C29_total_charge hH A.reach
      exact ⟨n, h1, by rw [hx, h2]⟩
    · intro q
      have : w.cache.shards = a.cache.shards := by
        apply List.ext_getElem?
        intro j
        refine S.free j ?_
        cases ho : w.owner j with
        | none => rfl
        | some u =>
          obtain ⟨m, p, k, hu'⟩ := S.owned j u ho
          by_cases e : u = t
          · subst e; rw [h] at hu'; cases hu'
          · have := q u
            simp only [World.at, if_neg e] at this
            rw [this] at hu'; cases hu'
      rw [hx]
      unfold Sharded.TotalCharge
      show _ = Res.charge (w.cache.shards.foldl _ 0)
      rw [this]

/-! ## C78 -/

/-- C78: at no moment is the next step of a thread undefined behaviour or a failed assertion. -/
theorem C78_no_fault (hH : HashFn hf) (hI : Implements body) (hS : Steady body) (r : Run hf body capacity w H)
    (hlen : H.length < 2 ^ 31) : ¬ Faulty hf w := by
  obtain ⟨a, A, i, S⟩ := r.sim hH hI hS hlen
  exact S.not_faulty hH hI hS i hlen

/-- C78: the threads never block each other for good: while a call is in progress, some thread can take a step of a call. -/
theorem C78_no_deadlock (hH : HashFn hf) (hI : Implements body) (hS : Steady body) (r : Run hf body capacity w H)
    (hlen : H.length < 2 ^ 31) (q : ¬ Quiet w) : ∃ e w', Step hf body w e w' ∧ ∀ t c, e ≠ some (.call t c) := by
  obtain ⟨a, A, i, S⟩ := r.sim hH hI hS hlen
  obtain ⟨t, h⟩ := Classical.not_forall.mp q
  exact S.moves hH hI hS i hlen h

/-- C78: from any moment on, however the threads are scheduled, the calls in progress take only finitely many steps. -/
theorem C78_terminates (r : Run hf body capacity w H) :
    ¬ ∃ f : Nat → World, f 0 = w ∧ ∀ n, ∃ e, Step hf body (f n) e (f (n + 1)) ∧ ∀ t c, e ≠ some (.call t c) := by
  rintro ⟨f, rfl, hs⟩
  obtain ⟨N, hN⟩ := r.finite
  exact no_endless hN hs

/-! ## The hypotheses are met -/

/-- The bodies cut at every statement satisfy the conditions. -/
example : Implements code ∧ Steady code ∧ Recorded code := ⟨code_implements, code_steady, code_recorded⟩

/-- The hash function of the program satisfies the condition. -/
example : HashFn HashSlice := HashSlice_HashFn

/-- With these there is a run of two threads with overlapping calls, eight events long; the theorems apply to it. -/
example : ∃ w H, Run HashSlice code 1600 w H ∧ H.length = 8 ∧ ¬ Faulty HashSlice w := by
  obtain ⟨w0, w1, r, -, p⟩ := torn_run code_implements
  exact ⟨w1, _, p.run r, rfl, C78_no_fault HashSlice_HashFn code_implements code_steady (p.run r) (by decide)⟩

/-- A run with a `Lookup` that returns after the entry it asks for was inserted, and then erased by another thread: the hypotheses of
`C76_not_stale` are met. -/
example : ∃ w H H0 x, Run HashSlice code 1600 w H ∧ Returned H (.lookup keyA) H0 x ∧ Stale H0 keyA.bytes ⟨12, 0⟩ := by
  obtain ⟨w, r⟩ := stale_run code_implements
  exact ⟨w, _, _, _, r, .now rfl, .erase keyA, tornBefore, .unit, .now rfl, rfl, by decide⟩

/-- A run with a `TotalCharge` that returns 10 while nothing else goes on: the hypotheses of `C77_undisturbed_partial` are met. -/
example : ∃ w H w', Run HashSlice code 1600 w H ∧ Step HashSlice code w (some (.ret 1 (.charge 10))) w' ∧
    pending H 1 = some .totalCharge ∧ Undisturbed H 1 := by
  obtain ⟨w, w', r, s⟩ := total_run code_implements
  refine ⟨w, _, w', r, s, rfl, ?_⟩
  show ∀ v c', pending tornBefore v = some c' → ¬ Changes c'
  intro v c' h
  simp only [tornBefore, pending] at h
  split at h <;> cases h

end CacheConc
end Lsmdb
