import Verif.Proof.SchedSync
import Verif.Proof.CacheSync4
import Verif.Props.Schedule

/-!
# C108: safe publication

What one thread did before it gave an object to the library happens before (in the sense of the C++ memory model, `Spec/HappensBefore`)
what another thread does after it got the object from the library.
-/

namespace Lsmdb
namespace Sched
variable {Job : Type}

/-- C108, `Schedule`: the call happens before the run of the function, whichever thread called and whoever started the background
thread.  So the function sees what the caller wrote before the call. -/
theorem C108_schedule (x : Exec Job) {i j t id : Nat} {job job' : Job} (h : x.ev i = some (.call t id job))
    (h' : x.ev j = some (.run id job')) : HappensBefore x.sync i j := call_before_run x h h'

/-- C108, `Schedule`: any two accesses to the queue or to the flag, by whichever threads, are ordered: they are no data race. -/
theorem C108_schedule_accesses (x : Exec Job) {i j t u : Nat} {v : Var} (hij : i < j) (hi : x.who i = some t) (hj : x.who j = some u)
    (ai : WritesVar v (x.state i) t ∨ ReadsVar v (x.state i) t) (aj : WritesVar v (x.state j) u ∨ ReadsVar v (x.state j) u) :
    HappensBefore x.sync i j :=
  ordered x hij hi hj ((exec_ctl x i).crit_mutex (ai.elim write_crit read_crit)) ((exec_ctl x j).crit_mutex (aj.elim write_crit read_crit))

/-- The execution `demo`: thread 1 schedules a function, the new background thread runs it. -/
def demoExec : Exec Nat :=
  ⟨fun i => (demo i).1, fun i => (demo i).2.1, fun i => (demo i).2.2, fun i => 16 ≤ i, rfl, fun i => by
    by_cases hi : 16 ≤ i
    · left; simp only [demo_end i hi, demo_end (i + 1) (by omega), and_self, and_true]; exact hi
    · right; exact ⟨hi, demo_step i (by omega)⟩⟩

/-- The hypotheses of `C108_schedule` are met: the call is step 0, the run is step 11. -/
example : HappensBefore demoExec.sync 0 11 := C108_schedule demoExec (t := 1) (id := 0) (job := 7) (job' := 7) rfl rfl

/-- Not everything is ordered: the call is made by another thread than the run, and the return of the call, step 6, is not before the run. -/
example : ¬ HappensBefore demoExec.sync 6 11 := by
  have key : ∀ i j, HappensBefore demoExec.sync i j → i = 6 → j = 7 ∨ j = 8 ∨ j = 9 ∨ j = 10 ∨ j = 11 → False := by
    intro i j h
    induction h with
    | @program i j t h hi hj =>
      rintro rfl hc
      have : t = 1 := by injection hi with hi; exact hi.symm
      subst this
      rcases hc with rfl | rfl | rfl | rfl | rfl <;> cases hj
    | @mutex i j m h hi hj =>
      rintro rfl hc
      exact hi.1 rfl
    | @start i j t h hi hj =>
      rintro rfl hc
      exact nomatch hi.2.1
    | @trans i j k h1 h2 ih1 ih2 =>
      rintro rfl hc
      have l1 := h1.lt
      have l2 := h2.lt
      exact ih1 rfl (by omega)
  exact fun h => key _ _ h rfl (by omega)

/-- The hypotheses of `C108_schedule_accesses` are met: thread 1 pushes in step 4, the background thread pops in step 9. -/
example : demoExec.who 4 = some 1 ∧ demoExec.who 9 = some 0 ∧ WritesVar .queue (demoExec.state 4) 1 ∧
    WritesVar .queue (demoExec.state 9) 0 := by
  refine ⟨rfl, rfl, ⟨demoExec.state 4, none, demoExec.state 5, rfl, demo_step 4 (by decide), ?_⟩,
    ⟨demoExec.state 9, none, demoExec.state 10, rfl, demo_step 9 (by decide), ?_⟩⟩
  · exact nofun
  · exact nofun

end Sched

namespace CacheConc
open Cache Spec Props
variable {hf : Slice → M UInt32} {capacity : UInt64} {N : Nat}

/-- C108, the cache: for every entry there is a call of `Insert`, with the value of the entry, that happens before every return of a
handle to the entry, from `Insert` or `Lookup`, in whichever thread, and before the deleter of the entry runs.  So who gets the handle,
and the deleter, see what the inserting thread wrote before the call. -/
theorem C108_cache (hH : HashFn hf) (x : Exec hf capacity N) (hlen : (hist x.ev N).length < 2 ^ 31 - 1) :
    ∃ made : Handle → Nat, ∀ j u h, j < N → x.ev j = some (.ret u (.handle (some h))) →
      (∃ t k v ch d, x.ev (made h) = some (.call t (.insert k v ch d)) ∧ Sharded.Value (x.w j).cache h = .ok v) ∧
      HappensBefore x.sync (made h) j ∧
      ∀ k, k < N → x.Deletes k h → HappensBefore x.sync (made h) k := x.publication hH hlen

/-- C108, the cache: every call of `Release` for a handle, in whichever thread, happens before the step that runs the deleter of the
entry.  So the deleter sees what the clients did with the value before they gave the handle back, and no client can call `Release` for it later. -/
theorem C108_cache_release (hH : HashFn hf) (x : Exec hf capacity N) (hlen : (hist x.ev N).length < 2 ^ 31) {i k : Nat} {u : Tid} {h : Handle}
    (hi : i < N) (hk : k < N) (hd : x.Deletes k h) (he : x.ev i = some (.call u (.release h))) : HappensBefore x.sync i k :=
  x.release_before hH hlen hk hd hi he

/-- C108, the cache: any two steps that change the same shard are ordered. -/
theorem C108_cache_shards (hH : HashFn hf) (x : Exec hf capacity N) (hlen : (hist x.ev N).length < 2 ^ 31) {i j s : Nat} (hij : i < j) (hj : j < N)
    (hi : (x.w (i + 1)).cache.shards[s]? ≠ (x.w i).cache.shards[s]?) (hj' : (x.w (j + 1)).cache.shards[s]? ≠ (x.w j).cache.shards[s]?) :
    HappensBefore x.sync i j := by
  have key : ∀ n, n < N → (x.w (n + 1)).cache.shards[s]? ≠ (x.w n).cache.shards[s]? → ∃ t, x.sync.thread n t ∧ (x.w n).holder (some s) = some t := by
    intro n hn hc
    rcases shards_step (x.bodies n (by omega)) (x.step n hn) with hs | ⟨t, i, m, p, k, s1, s2, h3, h4, h5, h6, -⟩
    · rw [hs] at hc; exact absurd rfl hc
    · by_cases hi : s = i
      · subst hi
        exact ⟨t, h4, (x.own hH hlen (Nat.le_of_lt hn)).1 _ _ _ _ _ h3⟩
      · rw [h6, List.getElem?_set_ne (Ne.symm hi)] at hc
        exact absurd rfl hc
  obtain ⟨t, h1, h2⟩ := key i (by omega) hi
  obtain ⟨u, h3, h4⟩ := key j hj hj'
  exact x.ordered hH hlen hij hj h1 h3 h2 h4

/-- There is an execution in which thread 2 inserts an entry and thread 1 finds it, both release it, and the deleter runs. -/
example : ∃ (N : Nat) (x : Exec HashSlice 1600 N) (j i k : Nat), (hist x.ev N).length < 2 ^ 31 - 1 ∧ j < N ∧ i < N ∧ k < N ∧
    x.ev j = some (.ret 1 (.handle (some ⟨12, 0⟩))) ∧ x.ev i = some (.call 2 (.release ⟨12, 0⟩)) ∧ x.Deletes k ⟨12, 0⟩ ∧
    HappensBefore x.sync i k := by
  obtain ⟨w, r, hd⟩ := shared_run
  obtain ⟨N, x, rfl, hh⟩ := r.exec
  have hl : (hist x.ev N).length = 10 := by rw [hh]; rfl
  obtain ⟨j, hj, ej⟩ := mem_hist (ev := x.ev) (e := .ret 1 (.handle (some ⟨12, 0⟩))) (n := N) (by rw [hh]; simp [sharedHist])
  obtain ⟨i, hi, ei⟩ := mem_hist (ev := x.ev) (e := .call 2 (.release ⟨12, 0⟩)) (n := N) (by rw [hh]; simp [sharedHist])
  obtain ⟨k, hk, dk⟩ := x.deletes hd
  exact ⟨N, x, j, i, k, by omega, hj, hi, hk, ej, ei, dk, C108_cache_release HashSlice_HashFn x (by omega) hi hk dk ei⟩

end CacheConc
end Lsmdb
