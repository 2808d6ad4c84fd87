import Verif.Proof.CacheConc3

/-!
# The statements of the methods together are the methods
-/

namespace Lsmdb
namespace CacheConc
open Cache Spec

theorem run_bind {σ α β : Type} (p : Prog σ α) (g : α → Prog σ β) (s : σ) :
    (p.bind g).run s = (do let (s', b) ← p.run s; (g b).run s') := by
  induction p generalizing s with
  | done a => rfl
  | step f next ih =>
    simp only [Prog.bind, Prog.run]
    cases f s with
    | error e => rfl
    | ok x => exact ih x.2 x.1

theorem run_unref (a : Nat) (s : Shard) :
    (unrefCode a).run s = (do let (h, log) ← Unref s.heap s.log a; return ({ s with heap := h, log := log }, ())) := by
  simp only [unrefCode, Unref, Prog.run, bind, Except.bind]
  cases derefNode s.heap a with
  | error e => rfl
  | ok u =>
    simp only []
    cases cassert (decide (s.heap.refs a > 0)) with
    | error e => rfl
    | ok u =>
      simp only [pure, Except.pure]
      split
      · simp only [Prog.run, bind, Except.bind]
        cases cassert (!s.heap.inCache a) with
        | error e => rfl
        | ok u =>
          simp only []
          cases keyOf { s.heap with refs := upd s.heap.refs a (s.heap.refs a - 1) } a with
          | error e => rfl
          | ok k =>
            simp only []
            cases k.toString with
            | error e => rfl
            | ok k => rfl
      · split
        · simp only [Prog.run, bind, Except.bind, onHeap]
          cases LRU_Remove { s.heap with refs := upd s.heap.refs a (s.heap.refs a - 1) } (.node a) with
          | error e => rfl
          | ok h =>
            simp only [pure, Except.pure]
            cases LRU_Append h .lru (.node a) with
            | error e => rfl
            | ok h => rfl
        · rfl

theorem run_finishErase (x : Option Nat) (s : Shard) : (finishEraseCode x).run s = FinishErase s x := by
  cases x with
  | none => rfl
  | some a =>
    simp only [finishEraseCode, FinishErase, finishErase1, Prog.run, run_bind, run_unref, onHeap, bind, Except.bind]
    cases derefNode s.heap a with
    | error e => rfl
    | ok u =>
      simp only []
      cases cassert (s.heap.inCache a) with
      | error e => rfl
      | ok u =>
        simp only []
        cases LRU_Remove s.heap (.node a) with
        | error e => rfl
        | ok h =>
          simp only [pure, Except.pure]
          cases Unref { h with inCache := upd h.inCache a false } s.log a with
          | error e => rfl
          | ok p => rfl

theorem run_removeKey (k : Slice) (hash : UInt32) (s : Shard) : (removeKeyCode k hash).run s = removeKey s k hash := by
  simp only [removeKeyCode, removeKey, Prog.run, run_finishErase, bind, Except.bind]
  cases tableRemove s.heap s.tab k hash with
  | error e => rfl
  | ok p => rfl

theorem run_evictOne (old : Nat) (s : Shard) :
    (evictOneCode old).run s = (do let s ← evictOne s old; return (s, ())) := by
  simp only [evictOneCode, evictOne, Prog.run, run_bind, run_removeKey, bind, Except.bind]
  cases derefNode s.heap old with
  | error e => rfl
  | ok u =>
    simp only []
    cases cassert (decide (s.heap.refs old = 1)) with
    | error e => rfl
    | ok u =>
      simp only []
      cases keyOf s.heap old with
      | error e => rfl
      | ok k =>
        simp only [pure, Except.pure]
        cases removeKey s k (s.heap.hash old) with
        | error e => rfl
        | ok p =>
          simp only []
          cases cassert p.2 with
          | error e => rfl
          | ok u => rfl

/-- Both eviction loops. -/
def loopOf (over : Shard → Bool) : Nat → Shard → M Shard
  | fuel, s =>
    if over s = true ∧ s.heap.next .lru ≠ some .lru then
      match fuel with
      | 0 => .error .diverges
      | fuel + 1 => do
        let old ← deref s.heap (s.heap.next .lru)
        match old with
        | .node a => do
          let s ← evictOne s a
          loopOf over fuel s
        | _ => .error .assertFail
    else .ok s

theorem loopOf_evict (fuel : Nat) (s : Shard) : loopOf (fun s => decide (s.usage > s.capacity)) fuel s = evictLoop fuel s := by
  induction fuel generalizing s with
  | zero => unfold loopOf evictLoop; simp only [decide_eq_true_eq]
  | succ n ih => unfold loopOf evictLoop; simp only [decide_eq_true_eq, ih]; rfl

theorem loopOf_prune (fuel : Nat) (s : Shard) : loopOf (fun _ => true) fuel s = pruneLoop fuel s := by
  induction fuel generalizing s with
  | zero => unfold loopOf pruneLoop; simp only [true_and]
  | succ n ih => unfold loopOf pruneLoop; simp only [true_and, ih]; rfl

theorem run_evictLoop (over : Shard → Bool) (fuel : Nat) (s : Shard) :
    (evictLoopCode over fuel).run s = (do let s ← loopOf over fuel s; return (s, ())) := by
  induction fuel generalizing s with
  | zero =>
    unfold loopOf
    simp only [evictLoopCode, Prog.run, bind, Except.bind]
    by_cases hc : over s = true ∧ s.heap.next .lru ≠ some .lru
    · rw [if_pos hc, if_pos hc]
    · rw [if_neg hc, if_neg hc]; rfl
  | succ n ih =>
    unfold loopOf
    simp only [evictLoopCode, Prog.run, loopTest, bind, Except.bind]
    by_cases hc : over s = true ∧ s.heap.next .lru ≠ some .lru
    · rw [if_pos hc, if_pos hc]
      cases deref s.heap (s.heap.next .lru) with
      | error e => rfl
      | ok p =>
        cases p with
        | node a =>
          simp only [pure, Except.pure, run_bind, run_evictOne, bind, Except.bind]
          cases evictOne s a with
          | error e => rfl
          | ok s' => exact ih s'
        | lru => rfl
        | inUse => rfl
    · rw [if_neg hc, if_neg hc]; rfl

theorem run_insertCached (a : Nat) (s : Shard) :
    (insertCachedCode a).run s = (do let s ← insertCached s a; return (s, ())) := by
  simp only [insertCachedCode, insertCached, Prog.run, run_bind, run_finishErase, onHeap, bind, Except.bind]
  cases LRU_Append { s.heap with refs := upd s.heap.refs a (s.heap.refs a + 1), inCache := upd s.heap.inCache a true } .inUse
    (.node a) with
  | error e => rfl
  | ok h =>
    simp only [pure, Except.pure]
    cases tableInsert h s.tab a with
    | error e => rfl
    | ok p =>
      simp only []
      cases FinishErase { s with heap := p.1, usage := s.usage + h.charge a, tab := p.2.1 } p.2.2 with
      | error e => rfl
      | ok q => rfl

/-- The steps of each body together do what the method does. -/
theorem code_implements : Implements code := by
  intro m s
  cases m with
  | insert key hash value charge deleter =>
    simp only [code, Method.run, Cache.Insert, Prog.run, run_bind, run_evictLoop, loopOf_evict, bind, Except.bind]
    cases key.toString with
    | error e => rfl
    | ok k =>
      simp only [pure, Except.pure, decide_eq_true_eq]
      by_cases hc : s.capacity > 0
      · rw [if_pos hc, if_pos hc, run_insertCached]
        simp only [bind, Except.bind]
        cases insertCached { s with heap := (newHandle s.heap k hash value charge deleter).1 }
          (newHandle s.heap k hash value charge deleter).2 with
        | error e => rfl
        | ok s' =>
          simp only [pure, Except.pure]
          cases evictLoop s'.heap.fresh s' with
          | error e => rfl
          | ok s'' => rfl
      · rw [if_neg hc, if_neg hc]
        simp only [Prog.run]
        cases evictLoop (newHandle s.heap k hash value charge deleter).1.fresh
          { s with heap := (newHandle s.heap k hash value charge deleter).1 } with
        | error e => rfl
        | ok s'' => rfl
  | lookup key hash =>
    simp only [code, Method.run, Cache.Lookup, Prog.run, bind, Except.bind]
    cases tableLookup s.heap s.tab key hash with
    | error e => rfl
    | ok x =>
      cases x with
      | none => rfl
      | some a =>
        simp only [pure, Except.pure, Prog.run, onHeap, bind, Except.bind]
        cases Ref s.heap a with
        | error e => rfl
        | ok h => rfl
  | release a =>
    simp only [code, Method.run, Cache.Release, run_bind, run_unref, bind, Except.bind]
    cases Unref s.heap s.log a with
    | error e => rfl
    | ok p => rfl
  | erase key hash =>
    simp only [code, Method.run, Cache.Erase, run_bind, run_removeKey, bind, Except.bind]
    cases removeKey s key hash with
    | error e => rfl
    | ok p => rfl
  | prune =>
    simp only [code, Method.run, Cache.Prune, Prog.run, run_bind, run_evictLoop, loopOf_prune, bind, Except.bind]
    cases pruneLoop s.heap.fresh s with
    | error e => rfl
    | ok p => rfl
  | totalCharge => rfl

end CacheConc
end Lsmdb
