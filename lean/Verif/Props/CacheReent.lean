import Verif.Proof.CacheReent3
import Verif.Props.Cache

/-!
# C105: deleters that use the cache

A deleter runs while the mutex of the shard of its entry is held, and the mutex is not recursive.  So a deleter that uses the same
shard waits for itself, and two deleters that use each other's shard may wait for each other; neither can be told from the
interface.
-/

namespace Lsmdb
namespace CacheReent
open Cache CacheConc Props

variable {hf : Slice → M UInt32} {react : Nat → Deletion → Script} {w0 w w' : World} {capacity : UInt64}

theorem proper_later (h0 : Fresh capacity w0) (h : Later hf react w0 w) : ∀ t, ∀ l ∈ w.stk t, l.proper := by
  induction h with
  | refl => intro t; rw [h0.2.2.2 t]; exact nofun
  | step _ s ih => exact proper_step ih s

theorem sorted_later (hr : Upward hf react) (h0 : Fresh capacity w0) (h : Later hf react w0 w) : ∀ t, Sorted hf (w.stk t) := by
  induction h with
  | refl => intro t; rw [h0.2.2.2 t]; exact .nil
  | step _ s ih => exact sorted_step hr ih s

/-- C105 for deleters that use only larger shards than that of their entry (or none, as with `NewId` and `Value`): while a thread is
in the cache, some thread in the cache can take a step (or is about to do something undefined).  Missing: other deleters, for which the claim is
false (`C105_violated_alone`, `C105_violated_two`). -/
theorem C105_no_deadlock_partial (hr : Upward hf react) (h0 : Fresh capacity w0) (h : Later hf react w0 w) {t : Tid}
    (ht : w.stk t ≠ []) : ∃ u, w.stk u ≠ [] ∧ ((∃ w', Step hf react w u w') ∨ w.faulty hf u) := by
  have H := h0.inv.later h
  have hS := sorted_later hr h0 h
  have hP := proper_later h0 h
  have : ∃ u, w.stk u ≠ [] ∧ ¬ w.blocked u := by
    by_cases hb : w.blocked t
    · rcases hb with ⟨i, hw, ho⟩ | ⟨⟨k, rest, hk⟩, hid⟩
      · exact free_one H hS _ i t (Nat.le_refl _) hw ho
      · exact free_id H hid
    · exact ⟨t, ht, hb⟩
  obtain ⟨u, hu, hb⟩ := this
  exact ⟨u, hu, goes H (hP u) hu hb⟩

/-- C105: threads each of which waits for one of them stay where they are, for ever. -/
theorem C105_deadlock_stays (h0 : Fresh capacity w0) (h : Later hf react w0 w) {S : Tid → Prop} (hS : Circle w S)
    (h' : Later hf react w w') {t : Tid} (ht : S t) : w'.stk t = w.stk t ∧ ∀ w'', ¬ Step hf react w' t w'' := by
  have key : Inv w' ∧ Circle w' S ∧ ∀ t, S t → w'.stk t = w.stk t := by
    induction h' with
    | refl => exact ⟨h0.inv.later h, hS, fun _ _ => rfl⟩
    | step _ s ih =>
      obtain ⟨h1, h2, h3⟩ := ih
      obtain ⟨h4, h5⟩ := circle_step h1 s h2
      exact ⟨h1.step s, h4, fun t ht => (h5 t ht).trans (h3 t ht)⟩
  obtain ⟨-, h2, h3⟩ := key
  refine ⟨h3 t ht, fun w'' s => ?_⟩
  obtain ⟨i, u, hw, ho, -⟩ := h2 t ht
  exact waits hw (by rw [ho]; exact nofun) s

/-- C105: a deleter that makes a call that uses the shard of an entry whose deleter the thread is in never ends, and the mutex of that shard is
held for ever. -/
theorem C105_own_shard (h0 : Fresh capacity w0) (h : Later hf react w0 w) {t : Tid} {c : Call} {k : Res → Script} {rest : List Level}
    {i : Nat} (hk : w.stk t = .ready (.call c k) :: rest) (hi : ∃ l ∈ rest, Level.holds i l) (hc : Uses hf i c)
    (h' : Later hf react w w') : w'.owner i = some t ∧ ∃ l upper, w'.stk t = l :: upper ++ rest := by
  have key : Inv w' ∧ Caught hf w' t i rest := by
    induction h' with
    | refl => exact ⟨h0.inv.later h, [], _, hk, hc⟩
    | step _ s ih => exact ⟨ih.1.step s, caught_step ih.1 s hi ih.2⟩
  obtain ⟨h1, upper, l, h2, -⟩ := key
  obtain ⟨x, hx, hx'⟩ := hi
  refine ⟨(h1.good t).held x (by rw [h2]; exact List.mem_append_right _ (List.mem_cons_of_mem _ hx)) i hx', ?_⟩
  cases upper with
  | nil => exact ⟨l, [], h2⟩
  | cons y ys => exact ⟨y, ys ++ [l], by rw [h2]; simp⟩

/-! ## Playing threads -/

/-- The step of a call that `t` is in. -/
def inner (hf : Slice → M UInt32) (v : CacheConc.World) (t : Tid) : Option CacheConc.World :=
  match v.pc t with
  | .hashKey c =>
    match keyOfCall c with
    | some k => match hf k with
      | .ok h => some (v.at t (dispatch h c))
      | .error _ => none
    | none => none
  | .readHash a =>
    match v.cache.shards[a.shard]? with
    | some s => match derefNode s.heap a.addr with
      | .ok () => if shardIndex (s.heap.hash a.addr) = a.shard then some (v.at t (.enter a.shard (.release a.addr) .unit)) else none
      | .error _ => none
    | none => none
  | .enter i m k => if i < v.cache.shards.length ∧ v.owner i = none then some ((v.own i (some t)).at t (.inside i m (code m) k)) else none
  | .inside i m (.step f next) k =>
    match v.cache.shards[i]? with
    | some s => match f s with
      | .ok (s', b) => some ({ v with cache := setShard v.cache i s' }.at t (.inside i m (next b) k))
      | .error _ => none
    | none => none
  | .inside i _ (.done r) k => some ((v.own i none).at t (proceed k r))
  | .idEnter => if v.idOwner = none then some ({ v with idOwner := some t }.at t .idInside) else none
  | .idInside => some ({ v with cache := { v.cache with lastId := v.cache.lastId + 1 } }.at t (.idLeave (v.cache.lastId + 1)))
  | .idLeave n => some ({ v with idOwner := none }.at t (.leave (.id n)))
  | _ => none

theorem inner_step {v v' : CacheConc.World} {t : Tid} (h : inner hf v t = some v') : CacheConc.Step hf code v none v' := by
  unfold inner at h
  split at h
  · rename_i c e
    split at h
    · rename_i k e1
      split at h
      · rename_i x e2; cases h; exact .hash e e1 e2
      · exact nomatch h
    · exact nomatch h
  · rename_i a e
    split at h
    · rename_i s e1
      split at h
      · rename_i e2
        split at h
        · rename_i e3; cases h; exact .readHash e e1 e2 e3
        · exact nomatch h
      · exact nomatch h
    · exact nomatch h
  · rename_i i m k e
    split at h
    · rename_i e1; cases h; exact .lock e e1.1 e1.2
    · exact nomatch h
  · rename_i i m _ f next k e
    split at h
    · rename_i s e1
      split at h
      · rename_i s' b e2; cases h; exact .body e e1 e2
      · exact nomatch h
    · exact nomatch h
  · rename_i e; cases h; exact .unlock e
  · rename_i e
    split at h
    · rename_i e1; cases h; exact .idLock e e1
    · exact nomatch h
  · rename_i e; cases h; exact .idNext e
  · rename_i e; cases h; exact .idUnlock e
  · exact nomatch h

def logsOf (c : Sharded) : List (List Deletion) := c.shards.map (·.log)

theorem noDeleter_of {c c' : Sharded} (h : logsOf c' = logsOf c) : NoDeleter c c' := by
  intro i
  have := congrArg (fun l => l[i]?) h
  simpa [logsOf, List.getElem?_map] using this

/-- The deleter that was called, if it was in shard `i`. -/
def newIn (c c' : Sharded) (i : Nat) : Option Deletion :=
  match c.shards[i]?, c'.shards[i]? with
  | some s, some s' => match s'.log.drop s.log.length with
    | [d] => if s'.log = s.log ++ [d] then some d else none
    | _ => none
  | _, _ => none

theorem newIn_deletes {c c' : Sharded} {i : Nat} {d : Deletion} (h : newIn c c' i = some d) : Deletes c c' i d := by
  unfold newIn at h
  split at h
  · rename_i s s' e e'
    split at h
    · split at h
      · rename_i e3; cases h; exact ⟨s, s', e, e', e3⟩
      · exact nomatch h
    · exact nomatch h
  · exact nomatch h

/-- The next step of `t`. -/
def advance (hf : Slice → M UInt32) (react : Nat → Deletion → Script) (w : World) (t : Tid) : Option World :=
  match w.stk t with
  | [] => none
  | .ready .done :: rest => some (w.put t rest)
  | .ready (.call c k) :: rest => some (w.put t (.busy (begin c) k :: rest))
  | .busy (.leave r) k :: rest => some (w.put t (.ready (k r) :: rest))
  | .busy p k :: rest =>
    match inner hf (w.seen t p) t with
    | none => none
    | some v =>
      if logsOf v.cache = logsOf w.cache then some (w.after t v k rest)
      else match (List.range v.cache.shards.length).filterMap fun i => (newIn w.cache v.cache i).map fun d => (i, d) with
        | (i, _) :: _ => match newIn w.cache v.cache i with
          | some d => some ((w.after t v k rest).put t (.ready (react i d) :: .busy (v.pc t) k :: rest))
          | none => none
        | [] => none

theorem advance_step {t : Tid} (h : advance hf react w t = some w') : Step hf react w t w' := by
  unfold advance at h
  split at h
  · exact nomatch h
  · rename_i e; cases h; exact .back e
  · rename_i e; cases h; exact .call e
  · rename_i e; cases h; exact .ret e
  · rename_i p k rest _ e
    split at h
    · exact nomatch h
    · rename_i v ev
      split at h
      · rename_i hl; cases h; exact .work e (inner_step ev) (noDeleter_of hl)
      · split at h
        · split at h
          · rename_i d hd; cases h; exact .deleter e (inner_step ev) (newIn_deletes hd)
          · exact nomatch h
        · exact nomatch h

/-- A thread takes `n` steps. -/
def advances (hf : Slice → M UInt32) (react : Nat → Deletion → Script) (t : Tid) : Nat → World → Option World
  | 0, w => some w
  | n + 1, w => match advance hf react w t with
    | some w' => advances hf react t n w'
    | none => none

theorem advances_later {t : Tid} : ∀ {n : Nat} {w'' : World}, Later hf react w w'' → advances hf react t n w'' = some w' → Later hf react w w'
  | 0, _, h, e => by cases e; exact h
  | n + 1, w'', h, e => by
    unfold advances at e
    split at e
    · rename_i x ex; exact advances_later (h.step (advance_step ex)) e
    · exact nomatch e

/-- A schedule: threads that start, and threads that take some number of steps. -/
inductive Turn where
  | starts (t : Tid) (s : Script)
  | steps (t : Tid) (n : Nat)

def playAll (hf : Slice → M UInt32) (react : Nat → Deletion → Script) : List Turn → World → Option World
  | [], w => some w
  | .starts t s :: l, w => match w.stk t with
    | [] => playAll hf react l (w.put t [.ready s])
    | _ :: _ => none
  | .steps t n :: l, w => match advances hf react t n w with
    | some w' => playAll hf react l w'
    | none => none

theorem playAll_later : ∀ {l : List Turn} {w'' : World}, Later hf react w w'' → playAll hf react l w'' = some w' → Later hf react w w'
  | [], _, h, e => by cases e; exact h
  | .starts t s :: l, w'', h, e => by
    unfold playAll at e
    split at e
    · rename_i hs; exact playAll_later (h.step (.client s hs)) e
    · exact nomatch e
  | .steps t n :: l, w'', h, e => by
    unfold playAll at e
    split at e
    · rename_i x ex; exact playAll_later (advances_later h ex) e
    · exact nomatch e

/-- A play on a new cache. -/
def onNew (hf : Slice → M UInt32) (react : Nat → Deletion → Script) (capacity : UInt64) (l : List Turn) : Option World :=
  match newSharded capacity with
  | .ok c => playAll hf react l ⟨c, fun _ => none, none, fun _ => []⟩
  | .error _ => none

theorem onNew_later {l : List Turn} (h : onNew hf react capacity l = some w) : ∃ w0, Fresh capacity w0 ∧ Later hf react w0 w := by
  unfold onNew at h
  split at h
  · rename_i c e
    exact ⟨_, ⟨e, fun _ => rfl, rfl, fun _ => rfl⟩, playAll_later .refl h⟩
  · exact nomatch h

/-- The thread that a turn is for. -/
def Turn.who : Turn → Tid
  | .starts t _ => t
  | .steps t _ => t

theorem step_others {t u : Tid} (s : Step hf react w t w') (h : u ≠ t) : w'.stk u = w.stk u := by
  cases s with
  | client s _ => exact if_neg h
  | call _ => exact if_neg h
  | ret _ => exact if_neg h
  | back _ => exact if_neg h
  | work _ _ _ => exact if_neg h
  | deleter _ _ _ => exact (if_neg h).trans (if_neg h)

theorem advances_others {t u : Tid} (h : u ≠ t) : ∀ {n : Nat} {w : World}, advances hf react t n w = some w' → w'.stk u = w.stk u
  | 0, _, e => by cases e; rfl
  | n + 1, _, e => by
    unfold advances at e
    split at e
    · rename_i x ex; exact (advances_others h e).trans (step_others (advance_step ex) h)
    · exact nomatch e

theorem playAll_others {u : Tid} : ∀ {l : List Turn} {w : World}, (∀ x ∈ l, x.who ≠ u) → playAll hf react l w = some w' → w'.stk u = w.stk u
  | [], _, _, e => by cases e; rfl
  | .starts t s :: l, w, h, e => by
    unfold playAll at e
    split at e
    · exact (playAll_others (fun x hx => h x (List.mem_cons_of_mem _ hx)) e).trans (if_neg fun hu => h _ List.mem_cons_self hu.symm)
    · exact nomatch e
  | .steps t n :: l, w, h, e => by
    unfold playAll at e
    split at e
    · rename_i x ex
      exact (playAll_others (fun x hx => h x (List.mem_cons_of_mem _ hx)) e).trans
        (advances_others (fun hu => h _ List.mem_cons_self hu.symm) ex)
    · exact nomatch e

theorem onNew_others {l : List Turn} {u : Tid} (hu : ∀ x ∈ l, x.who ≠ u) (h : onNew hf react capacity l = some w) : w.stk u = [] := by
  unfold onNew at h
  split at h
  · exact playAll_others hu h
  · exact nomatch h

/-- The thread waits for the mutex of shard `i`, which `u` holds. -/
def waitsFor (w : World) (t i u : Nat) : Bool :=
  (match w.stk t with
  | .busy (.enter j _ _) _ :: _ => decide (j = i)
  | _ => false) && decide (w.owner i = some u)

theorem waitsFor_wants {t i u : Nat} (h : waitsFor w t i u = true) : w.wants t i ∧ w.owner i = some u := by
  unfold waitsFor at h
  rw [Bool.and_eq_true] at h
  refine ⟨?_, of_decide_eq_true h.2⟩
  have h1 := h.1
  split at h1
  · rename_i j m a k rest e
    have := of_decide_eq_true h1
    subst this
    exact ⟨m, a, k, rest, e⟩
  · exact nomatch h1

theorem exists_of_any {x : Option World} {f : World → Bool} (h : x.any f = true) : ∃ w, x = some w ∧ f w = true := by
  cases x with
  | none => exact nomatch h
  | some w => exact ⟨w, rfl, h⟩

/-! ## C105 is false in general -/

/-- A client that inserts, releases and erases. -/
def visit (key : Slice) : Script :=
  .call (.insert key 1 1 0) fun r => match r with
    | .handle (some h) => .call (.release h) fun _ => .call (.erase key) fun _ => .done
    | _ => .done

/-- A deleter that looks something up. -/
def looks (key : Slice) : Script := .call (.lookup key) fun _ => .done

/-- C105 is false: with one thread only, an entry whose deleter looks up its own key: the thread never comes back from `Erase`, and
does not take another step. -/
theorem C105_violated_alone : ∃ w0 w, Fresh 1600 w0 ∧ Later HashSlice (fun _ _ => looks keyA) w0 w ∧ w.stk 0 ≠ [] ∧
    (∀ t, t ≠ 0 → w.stk t = []) ∧ ∀ w', Later HashSlice (fun _ _ => looks keyA) w w' →
      w'.stk 0 = w.stk 0 ∧ ∀ w'', ¬ Step HashSlice (fun _ _ => looks keyA) w' 0 w'' := by
  have e : (onNew HashSlice (fun _ _ => looks keyA) 1600 [.starts 0 (visit keyA), .steps 0 33]).any
      (fun w => waitsFor w 0 12 0) = true := by decide +kernel
  obtain ⟨w, h, hw⟩ := exists_of_any e
  obtain ⟨w0, h0, hl⟩ := onNew_later h
  obtain ⟨h1, h2⟩ := waitsFor_wants hw
  have hc : Circle w (· = 0) := by rintro t rfl; exact ⟨12, 0, h1, h2, rfl⟩
  refine ⟨w0, w, h0, hl, ?_, ?_, fun w' h' => C105_deadlock_stays h0 hl hc h' rfl⟩
  · obtain ⟨m, a, k, rest, hk⟩ := h1
    rw [hk]; exact nofun
  · intro t ht
    refine onNew_others (fun x hx => ?_) h
    rcases List.mem_cons.1 hx with rfl | hx
    · exact fun x => ht x.symm
    · rw [List.mem_singleton.1 hx]; exact fun x => ht x.symm

theorem lt_two {n : Nat} (h : n < 2) : n = 0 ∨ n = 1 := by omega

/-- Deleters that use the other shard. -/
def crossed (i : Nat) (_ : Deletion) : Script := if i = 12 then looks keyB else looks keyA

/-- C105 is false also for deleters that do not use the shard of their entry: two threads, each in a deleter that waits for the shard
of the other. -/
theorem C105_violated_two : (∀ i d, (crossed i d).About HashSlice (· ≠ i)) ∧
    ∃ w0 w, Fresh 1600 w0 ∧ Later HashSlice crossed w0 w ∧ w.stk 0 ≠ [] ∧ w.stk 1 ≠ [] ∧ ∀ w', Later HashSlice crossed w w' →
      ∀ t, t < 2 → w'.stk t = w.stk t ∧ ∀ w'', ¬ Step HashSlice crossed w' t w'' := by
  constructor
  · intro i d
    unfold crossed
    split
    · rename_i e; subst e
      refine ⟨fun h hh => ?_, fun _ => trivial⟩
      have : (HashSlice keyB).map shardIndex = .ok 9 := by decide +kernel
      rw [hh] at this
      injection this with this
      rw [this]; decide
    · rename_i e
      refine ⟨fun h hh => ?_, fun _ => trivial⟩
      have : (HashSlice keyA).map shardIndex = .ok 12 := by decide +kernel
      rw [hh] at this
      injection this with this
      rw [this]; exact fun x => e x.symm
  · have e : (onNew HashSlice crossed 1600 [.starts 0 (visit keyA), .steps 0 32, .starts 1 (visit keyB), .steps 1 33, .steps 0 1]).any
        (fun w => waitsFor w 0 9 1 && waitsFor w 1 12 0) = true := by decide +kernel
    obtain ⟨w, h, hw⟩ := exists_of_any e
    obtain ⟨w0, h0, hl⟩ := onNew_later h
    rw [Bool.and_eq_true] at hw
    obtain ⟨h1, h2⟩ := waitsFor_wants hw.1
    obtain ⟨h3, h4⟩ := waitsFor_wants hw.2
    have hc : Circle w (· < 2) := by
      intro t ht
      have : t = 0 ∨ t = 1 := lt_two ht
      rcases this with rfl | rfl
      · exact ⟨9, 1, h1, h2, by decide⟩
      · exact ⟨12, 0, h3, h4, by decide⟩
    refine ⟨w0, w, h0, hl, ?_, ?_, fun w' h' t ht => C105_deadlock_stays h0 hl hc h' ht⟩
    · obtain ⟨m, a, k, rest, hk⟩ := h1
      rw [hk]; exact nofun
    · obtain ⟨m, a, k, rest, hk⟩ := h3
      rw [hk]; exact nofun

/-! ## The hypotheses are met -/

/-- Deleters in shard 9 that use shard 12 while those in shard 12 ask for a new id. -/
def ascending (i : Nat) (_ : Deletion) : Script :=
  if i = 9 then looks keyA else if i = 12 then .call .newId fun _ => .done else .done

theorem ascending_upward : Upward HashSlice ascending := by
  intro i d
  unfold ascending
  split
  · rename_i e; subst e
    refine ⟨fun h hh => ?_, fun _ => trivial⟩
    have : (HashSlice keyA).map shardIndex = .ok 12 := by decide +kernel
    rw [hh] at this
    injection this with this
    rw [this]; decide
  · split
    · exact ⟨trivial, fun _ => trivial⟩
    · trivial

/-- They meet the hypotheses of `C105_no_deadlock_partial`, in a world with two threads in deleters, one of which waits for the other. -/
example : Upward HashSlice ascending ∧ ∃ w0 w, Fresh 1600 w0 ∧ Later HashSlice ascending w0 w ∧ w.wants 1 12 ∧ w.owner 12 = some 0 ∧
    w.owner 9 = some 1 := by
  refine ⟨ascending_upward, ?_⟩
  have e : (onNew HashSlice ascending 1600 [.starts 0 (visit keyA), .steps 0 32, .starts 1 (visit keyB), .steps 1 33]).any
      (fun w => waitsFor w 1 12 0 && decide (w.owner 9 = some 1)) = true := by decide +kernel
  obtain ⟨w, h, hw⟩ := exists_of_any e
  obtain ⟨w0, h0, hl⟩ := onNew_later h
  rw [Bool.and_eq_true] at hw
  obtain ⟨h1, h2⟩ := waitsFor_wants hw.1
  exact ⟨w0, w, h0, hl, h1, h2, of_decide_eq_true hw.2⟩

/-- In such a world they go on: both threads get to the end. -/
example : ∃ w0 w, Fresh 1600 w0 ∧ Later HashSlice ascending w0 w ∧ w.stk 0 = [] ∧ w.stk 1 = [] ∧ w.cache.lastId = 1 := by
  have e : (onNew HashSlice ascending 1600 [.starts 0 (visit keyA), .steps 0 32, .starts 1 (visit keyB), .steps 1 33,
      .steps 0 9, .steps 1 9]).any
      (fun w => (w.stk 0).isEmpty && (w.stk 1).isEmpty && decide (w.cache.lastId = 1)) = true := by decide +kernel
  obtain ⟨w, h, hw⟩ := exists_of_any e
  obtain ⟨w0, h0, hl⟩ := onNew_later h
  rw [Bool.and_eq_true, Bool.and_eq_true] at hw
  exact ⟨w0, w, h0, hl, List.isEmpty_iff.1 hw.1.1, List.isEmpty_iff.1 hw.1.2, of_decide_eq_true hw.2⟩

/-- The thread is in a deleter in shard 12, about to call `Lookup(keyA)`. -/
def aboutTo (w : World) : Bool :=
  match w.stk 0 with
  | .ready (.call (.lookup key) _) :: .busy (.inside i _ _ _) _ :: _ => decide (key = keyA ∧ i = 12)
  | _ => false

/-- Such a thread meets the hypotheses of `C105_own_shard`. -/
example : ∃ w0 w, Fresh 1600 w0 ∧ Later HashSlice (fun _ _ => looks keyA) w0 w ∧ ∃ k rest,
    w.stk 0 = .ready (.call (.lookup keyA) k) :: rest ∧ (∃ l ∈ rest, Level.holds 12 l) ∧ Uses HashSlice 12 (.lookup keyA) := by
  have e : (onNew HashSlice (fun _ _ => looks keyA) 1600 [.starts 0 (visit keyA), .steps 0 31]).any aboutTo = true := by decide +kernel
  obtain ⟨w, h, hw⟩ := exists_of_any e
  obtain ⟨w0, h0, hl⟩ := onNew_later h
  refine ⟨w0, w, h0, hl, ?_⟩
  unfold aboutTo at hw
  split at hw
  · rename_i key k i m p a k' rest hk
    obtain ⟨rfl, rfl⟩ := of_decide_eq_true hw
    refine ⟨k, _, hk, ⟨_, List.mem_cons_self, m, p, a, k', rfl⟩, ?_⟩
    have : (HashSlice keyA).map shardIndex = .ok 12 := by decide +kernel
    show ∃ h, HashSlice keyA = .ok h ∧ shardIndex h = 12
    cases e : HashSlice keyA with
    | error x => rw [e] at this; exact nomatch this
    | ok x => rw [e] at this; injection this with this; exact ⟨x, rfl, this⟩
  · exact nomatch hw

end CacheReent
end Lsmdb
