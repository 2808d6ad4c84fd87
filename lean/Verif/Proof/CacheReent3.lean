import Verif.Proof.CacheReent2

/-! A thread that does not wait for a mutex can go on. -/

namespace Lsmdb
namespace CacheReent
open Cache CacheConc

variable {hf : Slice → M UInt32} {react : Nat → Deletion → Script} {w w' : World}

/-- Every step of the code runs at most one deleter. -/
def OneDel {α : Type} : Prog Shard α → Prop
  | .done _ => True
  | .step f next => (∀ s s' b, f s = .ok (s', b) → s'.log = s.log ∨ ∃ d, s'.log = s.log ++ [d]) ∧ ∀ b, OneDel (next b)

theorem OneDel.bind {α β : Type} : ∀ {p : Prog Shard α} {g : α → Prog Shard β}, OneDel p → (∀ a, OneDel (g a)) → OneDel (p.bind g)
  | .done a, _, _, hg => hg a
  | .step _ _, _, hp, hg => ⟨hp.1, fun b => OneDel.bind (hp.2 b) hg⟩

theorem pure_log {β : Type} {g : Shard → β} (s s' : Shard) (b : β) (h : (Except.ok (s, g s) : M (Shard × β)) = .ok (s', b)) :
    s'.log = s.log ∨ ∃ d, s'.log = s.log ++ [d] := by
  cases h; exact .inl rfl

theorem onHeap_log {f : Heap → M Heap} (s s' : Shard) (b : Unit) (h : onHeap f s = .ok (s', b)) :
    s'.log = s.log ∨ ∃ d, s'.log = s.log ++ [d] := by
  unfold onHeap at h
  cases e : f s.heap with
  | error x => rw [e] at h; exact nomatch h
  | ok v => rw [e] at h; cases h; exact .inl rfl

theorem bind_ok {α β : Type} {x : M α} {g : α → M β} {b : β} (h : (x >>= g) = .ok b) : ∃ a, x = .ok a ∧ g a = .ok b := by
  cases x with
  | error e => exact nomatch h
  | ok a => exact ⟨a, rfl, h⟩

theorem one_unref (a : Nat) : OneDel (unrefCode a) := by
  refine ⟨fun s s' b h => ?_, fun b => ?_⟩
  · obtain ⟨_, _, h⟩ := bind_ok h
    obtain ⟨_, _, h⟩ := bind_ok h
    cases h; exact .inl rfl
  · dsimp only
    split
    · refine ⟨fun s s' b h => ?_, fun b => ⟨fun s s' b h => ?_, fun _ => trivial⟩⟩
      · obtain ⟨_, _, h⟩ := bind_ok h
        obtain ⟨_, _, h⟩ := bind_ok h
        obtain ⟨_, _, h⟩ := bind_ok h
        cases h; exact .inr ⟨_, rfl⟩
      · cases h; exact .inl rfl
    · split
      · exact ⟨onHeap_log, fun _ => ⟨onHeap_log, fun _ => trivial⟩⟩
      · trivial

theorem one_finishErase (o : Option Nat) : OneDel (finishEraseCode o) := by
  cases o with
  | none => trivial
  | some a =>
    refine ⟨onHeap_log, fun _ => ⟨fun s s' b h => ?_, fun _ => ⟨fun s s' b h => ?_, fun _ => (one_unref a).bind fun _ => trivial⟩⟩⟩
    · cases h; exact .inl rfl
    · cases h; exact .inl rfl

theorem one_removeKey (key : Slice) (hash : UInt32) : OneDel (removeKeyCode key hash) := by
  refine ⟨fun s s' b h => ?_, fun b => one_finishErase b⟩
  obtain ⟨_, _, h⟩ := bind_ok h
  cases h; exact .inl rfl

theorem one_evictOne (a : Nat) : OneDel (evictOneCode a) := by
  refine ⟨fun s s' b h => ?_, fun b => (one_removeKey _ _).bind fun e => ⟨fun s s' b h => ?_, fun _ => trivial⟩⟩
  · obtain ⟨_, _, h⟩ := bind_ok h
    obtain ⟨_, _, h⟩ := bind_ok h
    obtain ⟨_, _, h⟩ := bind_ok h
    cases h; exact .inl rfl
  · obtain ⟨_, _, h⟩ := bind_ok h
    cases h; exact .inl rfl

theorem one_loop (over : Shard → Bool) : ∀ n, OneDel (evictLoopCode over n)
  | 0 => by
    refine ⟨fun s s' b h => ?_, fun _ => trivial⟩
    dsimp only at h
    split at h
    · exact nomatch h
    · cases h; exact .inl rfl
  | n + 1 => by
    refine ⟨fun s s' b h => ?_, fun b => ?_⟩
    · unfold loopTest at h
      split at h
      · obtain ⟨x, _, h⟩ := bind_ok h
        cases x with
        | node a => cases h; exact .inl rfl
        | _ => exact nomatch h
      · cases h; exact .inl rfl
    · cases b with
      | none => trivial
      | some a => exact (one_evictOne a).bind fun _ => one_loop over n

theorem one_insertCached (a : Nat) : OneDel (insertCachedCode a) := by
  refine ⟨fun s s' b h => ?_, fun _ => ⟨fun s s' b h => ?_, fun _ => ⟨onHeap_log, fun _ => ⟨fun s s' b h => ?_, fun _ =>
    ⟨fun s s' b h => ?_, fun b => (one_finishErase b).bind fun _ => trivial⟩⟩⟩⟩⟩
  · cases h; exact .inl rfl
  · cases h; exact .inl rfl
  · cases h; exact .inl rfl
  · obtain ⟨_, _, h⟩ := bind_ok h
    cases h; exact .inl rfl

theorem one_code (m : Method) : OneDel (code m) := by
  cases m with
  | insert key hash value charge deleter =>
    refine ⟨fun s s' b h => ?_, fun a => ⟨fun s s' b h => ?_, fun c => OneDel.bind ?_ fun _ => ⟨fun s s' b h => ?_, fun n =>
      (one_loop _ n).bind fun _ => trivial⟩⟩⟩
    · obtain ⟨_, _, h⟩ := bind_ok h
      cases h; exact .inl rfl
    · cases h; exact .inl rfl
    · split
      · exact one_insertCached a
      · trivial
    · cases h; exact .inl rfl
  | lookup key hash =>
    refine ⟨fun s s' b h => ?_, fun b => ?_⟩
    · obtain ⟨_, _, h⟩ := bind_ok h
      cases h; exact .inl rfl
    · cases b with
      | none => trivial
      | some a => exact ⟨onHeap_log, fun _ => trivial⟩
  | release a => exact (one_unref a).bind fun _ => trivial
  | erase key hash => exact (one_removeKey key hash).bind fun _ => trivial
  | prune =>
    refine ⟨fun s s' b h => ?_, fun n => (one_loop _ n).bind fun _ => trivial⟩
    cases h; exact .inl rfl
  | totalCharge =>
    refine ⟨fun s s' b h => ?_, fun _ => trivial⟩
    cases h; exact .inl rfl

/-! ## No step is missing -/

/-- What levels look like. -/
def proper : Pc → Prop
  | .idle => False
  | .hashKey c => keyOfCall c ≠ none
  | .inside _ _ q _ => OneDel q
  | _ => True

def Level.proper : Level → Prop
  | .ready _ => True
  | .busy p _ => CacheReent.proper p

theorem proper_begin (c : Call) : proper (begin c) := by cases c <;> first | trivial | exact nofun

theorem proper_proceed (a : After) (r : MRes) : proper (proceed a r) := by
  unfold proceed
  split
  · trivial
  · split <;> trivial
  · split <;> trivial
  · trivial

theorem proper_move {t : Tid} {n : Nat} {o o' : Nat → Option Tid} {d d' : Option Tid} {p p' : Pc} (m : Move hf t n o d p o' d' p')
    (h : proper p) : proper p' := by
  cases m with
  | hash hk e => rename_i c k x; cases c <;> first | trivial | exact nomatch hk
  | readHash a => trivial
  | readValue a v => trivial
  | lock m a hi hfree => exact one_code m
  | body i m f q b a => exact h.2 b
  | unlock i m r a => exact proper_proceed a r
  | idLock hfree => trivial
  | idNext x => trivial
  | idUnlock x => trivial

theorem proper_step {u : Tid} (H : ∀ t, ∀ l ∈ w.stk t, l.proper) (s : Step hf react w u w') : ∀ t, ∀ l ∈ w'.stk t, l.proper := by
  have key : ∀ {top : Level} {below new : List Level}, w.stk u = top :: below → (∀ v, w'.stk v = if v = u then new ++ below else w.stk v) →
      (top.proper → ∀ l ∈ new, l.proper) → ∀ t, ∀ l ∈ w'.stk t, l.proper := by
    intro top below new hu hn ht t l hl
    rw [hn t] at hl
    have G := H u
    rw [hu] at G
    by_cases e : t = u
    · rw [if_pos e] at hl
      rcases List.mem_append.1 hl with hl | hl
      · exact ht (G _ List.mem_cons_self) l hl
      · exact G l (List.mem_cons_of_mem _ hl)
    · rw [if_neg e] at hl
      exact H t l hl
  cases s with
  | client s h =>
    intro t l hl
    dsimp only [World.put] at hl
    by_cases e : t = u
    · rw [if_pos e] at hl; rw [List.mem_singleton.1 hl]; trivial
    · rw [if_neg e] at hl; exact H t l hl
  | call h => exact key (new := [.busy (begin _) _]) h (fun v => rfl) fun _ l hl => by rw [List.mem_singleton.1 hl]; exact proper_begin _
  | ret h => exact key (new := [.ready _]) h (fun v => rfl) fun _ l hl => by rw [List.mem_singleton.1 hl]; trivial
  | back h => exact key (new := []) h (fun v => rfl) fun _ => nofun
  | work h s q =>
    exact key (new := [.busy _ _]) h (fun v => rfl) fun ht l hl => by rw [List.mem_singleton.1 hl]; exact proper_move (move_of s).1 ht
  | deleter h s q =>
    rename_i p k below v j d
    refine key (new := [.ready (react j d), .busy (v.pc u) k]) h (fun x => ?_) fun ht l hl => ?_
    · show (if x = u then _ else if x = u then _ else w.stk x) = _
      by_cases e : x = u
      · rw [if_pos e, if_pos e]; rfl
      · rw [if_neg e, if_neg e, if_neg e]
    · rcases List.mem_cons.1 hl with e | hl
      · rw [e]; trivial
      · rw [List.mem_singleton.1 hl]; exact proper_move (move_of s).1 ht

/-- A step of a call happens. -/
theorem takes {t : Tid} {p : Pc} {k : Res → Script} {rest : List Level} {v : CacheConc.World} (h : w.stk t = .busy p k :: rest)
    (s : CacheConc.Step hf code (w.seen t p) none v) (q : NoDeleter w.cache v.cache ∨ ∃ i d, Deletes w.cache v.cache i d) :
    ∃ w', Step hf react w t w' := by
  rcases q with q | ⟨i, d, q⟩
  · exact ⟨_, .work h s q⟩
  · exact ⟨_, .deleter h s q⟩

theorem dels_set {c : Sharded} {i : Nat} {s s' : Shard} (hs : c.shards[i]? = some s) (h : s'.log = s.log ∨ ∃ d, s'.log = s.log ++ [d]) :
    NoDeleter c (setShard c i s') ∨ ∃ j d, Deletes c (setShard c i s') j d := by
  have hi : i < c.shards.length := by
    by_contra hn
    rw [List.getElem?_eq_none (by omega)] at hs
    exact nomatch hs
  have hget : (setShard c i s').shards[i]? = some s' := by simp [setShard, hi]
  rcases h with h | ⟨d, h⟩
  · left
    intro j
    by_cases e : j = i
    · subst e; rw [hget, hs]; exact congrArg some h
    · have : (setShard c i s').shards[j]? = c.shards[j]? := by
        simp only [setShard]
        rw [List.getElem?_set]
        rw [if_neg (fun x => e x.symm)]
      rw [this]
  · exact .inr ⟨i, d, s, s', hs, hget, h⟩

/-- A thread in the cache that does not wait for a mutex goes on, unless the next step is undefined. -/
theorem goes (H : Inv w) {t : Tid} (hp : ∀ l ∈ w.stk t, l.proper) (hne : w.stk t ≠ []) (hb : ¬ w.blocked t) :
    (∃ w', Step hf react w t w') ∨ w.faulty hf t := by
  cases hk : w.stk t with
  | nil => exact (hne hk).elim
  | cons l rest =>
    rw [hk] at hp
    have pl := hp l List.mem_cons_self
    cases l with
    | ready s =>
      cases s with
      | done => exact .inl ⟨_, .back hk⟩
      | call c k => exact .inl ⟨_, .call hk⟩
    | busy p k =>
      have hpc : (w.seen t p).pc t = p := if_pos rfl
      have fault : CacheConc.Faulty hf (w.seen t p) → w.faulty hf t := fun f => ⟨p, k, rest, hk, f⟩
      cases p with
      | idle => exact pl.elim
      | hashKey c =>
        cases e : keyOfCall c with
        | none => exact (pl e).elim
        | some key =>
          cases e' : hf key with
          | ok x => exact .inl (takes hk (.hash hpc e e') (.inl fun _ => rfl))
          | error x => exact .inr (fault (.hash hpc e e'))
      | readHash a =>
        by_cases e : ∃ s, w.cache.shards[a.shard]? = some s ∧ derefNode s.heap a.addr = .ok () ∧ shardIndex (s.heap.hash a.addr) = a.shard
        · obtain ⟨s, h1, h2, h3⟩ := e
          exact .inl (takes hk (.readHash hpc h1 h2 h3) (.inl fun _ => rfl))
        · exact .inr (fault (.readHash hpc e))
      | readValue a =>
        cases e : Sharded.Value w.cache a with
        | ok v => exact .inl (takes hk (.readValue hpc e) (.inl fun _ => rfl))
        | error x => exact .inr (fault (.readValue hpc e))
      | enter i m a =>
        by_cases hi : i < w.cache.shards.length
        · have : w.owner i = none := by
            by_contra ho
            exact hb (.inl ⟨i, ⟨m, a, k, rest, hk⟩, ho⟩)
          exact .inl (takes hk (.lock hpc hi this) (.inl fun _ => rfl))
        · exact .inr (fault (.lock hpc (Nat.le_of_not_lt hi)))
      | inside i m q a =>
        cases q with
        | done r => exact .inl (takes hk (.unlock hpc) (.inl fun _ => rfl))
        | step f next =>
          have hi : i < w.cache.shards.length := by
            refine H.range i ?_
            have G := H.good t
            rw [hk] at G
            rw [G.held _ List.mem_cons_self i (holds_inside.2 rfl)]
            exact nofun
          have hs : w.cache.shards[i]? = some w.cache.shards[i] := List.getElem?_eq_getElem hi
          cases e : f w.cache.shards[i] with
          | error x => exact .inr (fault (.body hpc hs e))
          | ok sb =>
            have st : CacheConc.Step hf code (w.seen t (.inside i m (.step f next) a)) none _ := .body hpc hs e
            rcases dels_set hs (pl.1 _ _ _ e) with q | ⟨j, d, q⟩
            · exact .inl ⟨_, .work hk st q⟩
            · exact .inl ⟨_, .deleter hk st q⟩
      | idEnter =>
        have : w.idOwner = none := by
          by_contra ho
          exact hb (.inr ⟨⟨k, rest, hk⟩, ho⟩)
        exact .inl (takes hk (.idLock hpc this) (.inl fun _ => rfl))
      | idInside => exact .inl (takes hk (.idNext hpc) (.inl fun _ => rfl))
      | idLeave n => exact .inl (takes hk (.idUnlock hpc) (.inl fun _ => rfl))
      | leave r => exact .inl ⟨_, .ret hk⟩

/-- A thread that waits for a mutex takes no step. -/
theorem waits {t : Tid} {i : Nat} (hw : w.wants t i) (ho : w.owner i ≠ none) : ¬ Step hf react w t w' := by
  obtain ⟨m, a, k, rest, hk⟩ := hw
  intro s
  cases s with
  | client s h => rw [hk] at h; exact nomatch h
  | call h => rw [hk] at h; exact nomatch h
  | ret h => rw [hk] at h; exact nomatch h
  | back h => rw [hk] at h; exact nomatch h
  | work h s q => rw [hk] at h; cases h; exact ho (enter_free (move_of s).1)
  | deleter h s q => rw [hk] at h; cases h; exact ho (enter_free (move_of s).1)

end CacheReent
end Lsmdb
