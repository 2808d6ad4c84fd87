import Verif.Spec.CacheReent

/-! The mutexes of a cache whose deleters use it. -/

namespace Lsmdb
namespace CacheReent
open Cache CacheConc

/-- A step of a call, as far as mutexes go: from `p`, `o` (owners), `d` (owner of the mutex of `NewId`). -/
inductive Move (hf : Slice → M UInt32) (t : Tid) (n : Nat) (o : Nat → Option Tid) (d : Option Tid) :
    Pc → (Nat → Option Tid) → Option Tid → Pc → Prop
  | hash {c : Call} {k : Slice} {h : UInt32} (hk : keyOfCall c = some k) (e : hf k = .ok h) : Move hf t n o d (.hashKey c) o d (dispatch h c)
  | readHash (a : Handle) : Move hf t n o d (.readHash a) o d (.enter a.shard (.release a.addr) .unit)
  | readValue (a : Handle) (v : Nat) : Move hf t n o d (.readValue a) o d (.leave (.value v))
  | lock {i : Nat} (m : Method) (k : After) (hi : i < n) (h : o i = none) :
      Move hf t n o d (.enter i m k) (fun j => if j = i then some t else o j) d (.inside i m (code m) k)
  | body (i : Nat) (m : Method) {β : Type} (f : Shard → M (Shard × β)) (next : β → Prog Shard MRes) (b : β) (k : After) :
      Move hf t n o d (.inside i m (.step f next) k) o d (.inside i m (next b) k)
  | unlock (i : Nat) (m : Method) (r : MRes) (k : After) :
      Move hf t n o d (.inside i m (.done r) k) (fun j => if j = i then none else o j) d (proceed k r)
  | idLock (h : d = none) : Move hf t n o d .idEnter o (some t) .idInside
  | idNext (x : UInt64) : Move hf t n o d .idInside o d (.idLeave x)
  | idUnlock (x : UInt64) : Move hf t n o d (.idLeave x) o none (.leave (.id x))

variable {hf : Slice → M UInt32} {react : Nat → Deletion → Script} {w w' : World}

theorem move_of {t : Tid} {p : Pc} {v : CacheConc.World} (s : CacheConc.Step hf code (w.seen t p) none v) :
    Move hf t w.cache.shards.length w.owner w.idOwner p v.owner v.idOwner (v.pc t) ∧ v.cache.shards.length = w.cache.shards.length := by
  have key : ∀ {u : Tid} {q : Pc}, (w.seen t p).pc u = q → q ≠ .idle → u = t ∧ p = q := by
    intro u q h hq
    by_cases e : u = t
    · subst e
      exact ⟨rfl, by rw [← h]; exact (if_pos rfl).symm⟩
    · exact absurd (h.symm.trans (if_neg e)) hq
  have self : ∀ {a : CacheConc.World} {q : Pc}, (a.at t q).pc t = q := fun {a q} => if_pos rfl
  cases s with
  | hash h hk e =>
    obtain ⟨rfl, rfl⟩ := key h (by simp)
    rw [self]
    exact ⟨.hash hk e, rfl⟩
  | readHash h hs e hi =>
    obtain ⟨rfl, rfl⟩ := key h (by simp)
    rw [self]
    exact ⟨.readHash _, rfl⟩
  | readValue h e =>
    obtain ⟨rfl, rfl⟩ := key h (by simp)
    rw [self]
    exact ⟨.readValue _ _, rfl⟩
  | lock h hi free =>
    obtain ⟨rfl, rfl⟩ := key h (by simp)
    rw [self]
    exact ⟨.lock _ _ hi free, rfl⟩
  | body h hs e =>
    obtain ⟨rfl, rfl⟩ := key h (by simp)
    rw [self]
    exact ⟨.body _ _ _ _ _ _, List.length_set⟩
  | unlock h =>
    obtain ⟨rfl, rfl⟩ := key h (by simp)
    rw [self]
    exact ⟨.unlock _ _ _ _, rfl⟩
  | idLock h free =>
    obtain ⟨rfl, rfl⟩ := key h (by simp)
    rw [self]
    exact ⟨.idLock free, rfl⟩
  | idNext h =>
    obtain ⟨rfl, rfl⟩ := key h (by simp)
    rw [self]
    exact ⟨.idNext _, rfl⟩
  | idUnlock h =>
    obtain ⟨rfl, rfl⟩ := key h (by simp)
    rw [self]
    exact ⟨.idUnlock _, rfl⟩

/-- A step that calls a deleter is one inside of a method of that shard. -/
theorem inside_of {t : Tid} {p : Pc} {v : CacheConc.World} (s : CacheConc.Step hf code (w.seen t p) none v) {i : Nat} {d : Deletion}
    (q : Deletes w.cache v.cache i d) : v.owner = w.owner ∧ v.idOwner = w.idOwner ∧
      ∃ m p' a q', p = .inside i m q' a ∧ v.pc t = .inside i m p' a := by
  have key : ∀ {u : Tid} {q : Pc}, (w.seen t p).pc u = q → q ≠ .idle → u = t ∧ p = q := by
    intro u q h hq
    by_cases e : u = t
    · subst e
      exact ⟨rfl, by rw [← h]; exact (if_pos rfl).symm⟩
    · exact absurd (h.symm.trans (if_neg e)) hq
  have self : ∀ {a : CacheConc.World} {q : Pc}, (a.at t q).pc t = q := fun {a q} => if_pos rfl
  obtain ⟨s0, s1, h0, h1, h2⟩ := q
  have no : ∀ {s0 s1 : Shard}, w.cache.shards[i]? = some s0 → w.cache.shards[i]? = some s1 → s1.log = s0.log ++ [d] → False := by
    intro a b ha hb hl
    rw [ha] at hb
    cases hb
    have := congrArg List.length hl
    simp at this
  cases s with
  | body h hs e =>
    rename_i j m k β f next sh sh' b
    obtain ⟨rfl, rfl⟩ := key h (by simp)
    have hj : j = i := by
      by_cases hji : j = i
      · exact hji
      · have h1' : (w.cache.shards.set j sh')[i]? = some s1 := h1
        rw [List.getElem?_set_ne hji] at h1'
        exact (no h0 h1' h2).elim
    subst hj
    rw [self]
    exact ⟨rfl, rfl, m, _, k, _, rfl, rfl⟩
  | hash h hk e => exact (no h0 h1 h2).elim
  | readHash h hs e hi => exact (no h0 h1 h2).elim
  | readValue h e => exact (no h0 h1 h2).elim
  | lock h hi free => exact (no h0 h1 h2).elim
  | unlock h => exact (no h0 h1 h2).elim
  | idLock h free => exact (no h0 h1 h2).elim
  | idNext h => exact (no h0 h1 h2).elim
  | idUnlock h => exact (no h0 h1 h2).elim

/-! ## Who holds what -/

/-- The level is in `NewId` and holds its mutex. -/
def Level.holdsId (l : Level) : Prop := (∃ k, l = .busy .idInside k) ∨ ∃ x k, l = .busy (.idLeave x) k

/-- What a stack looks like: `o` says which mutexes it holds. -/
structure Good (o : Nat → Prop) (d : Prop) (s : List Level) : Prop where
  held : ∀ l ∈ s, ∀ i, Level.holds i l → o i
  back : ∀ i, o i → ∃ l ∈ s, Level.holds i l
  once : s.Pairwise fun l l' => ∀ i, Level.holds i l → ¬ Level.holds i l'
  under : ∀ l ∈ s.tail, ∃ i, Level.holds i l
  id : d ↔ ∃ l rest, s = l :: rest ∧ l.holdsId

/-- The mutexes of all threads. -/
structure Inv (w : World) : Prop where
  good : ∀ t, Good (fun i => w.owner i = some t) (w.idOwner = some t) (w.stk t)
  range : ∀ i, w.owner i ≠ none → i < w.cache.shards.length

theorem holds_inside {i : Nat} {m : Method} {p : Prog Shard MRes} {a : After} {k : Res → Script} {j : Nat} :
    Level.holds j (.busy (.inside i m p a) k) ↔ i = j := by
  constructor
  · rintro ⟨m', p', a', k', e⟩
    injection e with e
    injection e
  · rintro rfl
    exact ⟨_, _, _, _, rfl⟩

/-- The pc holds no mutex of a shard. -/
def Out (p : Pc) : Prop := ∀ i m q a, p ≠ .inside i m q a

theorem not_holds {p : Pc} (h : Out p) {j : Nat} {k : Res → Script} : ¬ Level.holds j (.busy p k) := by
  rintro ⟨m, q, a, k', e⟩
  injection e with e
  exact h _ _ _ _ e

theorem not_holds_ready {s : Script} {j : Nat} : ¬ Level.holds j (.ready s) := by
  rintro ⟨m, q, a, k', e⟩
  exact nomatch e

theorem out_begin (c : Call) : Out (begin c) := by
  intro i m q a
  cases c <;> exact nofun

theorem out_dispatch (h : UInt32) (c : Call) : Out (dispatch h c) := by
  intro i m q a
  cases c <;> exact nofun

theorem out_proceed (k : After) (r : MRes) : Out (proceed k r) := by
  intro i m q a
  unfold proceed
  split
  · exact nofun
  · split <;> exact nofun
  · split <;> exact nofun
  · exact nofun

/-- The pc is not in `NewId` with its mutex. -/
def OutId (p : Pc) : Prop := p ≠ .idInside ∧ ∀ x, p ≠ .idLeave x

theorem outId_begin (c : Call) : OutId (begin c) := by cases c <;> exact ⟨nofun, nofun⟩
theorem outId_dispatch (h : UInt32) (c : Call) : OutId (dispatch h c) := by cases c <;> exact ⟨nofun, nofun⟩
theorem outId_proceed (k : After) (r : MRes) : OutId (proceed k r) := by
  unfold proceed
  split
  · exact ⟨nofun, nofun⟩
  · split <;> exact ⟨nofun, nofun⟩
  · split <;> exact ⟨nofun, nofun⟩
  · exact ⟨nofun, nofun⟩

theorem not_holdsId {p : Pc} (h : OutId p) {k : Res → Script} : ¬ Level.holdsId (.busy p k) := by
  rintro (⟨k', e⟩ | ⟨x, k', e⟩)
  · injection e with e; exact h.1 e
  · injection e with e; exact h.2 _ e

theorem noId {p : Pc} {k : Res → Script} (x : Level.holdsId (.busy p k)) (h : OutId p) : False := not_holdsId h x

theorem noHold {p : Pc} {j : Nat} {k : Res → Script} (x : Level.holds j (.busy p k)) (h : Out p) : False := not_holds h x

theorem not_holdsId_ready {s : Script} : ¬ Level.holdsId (.ready s) := by
  rintro (⟨k', e⟩ | ⟨x, k', e⟩) <;> exact nomatch e

/-- The top of a stack changes and holds as much as before. -/
theorem Good.top {o : Nat → Prop} {d d' : Prop} {l l' : Level} {rest : List Level} (h : Good o d (l :: rest))
    (hh : ∀ i, Level.holds i l' ↔ Level.holds i l) (hd : d' ↔ l'.holdsId) : Good o d' (l' :: rest) := by
  refine ⟨?_, ?_, ?_, h.under, ?_⟩
  · intro x hx i hi
    rcases List.mem_cons.1 hx with e | hx
    · subst e; exact h.held l List.mem_cons_self i ((hh i).1 hi)
    · exact h.held x (List.mem_cons_of_mem _ hx) i hi
  · intro i hi
    obtain ⟨x, hx, hx'⟩ := h.back i hi
    rcases List.mem_cons.1 hx with e | hx
    · subst e; exact ⟨l', List.mem_cons_self, (hh i).2 hx'⟩
    · exact ⟨x, List.mem_cons_of_mem _ hx, hx'⟩
  · have := List.pairwise_cons.1 h.once
    exact List.pairwise_cons.2 ⟨fun x hx i hi => this.1 x hx i ((hh i).1 hi), this.2⟩
  · rw [hd]
    constructor
    · intro e; exact ⟨l', rest, rfl, e⟩
    · rintro ⟨x, r, e, hx⟩; cases e; exact hx

theorem Good.id_top {o : Nat → Prop} {d : Prop} {l : Level} {rest : List Level} (h : Good o d (l :: rest)) : d ↔ l.holdsId := by
  rw [h.id]
  constructor
  · rintro ⟨x, r, e, hx⟩; cases e; exact hx
  · intro e; exact ⟨l, rest, rfl, e⟩

/-- The others do not notice. -/
theorem Inv.upd (H : Inv w) {t : Tid} {o : Nat → Option Tid} {d : Option Tid} {c : Sharded} {s : List Level}
    (hlen : c.shards.length = w.cache.shards.length) (hr : ∀ i, o i ≠ none → i < w.cache.shards.length)
    (ho : ∀ u, u ≠ t → ∀ i, o i = some u ↔ w.owner i = some u) (hd : ∀ u, u ≠ t → (d = some u ↔ w.idOwner = some u))
    (hg : Good (fun i => o i = some t) (d = some t) s) : Inv ⟨c, o, d, fun u => if u = t then s else w.stk u⟩ := by
  refine ⟨fun u => ?_, fun i hi => by rw [hlen]; exact hr i hi⟩
  by_cases e : u = t
  · subst e
    show Good _ _ (if u = u then s else w.stk u)
    rw [if_pos rfl]
    exact hg
  · show Good _ _ (if u = t then s else w.stk u)
    rw [if_neg e]
    have h := H.good u
    exact ⟨fun l hl i hi => (ho u e i).2 (h.held l hl i hi), fun i hi => h.back i ((ho u e i).1 hi), h.once, h.under,
      (hd u e).trans h.id⟩

theorem Inv.put (H : Inv w) {t : Tid} {s : List Level} (hg : Good (fun i => w.owner i = some t) (w.idOwner = some t) s) :
    Inv (w.put t s) := by
  have := H.upd (t := t) (o := w.owner) (d := w.idOwner) (c := w.cache) (s := s) rfl H.range (fun _ _ _ => Iff.rfl) (fun _ _ => Iff.rfl) hg
  exact this

theorem same_holds {l l' : Level} (h : ∀ i, ¬ Level.holds i l) (h' : ∀ i, ¬ Level.holds i l') (i : Nat) :
    Level.holds i l' ↔ Level.holds i l := ⟨fun x => (h' i x).elim, fun x => (h i x).elim⟩

/-- A step of a call. -/
theorem Inv.move (H : Inv w) {t : Tid} {p p' : Pc} {k : Res → Script} {rest : List Level} {c : Sharded} {o : Nat → Option Tid}
    {d : Option Tid} (h : w.stk t = .busy p k :: rest) (hm : Move hf t w.cache.shards.length w.owner w.idOwner p o d p')
    (hlen : c.shards.length = w.cache.shards.length) :
    Inv ⟨c, o, d, fun u => if u = t then .busy p' k :: rest else w.stk u⟩ := by
  have G := H.good t
  rw [h] at G
  have hid := G.id_top
  have keep : ∀ {q q' : Pc}, Out q → Out q' → ∀ i, Level.holds i (.busy q' k) ↔ Level.holds i (.busy q k) :=
    fun hq hq' => same_holds (fun _ => not_holds hq) fun _ => not_holds hq'
  cases hm with
  | hash hk e =>
    refine H.upd hlen H.range (fun _ _ _ => Iff.rfl) (fun _ _ => Iff.rfl) (G.top (keep nofun (out_dispatch _ _)) ?_)
    rw [hid]
    exact ⟨fun x => (noId x ⟨nofun, nofun⟩).elim, fun x => (noId x (outId_dispatch _ _)).elim⟩
  | readHash a =>
    refine H.upd hlen H.range (fun _ _ _ => Iff.rfl) (fun _ _ => Iff.rfl) (G.top (keep nofun nofun) ?_)
    rw [hid]
    exact ⟨fun x => (noId x ⟨nofun, nofun⟩).elim, fun x => (noId x ⟨nofun, nofun⟩).elim⟩
  | readValue a v =>
    refine H.upd hlen H.range (fun _ _ _ => Iff.rfl) (fun _ _ => Iff.rfl) (G.top (keep nofun nofun) ?_)
    rw [hid]
    exact ⟨fun x => (noId x ⟨nofun, nofun⟩).elim, fun x => (noId x ⟨nofun, nofun⟩).elim⟩
  | lock m a hi hfree =>
    rename_i i
    refine H.upd hlen ?_ ?_ (fun _ _ => Iff.rfl) ⟨?_, ?_, ?_, G.under, ?_⟩
    · intro j hj
      by_cases e : j = i
      · rw [e]; exact hi
      · rw [if_neg e] at hj; exact H.range j hj
    · intro u hu j
      by_cases e : j = i
      · rw [if_pos e, e, hfree]
        exact ⟨fun x => by injection x with x; exact absurd x.symm hu, nofun⟩
      · rw [if_neg e]
    · intro l hl j hj
      by_cases e : j = i
      · exact if_pos e
      · rw [if_neg e]
        rcases List.mem_cons.1 hl with e' | hl
        · rw [e', holds_inside] at hj; exact absurd hj.symm e
        · exact G.held l (List.mem_cons_of_mem _ hl) j hj
    · intro j hj
      by_cases e : j = i
      · exact ⟨_, List.mem_cons_self, holds_inside.2 e.symm⟩
      · rw [if_neg e] at hj
        obtain ⟨l, hl, hl'⟩ := G.back j hj
        rcases List.mem_cons.1 hl with e' | hl
        · rw [e'] at hl'; exact (noHold hl' nofun).elim
        · exact ⟨l, List.mem_cons_of_mem _ hl, hl'⟩
    · have P := List.pairwise_cons.1 G.once
      refine List.pairwise_cons.2 ⟨fun l hl j hj hl' => ?_, P.2⟩
      rw [holds_inside] at hj
      subst hj
      have := G.held l (List.mem_cons_of_mem _ hl) _ hl'
      rw [hfree] at this
      exact nomatch this
    · rw [hid]
      constructor
      · intro x; exact (noId x ⟨nofun, nofun⟩).elim
      · rintro ⟨l, r, e, hx⟩; cases e; exact (noId hx ⟨nofun, nofun⟩).elim
  | body i m f q b a =>
    refine H.upd hlen H.range (fun _ _ _ => Iff.rfl) (fun _ _ => Iff.rfl) (G.top (fun j => ?_) ?_)
    · rw [holds_inside, holds_inside]
    · rw [hid]
      exact ⟨fun x => (noId x ⟨nofun, nofun⟩).elim, fun x => (noId x ⟨nofun, nofun⟩).elim⟩
  | unlock i m r a =>
    have own : w.owner i = some t := G.held _ List.mem_cons_self i (holds_inside.2 rfl)
    have P := List.pairwise_cons.1 G.once
    refine H.upd hlen ?_ ?_ (fun _ _ => Iff.rfl) ⟨?_, ?_, ?_, G.under, ?_⟩
    · intro j hj
      by_cases e : j = i
      · rw [if_pos e] at hj; exact (hj rfl).elim
      · rw [if_neg e] at hj; exact H.range j hj
    · intro u hu j
      by_cases e : j = i
      · rw [if_pos e, e, own]
        exact ⟨nofun, fun x => by injection x with x; exact absurd x.symm hu⟩
      · rw [if_neg e]
    · intro l hl j hj
      rcases List.mem_cons.1 hl with e' | hl
      · rw [e'] at hj; exact (not_holds (out_proceed _ _) hj).elim
      · by_cases e : j = i
        · subst e; exact (P.1 l hl _ (holds_inside.2 rfl) hj).elim
        · rw [if_neg e]; exact G.held l (List.mem_cons_of_mem _ hl) j hj
    · intro j hj
      by_cases e : j = i
      · rw [if_pos e] at hj; exact nomatch hj
      · rw [if_neg e] at hj
        obtain ⟨l, hl, hl'⟩ := G.back j hj
        rcases List.mem_cons.1 hl with e' | hl
        · rw [e', holds_inside] at hl'; exact absurd hl'.symm e
        · exact ⟨l, List.mem_cons_of_mem _ hl, hl'⟩
    · exact List.pairwise_cons.2 ⟨fun l _ j hj => (not_holds (out_proceed _ _) hj).elim, P.2⟩
    · rw [hid]
      constructor
      · intro x; exact (noId x ⟨nofun, nofun⟩).elim
      · rintro ⟨l, r, e, hx⟩; cases e; exact (noId hx (outId_proceed _ _)).elim
  | idLock hfree =>
    refine H.upd hlen H.range (fun _ _ _ => Iff.rfl) ?_ (G.top (keep nofun nofun) ?_)
    · intro u hu
      rw [hfree]
      exact ⟨fun x => by injection x with x; exact absurd x.symm hu, nofun⟩
    · exact ⟨fun _ => .inl ⟨_, rfl⟩, fun _ => rfl⟩
  | idNext x =>
    refine H.upd hlen H.range (fun _ _ _ => Iff.rfl) (fun _ _ => Iff.rfl) (G.top (keep nofun nofun) ?_)
    rw [hid]
    exact ⟨fun _ => .inr ⟨_, _, rfl⟩, fun _ => .inl ⟨_, rfl⟩⟩
  | idUnlock x =>
    have own : w.idOwner = some t := hid.2 (.inr ⟨_, _, rfl⟩)
    refine H.upd hlen H.range (fun _ _ _ => Iff.rfl) ?_ (G.top (keep nofun nofun) ?_)
    · intro u hu
      rw [own]
      exact ⟨nofun, fun x => by injection x with x; exact absurd x.symm hu⟩
    · exact ⟨nofun, fun x => (noId x ⟨nofun, nofun⟩).elim⟩

theorem Inv.step {t : Tid} (H : Inv w) (s : Step hf react w t w') : Inv w' := by
  cases s with
  | client s h =>
    have G := H.good t
    rw [h] at G
    refine H.put ⟨?_, ?_, List.pairwise_singleton _ _, nofun, ?_⟩
    · intro l hl i hi
      rw [List.mem_singleton.1 hl] at hi
      exact (not_holds_ready hi).elim
    · intro i hi
      obtain ⟨l, hl, _⟩ := G.back i hi
      exact nomatch hl
    · rw [G.id]
      constructor
      · rintro ⟨l, r, e, _⟩; exact nomatch e
      · rintro ⟨l, r, e, hx⟩; cases e; exact (not_holdsId_ready hx).elim
  | call h =>
    rename_i c k rest
    have G := H.good t
    rw [h] at G
    refine H.put (G.top (same_holds (fun _ => not_holds_ready) fun _ => not_holds (out_begin c)) ?_)
    rw [G.id_top]
    exact ⟨fun x => (not_holdsId_ready x).elim, fun x => (noId x (outId_begin c)).elim⟩
  | ret h =>
    rename_i r k rest
    have G := H.good t
    rw [h] at G
    refine H.put (G.top (same_holds (fun _ x => noHold x nofun) fun _ => not_holds_ready) ?_)
    rw [G.id_top]
    exact ⟨fun x => (noId x ⟨nofun, nofun⟩).elim, fun x => (not_holdsId_ready x).elim⟩
  | back h =>
    rename_i rest
    have G := H.good t
    rw [h] at G
    refine H.put ⟨fun l hl => G.held l (List.mem_cons_of_mem _ hl), ?_, (List.pairwise_cons.1 G.once).2,
      fun l hl => G.under l (List.mem_of_mem_tail hl), ?_⟩
    · intro i hi
      obtain ⟨l, hl, hl'⟩ := G.back i hi
      rcases List.mem_cons.1 hl with e | hl
      · rw [e] at hl'; exact (not_holds_ready hl').elim
      · exact ⟨l, hl, hl'⟩
    · rw [G.id_top]
      constructor
      · intro x; exact (not_holdsId_ready x).elim
      · rintro ⟨l, r, e, hx⟩
        obtain ⟨i, m, p, a, k, e'⟩ := G.under l (by rw [e]; exact List.mem_cons_self)
        rw [e'] at hx
        exact (noId hx ⟨nofun, nofun⟩).elim
  | work h s q =>
    obtain ⟨hm, hlen⟩ := move_of s
    exact H.move h hm hlen
  | deleter h s q =>
    rename_i p k rest v i d
    obtain ⟨hm, hlen⟩ := move_of s
    have H' := H.move (c := v.cache) h hm hlen
    obtain ⟨-, -, m, p', a, q', -, hp'⟩ := inside_of s q
    refine Inv.put (w := w.after t v k rest) H' ?_
    have G := H'.good t
    dsimp only at G
    rw [if_pos rfl] at G
    have hnot : ¬ Level.holdsId (.busy (v.pc t) k) := by rw [hp']; exact fun x => noId x ⟨nofun, nofun⟩
    refine ⟨?_, ?_, List.pairwise_cons.2 ⟨fun _ _ _ hi => (not_holds_ready hi).elim, G.once⟩, ?_, ?_⟩
    · intro l hl j hj
      rcases List.mem_cons.1 hl with e | hl
      · rw [e] at hj; exact (not_holds_ready hj).elim
      · exact G.held l hl j hj
    · intro j hj
      obtain ⟨l, hl, hl'⟩ := G.back j hj
      exact ⟨l, List.mem_cons_of_mem _ hl, hl'⟩
    · intro l hl
      rcases List.mem_cons.1 hl with e | hl
      · rw [e, hp']; exact ⟨i, holds_inside.2 rfl⟩
      · exact G.under l hl
    · have hx : (w.after t v k rest).idOwner = some t ↔ Level.holdsId (.busy (v.pc t) k) := G.id_top
      rw [hx]
      constructor
      · intro x; exact (hnot x).elim
      · rintro ⟨l, r, e, hx⟩; cases e; exact (not_holdsId_ready hx).elim

theorem Fresh.inv {capacity : UInt64} (h : Fresh capacity w) : Inv w := by
  obtain ⟨_, h1, h2, h3⟩ := h
  refine ⟨fun t => ?_, fun i hi => (hi (h1 i)).elim⟩
  rw [h3]
  refine ⟨nofun, fun i hi => ?_, .nil, nofun, ?_⟩
  · rw [h1] at hi; exact nomatch hi
  · rw [h2]
    exact ⟨nofun, fun ⟨_, _, e, _⟩ => nomatch e⟩

theorem Inv.later (H : Inv w) (h : Later hf react w w') : Inv w' := by
  induction h with
  | refl => exact H
  | step _ s ih => exact ih.step s

end CacheReent
end Lsmdb
