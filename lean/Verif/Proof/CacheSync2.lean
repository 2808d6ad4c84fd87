import Verif.Proof.CacheSync1

/-!
# Which calls made the entries, and who knows it
-/

namespace Lsmdb
namespace CacheConc
open Cache Spec Props

variable {hf : Slice → M UInt32} {capacity : UInt64} {N : Nat}

/-- What is left of each body. -/
structure Bodies (w : World) : Prop where
  makes : ∀ t i m p k, w.pc t = .inside i m p k → Made1 m p
  logs : ∀ t i m p k, w.pc t = .inside i m p k → Logs p

theorem Bodies.at' {w w1 : World} {t : Tid} {q : Pc} (b : Bodies w) (e : w1.pc = w.pc) (h : ∀ i m p k, q = .inside i m p k → Made1 m p ∧ Logs p) :
    Bodies (w1.at t q) := by
  have key : ∀ u i m p k, (w1.at t q).pc u = .inside i m p k → Made1 m p ∧ Logs p := by
    intro u i m p k hu
    by_cases hut : u = t
    · subst hut
      rw [World.at_pc] at hu
      exact h i m p k hu
    · rw [World.at_ne _ hut, e] at hu
      exact ⟨b.makes _ _ _ _ _ hu, b.logs _ _ _ _ _ hu⟩
  exact ⟨fun u i m p k hu => (key u i m p k hu).1, fun u i m p k hu => (key u i m p k hu).2⟩

theorem Bodies.step {w w' : World} {e : Option Ev} (b : Bodies w) (s : Step hf code w e w') : Bodies w' := by
  cases s with
  | call c h => exact b.at' rfl fun i m p k h => absurd h (Race.begin_ne c i m p k)
  | hash h hk e => exact b.at' rfl fun i m p k h => absurd h (Race.dispatch_ne _ _ i m p k)
  | readHash h hs e hi => exact b.at' rfl fun i m p k h => (nomatch h)
  | readValue h e => exact b.at' rfl fun i m p k h => (nomatch h)
  | lock h hi free =>
    refine b.at' rfl fun i m p k h => ?_
    injection h with _ h1 h2
    subst h1; subst h2
    exact ⟨code_makes _, code_logs _⟩
  | body h hs e =>
    refine b.at' rfl fun i m p k h' => ?_
    injection h' with _ h1 h2
    subst h1; subst h2
    have hm := b.makes _ _ _ _ _ h
    have hl := b.logs _ _ _ _ _ h
    refine ⟨?_, ?_⟩
    · cases hm with
      | rest h => cases h with
        | step _ h' => exact .rest (h' _)
      | new e _ h' => exact .rest (h' _)
    · cases hl with
      | step _ h' => exact h' _
  | unlock h => exact b.at' rfl fun i m p k h => absurd h (Race.proceed_ne _ _ i m p k)
  | idLock h free => exact b.at' rfl fun i m p k h => (nomatch h)
  | idNext h => exact b.at' rfl fun i m p k h => (nomatch h)
  | idUnlock h => exact b.at' rfl fun i m p k h => (nomatch h)
  | ret h => exact b.at' rfl fun i m p k h => (nomatch h)

theorem Exec.bodies (x : Exec hf capacity N) : ∀ n, n ≤ N → Bodies (x.w n)
  | 0, _ => by
    obtain ⟨c, -, h⟩ := x.start
    rw [h]
    exact ⟨fun _ _ _ _ _ h => (nomatch h), fun _ _ _ _ _ h => (nomatch h)⟩
  | n + 1, hn => (x.bodies n (by omega)).step (x.step n (by omega))

/-- What a step does to the entries and the record of the deleters. -/
theorem shards_step {w w' : World} {e : Option Ev} (b : Bodies w) (s : Step hf code w e w') :
    w'.cache.shards = w.cache.shards ∨ ∃ t i m p k s1 s2, w.pc t = .inside i m p k ∧ w'.pc t ≠ w.pc t ∧ w.cache.shards[i]? = some s1 ∧
      w'.cache.shards = w.cache.shards.set i s2 ∧ w'.owner = w.owner ∧ s1.log <+: s2.log ∧
      (Same s1.heap s2.heap ∨ ∃ k hash v ch d, m = .insert k hash v ch d ∧ s2.heap.fresh = s1.heap.fresh + 1 ∧
        s2.heap.value = upd s1.heap.value s1.heap.fresh v) := by
  cases s with
  | @body t i m k β f next s s' b' h hs e =>
    have hm := b.makes _ _ _ _ _ h
    have hl := b.logs _ _ _ _ _ h
    refine .inr ⟨t, i, m, _, k, s, s', h, ?_, hs, rfl, rfl, ?_, ?_⟩
    · rw [World.at_pc, h]
      intro he
      injection he with _ _ he _
      exact prog_ne f next b' he
    · cases hl with
      | step h _ => exact h _ _ _ e
    · cases hm with
      | rest h => cases h with
        | step h _ => exact .inl (h _ _ _ e)
      | new em hh _ => exact .inr ⟨_, _, _, _, _, em, hh _ _ _ e⟩
  | _ => exact .inl rfl

/-- Where the calls of `Insert` and `Release` are known. -/
structure Calls (x : Exec hf capacity N) (n : Nat) : Prop where
  hashing : ∀ t c, (x.w n).pc t = .hashKey c → ∃ i, x.ev i = some (.call t c) ∧ Knows x.sync n t i
  inserting : ∀ t j k hash v ch d q, (x.w n).pc t = .enter j (.insert k hash v ch d) q ∨ (∃ p, (x.w n).pc t = .inside j (.insert k hash v ch d) p q) →
    ∃ i, x.ev i = some (.call t (.insert k v ch d)) ∧ Knows x.sync n t i
  releasing : ∀ i t h, i < n → x.ev i = some (.call t (.release h)) → Has x.sync n ((x.w n).holder (some h.shard)) (some h.shard) i ∨
    (Knows x.sync n t i ∧ ((x.w n).pc t = .readHash h ∨ ∃ q, (x.w n).pc t = .enter h.shard (.release h.addr) q))

/-- Where a position in a call of `Insert` comes from. -/
def InsertFrom (w : World) (e : Option Ev) (w' : World) (t : Tid) : Prop :=
  (∀ c, w'.pc t = .hashKey c → w.pc t = .hashKey c ∨ (e = some (.call t c) ∧ w'.pc t ≠ w.pc t)) ∧
    (∀ j k hash v ch d q, (w'.pc t = .enter j (.insert k hash v ch d) q ∨ ∃ p, w'.pc t = .inside j (.insert k hash v ch d) p q) →
      (w.pc t = .enter j (.insert k hash v ch d) q ∨ ∃ p, w.pc t = .inside j (.insert k hash v ch d) p q) ∨
      w.pc t = .hashKey (.insert k v ch d))

theorem insert_step {w w' : World} {e : Option Ev} (s : Step hf code w e w') (t : Tid) :
    InsertFrom w e w' t := by
  have other : ∀ {w1 : World} {u : Tid} {p : Pc}, w1.pc = w.pc → u ≠ t → (w1.at u p).pc t = w.pc t := by
    intro w1 u p h1 h2
    rw [World.at_ne _ (Ne.symm h2), h1]
  have triv : w'.pc t = w.pc t → InsertFrom w e w' t := by
    intro h
    unfold InsertFrom
    rw [h]
    exact ⟨fun c hc => .inl hc, fun _ _ _ _ _ _ _ hc => .inl hc⟩
  have none' : ∀ {p : Pc}, w'.pc t = p → (∀ c, p ≠ .hashKey c) → (∀ j m q, p ≠ .enter j m q) → (∀ j m r q, p ≠ .inside j m r q) → InsertFrom w e w' t := by
    intro p h h1 h2 h3
    exact (⟨fun c hc => absurd (h.symm.trans hc) (h1 c), fun j k hash v ch d q hc => by
      rcases hc with hc | ⟨r, hc⟩
      · exact absurd (h.symm.trans hc) (h2 _ _ _)
      · exact absurd (h.symm.trans hc) (h3 _ _ _ _)⟩ : InsertFrom w e w' t)
  cases s with
  | @call u c h =>
    by_cases hu : u = t
    · subst hu
      constructor
      · intro c' hc
        rw [World.at_pc] at hc
        refine .inr ⟨?_, by rw [World.at_pc, hc, h]; exact nofun⟩
        cases c <;> first | (cases hc; rfl) | cases hc
      · intro j k hash v ch d q hc
        rw [World.at_pc] at hc
        exfalso
        cases c <;> rcases hc with hc | ⟨p, hc⟩ <;> cases hc
    · exact triv (other rfl hu)
  | @hash u c k hash h hk e =>
    by_cases hu : u = t
    · subst hu
      constructor
      · intro c' hc
        rw [World.at_pc] at hc
        cases c <;> cases hc
      · intro j k' hash' v ch d q hc
        rw [World.at_pc] at hc
        right
        rw [h]
        cases c <;> rcases hc with hc | ⟨p, hc⟩ <;> cases hc
        rfl
    · exact triv (other rfl hu)
  | @readHash u a s h hs e hi =>
    by_cases hu : u = t
    · subst hu
      constructor
      · intro c' hc
        rw [World.at_pc] at hc
        cases hc
      · intro j k' hash' v ch d q hc
        rw [World.at_pc] at hc
        rcases hc with hc | ⟨p, hc⟩ <;> cases hc
    · exact triv (other rfl hu)
  | @readValue u a v h e =>
    by_cases hu : u = t
    · subst hu
      exact none' (World.at_pc _ _ _) nofun nofun nofun
    · exact triv (other rfl hu)
  | @lock u i m k h hi free =>
    by_cases hu : u = t
    · subst hu
      constructor
      · intro c' hc
        rw [World.at_pc] at hc
        cases hc
      · intro j k' hash' v ch d q hc
        rw [World.at_pc] at hc
        rcases hc with hc | ⟨p, hc⟩
        · cases hc
        · injection hc with h1 h2 h3 h4
          subst h1; subst h2; subst h4
          exact .inl (.inl h)
    · exact triv (other (w1 := w.own i (some u)) rfl hu)
  | @body u i m k β f next s s' b h hs e =>
    by_cases hu : u = t
    · subst hu
      constructor
      · intro c' hc
        rw [World.at_pc] at hc
        cases hc
      · intro j k' hash' v ch d q hc
        rw [World.at_pc] at hc
        rcases hc with hc | ⟨p, hc⟩
        · cases hc
        · injection hc with h1 h2 h3 h4
          subst h1; subst h2; subst h4
          exact .inl (.inr ⟨_, h⟩)
    · exact triv (other (w1 := { w with cache := setShard w.cache i s' }) rfl hu)
  | @unlock u i m k r h =>
    by_cases hu : u = t
    · subst hu
      have hp := World.at_pc (w.own i none) u (proceed k r)
      constructor
      · intro c' hc
        rw [hp] at hc
        cases k <;> cases r <;> simp only [proceed] at hc <;> (try split at hc) <;> cases hc
      · intro j k' hash' v ch d q hc
        rw [hp] at hc
        exfalso
        rcases hc with hc | ⟨p, hc⟩
        · cases k <;> cases r <;> simp only [proceed] at hc <;> (try split at hc) <;> cases hc
        · exact Race.proceed_ne _ _ _ _ _ _ hc
    · exact triv (other (w1 := w.own i none) rfl hu)
  | @idLock u h free =>
    by_cases hu : u = t
    · subst hu
      exact none' (World.at_pc _ _ _) nofun nofun nofun
    · exact triv (other (w1 := { w with idOwner := some u }) rfl hu)
  | @idNext u h =>
    by_cases hu : u = t
    · subst hu
      exact none' (World.at_pc _ _ _) nofun nofun nofun
    · exact triv (other (w1 := { w with cache := { w.cache with lastId := w.cache.lastId + 1 } }) rfl hu)
  | @idUnlock u n h =>
    by_cases hu : u = t
    · subst hu
      exact none' (World.at_pc _ _ _) nofun nofun nofun
    · exact triv (other (w1 := { w with idOwner := none }) rfl hu)
  | @ret u r h =>
    by_cases hu : u = t
    · subst hu
      exact none' (World.at_pc _ _ _) nofun nofun nofun
    · exact triv (other rfl hu)

/-- Where a thread goes that is about to release. -/
theorem release_step {w w' : World} {e : Option Ev} (s : Step hf code w e w') (t : Tid) (h : Handle)
    (hp : w.pc t = .readHash h ∨ ∃ q, w.pc t = .enter h.shard (.release h.addr) q) :
    (w'.pc t = .readHash h ∨ ∃ q, w'.pc t = .enter h.shard (.release h.addr) q) ∨ w'.owner h.shard = some t := by
  have other : ∀ {w1 : World} {u : Tid} {p : Pc}, w1.pc = w.pc → w.pc u ≠ w.pc t →
      ((w1.at u p).pc t = .readHash h ∨ ∃ q, (w1.at u p).pc t = .enter h.shard (.release h.addr) q) := by
    intro w1 u p h1 h2
    rw [World.at_ne _ (fun e => h2 (by rw [e])), h1]
    exact hp
  have ne : ∀ {u : Tid}, (∀ a, w.pc u ≠ .readHash a) → (∀ j m q, w.pc u ≠ .enter j m q) → w.pc u ≠ w.pc t := by
    intro u h1 h2 he
    rcases hp with hp | ⟨q, hp⟩
    · exact h1 _ (he.trans hp)
    · exact h2 _ _ _ (he.trans hp)
  cases s with
  | call c h' => exact .inl (other rfl (ne (by rw [h']; exact nofun) (by rw [h']; exact nofun)))
  | hash h' hk e => exact .inl (other rfl (ne (by rw [h']; exact nofun) (by rw [h']; exact nofun)))
  | @readHash u a s h' hs e hi =>
    by_cases hu : u = t
    · subst hu
      left; right
      rw [World.at_pc]
      rcases hp with hp | ⟨q, hp⟩
      · rw [h'] at hp; cases hp; exact ⟨_, rfl⟩
      · rw [h'] at hp; cases hp
    · left
      rw [World.at_ne _ (Ne.symm hu)]
      exact hp
  | readValue h' e => exact .inl (other rfl (ne (by rw [h']; exact nofun) (by rw [h']; exact nofun)))
  | @lock u i m k h' hi free =>
    by_cases hu : u = t
    · subst hu
      right
      rcases hp with hp | ⟨q, hp⟩
      · rw [h'] at hp; cases hp
      · rw [h'] at hp
        injection hp with h1
        subst h1
        simp [World.at, World.own]
    · left
      rw [World.at_ne _ (Ne.symm hu)]
      exact hp
  | body h' hs e => exact .inl (other rfl (ne (by rw [h']; exact nofun) (by rw [h']; exact nofun)))
  | unlock h' => exact .inl (other rfl (ne (by rw [h']; exact nofun) (by rw [h']; exact nofun)))
  | idLock h' free => exact .inl (other rfl (ne (by rw [h']; exact nofun) (by rw [h']; exact nofun)))
  | idNext h' => exact .inl (other rfl (ne (by rw [h']; exact nofun) (by rw [h']; exact nofun)))
  | idUnlock h' => exact .inl (other rfl (ne (by rw [h']; exact nofun) (by rw [h']; exact nofun)))
  | ret h' => exact .inl (other rfl (ne (by rw [h']; exact nofun) (by rw [h']; exact nofun)))

theorem Exec.calls (hH : HashFn hf) (x : Exec hf capacity N) (hlen : (hist x.ev N).length < 2 ^ 31) : ∀ n, n ≤ N → Calls x n := by
  intro n
  induction n with
  | zero =>
    intro _
    obtain ⟨c, -, h⟩ := x.start
    refine ⟨?_, ?_, fun i t h hi => absurd hi (Nat.not_lt_zero i)⟩
    · intro t c hc; rw [h] at hc; cases hc
    · intro t j k hash v ch d q hc; rw [h] at hc; rcases hc with hc | ⟨p, hc⟩ <;> cases hc
  | succ n ih =>
    intro hn
    have C := ih (by omega)
    have s := x.step n (by omega)
    refine ⟨?_, ?_, ?_⟩
    · intro t c hc
      rcases (insert_step s t).1 c hc with h | ⟨h1, h2⟩
      · obtain ⟨i, h1, h2⟩ := C.hashing t c h
        exact ⟨i, h1, h2.mono (Nat.le_succ n)⟩
      · exact ⟨n, h1, .self h2⟩
    · intro t j k hash v ch d q hc
      rcases (insert_step s t).2 j k hash v ch d q hc with h | h
      · obtain ⟨i, h1, h2⟩ := C.inserting t j k hash v ch d q h
        exact ⟨i, h1, h2.mono (Nat.le_succ n)⟩
      · obtain ⟨i, h1, h2⟩ := C.hashing t _ h
        exact ⟨i, h1, h2.mono (Nat.le_succ n)⟩
    · intro i t h hi he
      rcases Nat.lt_or_ge i n with hlt | hge
      · rcases C.releasing i t h hlt he with h1 | ⟨h1, h2⟩
        · exact .inl (h1.step (x.turn hH hlen (by omega) _))
        · rcases release_step s t h h2 with h3 | h3
          · exact .inr ⟨h1.mono (Nat.le_succ n), h3⟩
          · exact .inl (.inr ⟨t, h3, h1.mono (Nat.le_succ n)⟩)
      · have : i = n := by omega
        subst this
        rw [he] at s
        have hp : (x.w (i + 1)).pc t = .readHash h ∧ (x.w i).pc t = .idle := by
          generalize x.w (i + 1) = w' at s
          cases s with
          | call c h' => exact ⟨World.at_pc _ _ _, h'⟩
        exact .inr ⟨.self (by show (x.w (i + 1)).pc t ≠ (x.w i).pc t; rw [hp.1, hp.2]; exact nofun), .inl hp.1⟩

end CacheConc
end Lsmdb
