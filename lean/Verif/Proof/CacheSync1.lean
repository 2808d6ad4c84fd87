import Verif.Spec.CacheSync
import Verif.Proof.CacheSync0
import Verif.Proof.CacheRace2
import Verif.Proof.CacheConc7
import Verif.Proof.HappensBefore
import Verif.Props.CacheConc

/-!
# Happens before in the shared cache
-/

namespace Lsmdb
namespace CacheConc
open Cache Spec Props

variable {hf : Slice → M UInt32} {capacity : UInt64} {N : Nat}

theorem Exec.run (x : Exec hf capacity N) : ∀ n, n ≤ N → Run hf code capacity (x.w n) (hist x.ev n) := by
  intro n
  induction n with
  | zero =>
    intro _
    obtain ⟨c, h1, h2⟩ := x.start
    rw [h2]
    exact .init h1
  | succ n ih =>
    intro hn
    have r := ih (by omega)
    have s := x.step n (by omega)
    have p := x.rules n (by omega)
    unfold hist
    cases e : x.ev n with
    | none => rw [e] at s; exact .internal r s
    | some ev =>
      rw [e] at s
      cases ev with
      | call t c => exact .call r s (p t c e)
      | ret t y => exact .ret r s

theorem hist_length (ev : Nat → Option Ev) {i j : Nat} (h : i ≤ j) : (hist ev i).length ≤ (hist ev j).length := by
  induction h with
  | refl => exact Nat.le_refl _
  | step h ih => simp only [hist, List.length_append]; omega

/-- The next program is another one. -/
theorem prog_ne {σ α β : Type} (f : σ → M (σ × β)) (next : β → Prog σ α) (b : β) : next b ≠ .step f next := by
  have key : ∀ p : Prog σ α, ∀ {β : Type} (f : σ → M (σ × β)) (next : β → Prog σ α) (b : β), p = .step f next → next b ≠ p := by
    intro p
    induction p with
    | done a => intro _ _ _ _ h; cases h
    | step f0 next0 ih =>
      intro β f next b h hb
      injection h with h1 h2 h3
      subst h1
      cases h2
      cases h3
      exact ih b _ _ b hb rfl
  exact fun h => key _ f next b rfl h

/-- The thread of a step, and what the step does to its position. -/
theorem thread_of {w w' : World} {e : Option Ev} (s : Step hf code w e w') :
    ∃ t, w'.pc t ≠ w.pc t ∧ ∀ u, u ≠ t → w'.pc u = w.pc u := by
  have key : ∀ (w1 : World) (t : Tid) (p : Pc), w1.pc = w.pc → p ≠ w.pc t →
      (w1.at t p).pc t ≠ w.pc t ∧ ∀ u, u ≠ t → (w1.at t p).pc u = w.pc u := by
    intro w1 t p h1 h2
    refine ⟨by rw [World.at_pc]; exact h2, fun u hu => ?_⟩
    rw [World.at_ne _ hu, h1]
  cases s with
  | @call t c h => exact ⟨t, key _ _ _ rfl (by rw [h]; cases c <;> exact nofun)⟩
  | @hash t c k hash h hk e => exact ⟨t, key _ _ _ rfl (by rw [h]; cases c <;> exact nofun)⟩
  | @readHash t a s h hs e hi => exact ⟨t, key _ _ _ rfl (by rw [h]; exact nofun)⟩
  | @readValue t a v h e => exact ⟨t, key _ _ _ rfl (by rw [h]; exact nofun)⟩
  | @lock t i m k h hi free => exact ⟨t, key (w.own i (some t)) _ _ rfl (by rw [h]; exact nofun)⟩
  | @body t i m k β f next s s' b h hs e =>
    refine ⟨t, key { w with cache := setShard w.cache i s' } _ _ rfl ?_⟩
    rw [h]
    intro he
    injection he with _ _ he _
    exact prog_ne f next b he
  | @unlock t i m k r h => exact ⟨t, key (w.own i none) _ _ rfl (by rw [h]; exact Race.proceed_ne _ _ _ _ _ _)⟩
  | @idLock t h free => exact ⟨t, key { w with idOwner := some t } _ _ rfl (by rw [h]; exact nofun)⟩
  | @idNext t h => exact ⟨t, key { w with cache := { w.cache with lastId := w.cache.lastId + 1 } } _ _ rfl (by rw [h]; exact nofun)⟩
  | @idUnlock t n h => exact ⟨t, key { w with idOwner := none } _ _ rfl (by rw [h]; exact nofun)⟩
  | @ret t r h => exact ⟨t, key _ _ _ rfl (by rw [h]; exact nofun)⟩

/-- A thread that moves is the one of the step. -/
theorem only_thread {w w' : World} {e : Option Ev} (s : Step hf code w e w') {t u : Tid} (ht : w'.pc t ≠ w.pc t) (hu : w'.pc u ≠ w.pc u) :
    t = u := by
  obtain ⟨v, -, h⟩ := thread_of s
  have h1 : t = v := Classical.byContradiction fun hn => ht (h t hn)
  have h2 : u = v := Classical.byContradiction fun hn => hu (h u hn)
  rw [h1, h2]

/-- What a step does to a mutex. -/
theorem holder_step {w w' : World} {e : Option Ev} (s : Step hf code w e w') (own : ∀ t i m p k, w.pc t = .inside i m p k → w.owner i = some t)
    (idown : ∀ t n, w.pc t = .idLeave n → w.idOwner = some t) (m : Option Nat) :
    w'.holder m = w.holder m ∨ (∃ t, w'.pc t ≠ w.pc t ∧ w.holder m = none ∧ w'.holder m = some t) ∨
      (∃ t, w'.pc t ≠ w.pc t ∧ w.holder m = some t ∧ w'.holder m = none) := by
  cases s with
  | call c h => left; cases m <;> rfl
  | hash h hk e => left; cases m <;> rfl
  | readHash h hs e hi => left; cases m <;> rfl
  | readValue h e => left; cases m <;> rfl
  | @lock t i m' k h hi free =>
    cases m with
    | none => left; rfl
    | some j =>
      by_cases hj : j = i
      · subst hj
        refine .inr (.inl ⟨t, ?_, free, by simp [World.holder, World.at, World.own]⟩)
        rw [World.at_pc, h]; exact nofun
      · left; simp [World.holder, World.at, World.own, hj]
  | body h hs e => left; cases m <;> rfl
  | @unlock t i m' k r h =>
    cases m with
    | none => left; rfl
    | some j =>
      by_cases hj : j = i
      · subst hj
        refine .inr (.inr ⟨t, ?_, own _ _ _ _ _ h, by simp [World.holder, World.at, World.own]⟩)
        rw [World.at_pc, h]; exact Race.proceed_ne _ _ _ _ _ _
      · left; simp [World.holder, World.at, World.own, hj]
  | @idLock t h free =>
    cases m with
    | none => exact .inr (.inl ⟨t, by rw [World.at_pc, h]; exact nofun, free, rfl⟩)
    | some j => left; rfl
  | idNext h => left; cases m <;> rfl
  | @idUnlock t n h =>
    cases m with
    | none => exact .inr (.inr ⟨t, by rw [World.at_pc, h]; exact nofun, idown _ _ h, rfl⟩)
    | some j => left; rfl
  | ret h => left; cases m <;> rfl

theorem Exec.own (hH : HashFn hf) (x : Exec hf capacity N) (hlen : (hist x.ev N).length < 2 ^ 31) {n : Nat} (hn : n ≤ N) :
    (∀ t i m p k, (x.w n).pc t = .inside i m p k → (x.w n).owner i = some t) ∧
    (∀ t y, (x.w n).pc t = .idLeave y → (x.w n).idOwner = some t) := by
  obtain ⟨a, A, i, S⟩ := (x.run n hn).sim hH code_implements code_steady (Nat.lt_of_le_of_lt (hist_length _ hn) hlen)
  constructor
  · intro t i m p k h
    have := S.pc t
    rw [h] at this
    exact this.2.1
  · intro t y h
    have := S.pc t
    rw [h] at this
    exact this.2

theorem Exec.turn (hH : HashFn hf) (x : Exec hf capacity N) (hlen : (hist x.ev N).length < 2 ^ 31) {n : Nat} (hn : n < N) (m : Option Nat) :
    Turn x.sync n m ((x.w n).holder m) ((x.w (n + 1)).holder m) := by
  obtain ⟨o1, o2⟩ := x.own hH hlen (Nat.le_of_lt hn)
  rcases holder_step (x.step n hn) o1 o2 m with hk | ⟨t, h1, h2, h3⟩ | ⟨t, h1, h2, h3⟩
  · rw [hk]
    exact .keep fun hu => hu.1 (by rw [← hk]; exact hu.2)
  · rw [h2, h3]
    exact .lock (fun hu => hu.1 h2) ⟨h2, by rw [h3]; exact nofun⟩ h1
  · rw [h2, h3]
    exact .unlock ⟨by rw [h2]; exact nofun, h3⟩ h1

theorem Exec.guarded (hH : HashFn hf) (x : Exec hf capacity N) (hlen : (hist x.ev N).length < 2 ^ 31) (m : Option Nat) :
    ∀ n, n ≤ N → Guarded x.sync n ((x.w n).holder m) m
  | 0, _ => Guarded.zero
  | n + 1, hn => (x.guarded hH hlen m n (by omega)).step (x.turn hH hlen (by omega) m)

end CacheConc
end Lsmdb
