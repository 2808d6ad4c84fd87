import Verif.Proof.MemConc12

/-!
# Completing runs, and running schedules
-/

namespace Lsmdb
namespace MemConc
open MemEnv Spec
open CacheConc (Tid)

variable {H : Hist} {t : Tid} {o : Op} {a : Atom} {w : World}

/-! ## Completion -/

/-- A state in which calls are in progress goes on to one in which none is. -/
theorem Run.complete (r : Run w H) (d : Disciplined H) :
    ∃ w' H', Run w' (H' ++ H) ∧ Quiet w' ∧ ∀ e ∈ H', ∃ t x, e = Ev.ret t x := by
  refine Classical.byContradiction fun hno => ?_
  let P : World → Prop := fun w1 => ∃ H', Run w1 (H' ++ H) ∧ Disciplined (H' ++ H) ∧ ∀ e ∈ H', ∃ t x, e = Ev.ret t x
  have step : ∀ w1, P w1 → ∃ w2, P w2 ∧ ∃ e, Step w1 e w2 ∧ NotCall e := by
    rintro w1 ⟨H', r1, d1, hr⟩
    have nq : ¬ Quiet w1 := fun q => hno ⟨w1, H', r1, q, hr⟩
    obtain ⟨t, ht⟩ := Classical.not_forall.mp nq
    obtain ⟨S, s⟩ := r1.sim d1
    obtain ⟨e, w2, st, nc⟩ := s.moves d1 ht
    cases e with
    | none => exact ⟨w2, ⟨H', .internal r1 st, d1, hr⟩, none, st, nc⟩
    | some e =>
      cases e with
      | call u o => exact absurd rfl (nc u o)
      | ret u x =>
        refine ⟨w2, ⟨.ret u x :: H', .ret r1 st, d1.ret, ?_⟩, _, st, nc⟩
        intro e he
        rcases List.mem_cons.mp he with he | he
        · exact ⟨u, x, he⟩
        · exact hr e he
  let f : Nat → { w1 // P w1 } := fun n => Nat.rec ⟨w, [], r, d, by (intro e he; cases he)⟩
    (fun _ x => ⟨(step x.1 x.2).choose, (step x.1 x.2).choose_spec.1⟩) n
  obtain ⟨N, hN⟩ := r.finite
  exact no_endless (N := N) (f := fun n => (f n).1) hN (fun n => (step (f n).1 (f n).2).choose_spec.2)

/-! ## Schedules -/

/-- One thing that happens: a client calls, or a thread takes its next step. -/
inductive Move where
  | call (t : Tid) (o : Op)
  | step (t : Tid)

def hasB (w : World) : Lock → Bool
  | .env => w.exists_
  | .refs i => match w.env.files[i]? with | some (some _) => true | _ => false
  | .blocks i => match w.env.files[i]? with | some (some _) => true | _ => false

theorem hasB_sound {l : Lock} (h : hasB w l = true) : w.Has l := by
  have key : ∀ i, (match w.env.files[i]? with | some (some _) => true | _ => false) = true → Live w.env i := by
    intro i h
    split at h
    · rename_i f e; exact ⟨f, e⟩
    · cases h
  cases l with
  | env => exact h
  | refs i => exact key i h
  | blocks i => exact key i h

/-- The next step of a thread that does not give memory back. -/
def fireCode (w : World) (t : Tid) : Code → Option (Option Ev × World)
  | .act f next => match f w.env with
    | .ok (e, b) => some (none, { w with env := e }.at t (.run (next b)))
    | .error _ => none
  | .lock l next => if hasB w l = true ∧ w.owner l = none then some (none, (w.own l (some t)).at t (.run next)) else none
  | .unlock l next => if hasB w l = true ∧ w.owner l = some t then some (none, (w.own l none).at t (.run next)) else none
  | .ret r => some (some (.ret t r), w.at t .idle)
  | .free i next => if hasB w (.refs i) = true ∧ w.owner (.refs i) = none ∧ w.owner (.blocks i) = none then
      some (none, { w with env := { w.env with files := w.env.files.set i none, freed := w.env.freed ++ [i] } }.at t (.run next))
    else none
  | .gone next => if w.exists_ = true ∧ w.owner .env = none then some (none, { w with exists_ := false }.at t (.run next)) else none

/-- What happens, if it can. -/
def fire (w : World) : Move → Option (Option Ev × World)
  | .call t o => match w.pc t with
    | .idle => some (some (.call t o), w.at t (.run (code o)))
    | .run _ => none
  | .step t => match w.pc t with
    | .idle => none
    | .run c => fireCode w t c

theorem fireCode_sound {c : Code} {e : Option Ev} {w' : World} (hp : w.pc t = .run c) (h : fireCode w t c = some (e, w')) :
    Step w e w' := by
  cases c with
  | act f next =>
    simp only [fireCode] at h
    split at h
    · rename_i e' b eq
      injection h with h
      injection h with h1 h2
      subst h1; subst h2
      exact .act hp eq
    · cases h
  | lock l next =>
    simp only [fireCode] at h
    split at h
    · rename_i hc
      injection h with h
      injection h with h1 h2
      subst h1; subst h2
      exact .lock hp (hasB_sound hc.1) hc.2
    · cases h
  | unlock l next =>
    simp only [fireCode] at h
    split at h
    · rename_i hc
      injection h with h
      injection h with h1 h2
      subst h1; subst h2
      exact .unlock hp (hasB_sound hc.1) hc.2
    · cases h
  | ret r =>
    injection h with h
    injection h with h1 h2
    subst h1; subst h2
    exact .ret hp
  | free i next =>
    simp only [fireCode] at h
    split at h
    · rename_i hc
      injection h with h
      injection h with h1 h2
      subst h1; subst h2
      exact .free hp (hasB_sound (l := .refs i) hc.1) hc.2.1 hc.2.2
    · cases h
  | gone next =>
    simp only [fireCode] at h
    split at h
    · rename_i hc
      injection h with h
      injection h with h1 h2
      subst h1; subst h2
      exact .gone hp hc.1 hc.2
    · cases h

theorem fire_sound {m : Move} {e : Option Ev} {w' : World} (h : fire w m = some (e, w')) : Step w e w' := by
  cases m with
  | call t o =>
    simp only [fire] at h
    split at h
    · rename_i hp
      injection h with h
      injection h with h1 h2
      subst h1; subst h2
      exact .call o hp
    · cases h
  | step t =>
    simp only [fire] at h
    split at h
    · cases h
    · rename_i c hp
      exact fireCode_sound hp h

/-- Several moves, with the history. -/
def play : World → Hist → List Move → Option (World × Hist)
  | w, H, [] => some (w, H)
  | w, H, m :: ms => match fire w m with
    | some (some e, w') => play w' (e :: H) ms
    | some (none, w') => play w' H ms
    | none => none

/-- A schedule is a run if its calls are permitted. -/
theorem play_run {ms : List Move} {w' : World} {H' : Hist} (r : Run w H) (h : play w H ms = some (w', H'))
    (ap : AllPermitted H') : Run w' H' ∧ H <:+ H' := by
  have mono : ∀ {ms w H w' H'}, play w H ms = some (w', H') → H <:+ H' := by
    intro ms
    induction ms with
    | nil => intro w H w' H' h; injection h with h; injection h with h1 h2; rw [h2]
    | cons m ms ih =>
      intro w H w' H' h
      simp only [play] at h
      split at h
      · exact (List.suffix_cons _ _).trans (ih h)
      · exact ih h
      · cases h
  refine ⟨?_, mono h⟩
  induction ms generalizing w H with
  | nil => injection h with h; injection h with h1 h2; rw [← h1, ← h2]; exact r
  | cons m ms ih =>
    simp only [play] at h
    split at h
    · rename_i e w1 hf
      have hs := mono h
      cases e with
      | call t o => exact ih (.call r (fire_sound hf) (ap t o H hs)) h
      | ret t x => exact ih (.ret r (fire_sound hf)) h
    · rename_i w1 hf
      exact ih (.internal r (fire_sound hf)) h
    · cases h

end MemConc
end Lsmdb
