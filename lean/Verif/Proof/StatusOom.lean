import Verif.Proof.Status
import Verif.Spec.StatusOom

namespace Lsmdb
namespace Status
open Spec

theorem oom_get_of {m : Mem} {i : Nat} {p : Option Nat} (hp : m.objs i = some p) : Status.get m i = .ok p := by
  simp [Status.get, hp]

theorem copyThrows {m : Mem} {p : Nat} {v : SVal} (h : Repr m.heap (some p) v) : CopyStateThrows m p = .ok () := by
  obtain ⟨c, msg, _, hl, hh⟩ := h
  have h1 : load m p = .ok (rep c msg) := by rw [load, hh]
  simp only [CopyStateThrows, h1, bind, Except.bind, readSize_rep c msg (by omega), pure, Except.pure]

theorem step_false {m : Mem} {e e' : SEnv} (hi : Inv m e) (o : Op) (hs : sstep e o = some e') :
    ∃ m', stepO m o false = .ok (m', false) ∧ Inv m' e' := by
  obtain ⟨m', a, b⟩ := step_inv hi o hs
  refine ⟨m', ?_, b⟩
  simp only [stepO, Bool.false_eq_true, if_false, a, bind, Except.bind, pure, Except.pure]

theorem step_plain {m : Mem} {e e' : SEnv} (hi : Inv m e) (o : Op) (hs : sstep e o = some e')
    (ho : stepThrows m o = (do return (← step m o, false))) : ∃ m', stepO m o true = .ok (m', false) ∧ Inv m' e' := by
  obtain ⟨m', a, b⟩ := step_inv hi o hs
  refine ⟨m', ?_, b⟩
  simp only [stepO, if_true, ho, a, bind, Except.bind, pure, Except.pure]

theorem stepO_inv {m : Mem} {e e' : SEnv} {o : Op} {throws t : Bool} (hi : Inv m e)
    (hs : sstepO e o throws = some (e', t))
    (hsp : throws = true → ∀ i j v, o = .copyAssign i j → e i = some v → v.isErr = true → needsMemory e o = false) :
    ∃ m', stepO m o throws = .ok (m', t) ∧ Inv m' e' := by
  unfold sstepO at hs
  cases hss : sstep e o with
  | none => rw [hss] at hs; cases hs
  | some e1 =>
    rw [hss] at hs
    cases throws with
    | false =>
      simp only [Bool.false_and, Bool.false_eq_true, if_false, Option.some.injEq, Prod.mk.injEq] at hs
      obtain ⟨rfl, rfl⟩ := hs
      exact step_false hi o hss
    | true =>
      simp only [Bool.true_and] at hs
      cases o with
      | mkOk i => simp only [needsMemory, Bool.false_eq_true, if_false, Option.some.injEq, Prod.mk.injEq] at hs
                  obtain ⟨rfl, rfl⟩ := hs; exact step_plain hi _ hss rfl
      | moveCtor i j => simp only [needsMemory, Bool.false_eq_true, if_false, Option.some.injEq, Prod.mk.injEq] at hs
                        obtain ⟨rfl, rfl⟩ := hs; exact step_plain hi _ hss rfl
      | moveAssign i j => simp only [needsMemory, Bool.false_eq_true, if_false, Option.some.injEq, Prod.mk.injEq] at hs
                          obtain ⟨rfl, rfl⟩ := hs; exact step_plain hi _ hss rfl
      | destroy i => simp only [needsMemory, Bool.false_eq_true, if_false, Option.some.injEq, Prod.mk.injEq] at hs
                     obtain ⟨rfl, rfl⟩ := hs; exact step_plain hi _ hss rfl
      | mkErr i c m1 m2 =>
        simp only [needsMemory, if_true, Option.some.injEq, Prod.mk.injEq] at hs
        obtain ⟨rfl, rfl⟩ := hs
        exact ⟨m, rfl, hi⟩
      | copyCtor i j =>
        cases hj : e j with
        | none => simp [sstep, hj] at hss
        | some v =>
          obtain ⟨p, hp, hr⟩ := hi.obj hj
          cases v with
          | ok =>
            simp only [needsMemory, hj, SVal.isErr, Bool.false_eq_true, if_false, Option.some.injEq, Prod.mk.injEq] at hs
            obtain ⟨rfl, rfl⟩ := hs
            have hp0 : p = none := by
              cases p with
              | none => rfl
              | some p => obtain ⟨_, _, h, _⟩ := hr; cases h
            subst hp0
            refine step_plain hi _ hss ?_
            simp only [stepThrows, oom_get_of hp, bind, Except.bind]
          | err k msg =>
            simp only [needsMemory, hj, SVal.isErr, if_true, Option.some.injEq, Prod.mk.injEq] at hs
            obtain ⟨rfl, rfl⟩ := hs
            cases p with
            | none => cases hr
            | some p =>
              refine ⟨m, ?_, hi⟩
              simp only [stepO, if_true, stepThrows, oom_get_of hp, bind, Except.bind, copyThrows hr, pure, Except.pure]
      | copyAssign i j =>
        cases hii : e i with
        | none => simp [sstep, hii] at hss
        | some u =>
        cases hj : e j with
        | none => simp [sstep, hii, hj] at hss
        | some v =>
          obtain ⟨p, hp, hr⟩ := hi.obj hii
          obtain ⟨q, hq, hrq⟩ := hi.obj hj
          by_cases hn : needsMemory e (.copyAssign i j) = true
          · -- the left side is OK
            rw [if_pos hn] at hs
            simp only [Option.some.injEq, Prod.mk.injEq] at hs
            obtain ⟨rfl, rfl⟩ := hs
            have hu : u = .ok := by
              cases u with
              | ok => rfl
              | err k msg => have := hsp rfl i j _ rfl hii rfl; rw [this] at hn; cases hn
            subst hu
            have hp0 : p = none := by
              cases p with
              | none => rfl
              | some p => obtain ⟨_, _, h, _⟩ := hr; cases h
            subst hp0
            simp only [needsMemory, hj, Bool.and_eq_true] at hn
            cases q with
            | none => cases hrq; simp [SVal.isErr] at hn
            | some q =>
              refine ⟨m, ?_, hi⟩
              simp only [stepO, if_true, stepThrows, oom_get_of hp, oom_get_of hq, bind, Except.bind, free, copyThrows hrq, pure, Except.pure]
              rw [if_pos (by simp)]
          · rw [if_neg hn] at hs
            simp only [Option.some.injEq, Prod.mk.injEq] at hs
            obtain ⟨rfl, rfl⟩ := hs
            refine step_plain hi _ hss ?_
            simp only [stepThrows, step, oom_get_of hp, oom_get_of hq, bind, Except.bind]
            by_cases hpq : p = q
            · simp only [hpq, ne_eq, not_true_eq_false, if_false]
              rfl
            · simp only [ne_eq, hpq, not_false_eq_true, if_true]
              cases q with
              | none => cases free m p <;> rfl
              | some q =>
                exfalso
                apply hn
                simp only [needsMemory, hj]
                obtain ⟨k, msg, rfl, _⟩ := hrq
                simp only [SVal.isErr, Bool.and_true, decide_eq_true_eq]
                rintro rfl
                rw [hp] at hq
                exact hpq (Option.some.inj hq)

theorem runO_inv {os : List (Op × Bool)} : ∀ {m : Mem} {e e' : SEnv} {ts : List Bool}, Inv m e → srunO e os = some (e', ts) →
    Spared e os → ∃ m', runO m os = .ok (m', ts) ∧ Inv m' e' := by
  induction os with
  | nil => intro m e e' ts hi h _; cases h; exact ⟨m, rfl, hi⟩
  | cons x os ih =>
    obtain ⟨o, throws⟩ := x
    intro m e e' ts hi h hsp
    simp only [srunO] at h
    cases h1 : sstepO e o throws with
    | none => rw [h1] at h; cases h
    | some r =>
      obtain ⟨e1, t⟩ := r
      rw [h1] at h
      simp only at h
      cases h2 : srunO e1 os with
      | none => rw [h2] at h; cases h
      | some r =>
        obtain ⟨e2, ts2⟩ := r
        rw [h2] at h
        cases h
        obtain ⟨m1, a1, b1⟩ := stepO_inv hi h1 hsp.1
        obtain ⟨m2, a2, b2⟩ := ih b1 h2 (hsp.2 _ _ h1)
        refine ⟨m2, ?_, b2⟩
        simp only [runO, a1, a2, bind, Except.bind, pure, Except.pure]

end Status
end Lsmdb
