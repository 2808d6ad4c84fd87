import Verif.Spec.EnvI

/-! `ErrorEnv`. -/

namespace Lsmdb
namespace Iface

open MemEnv (St lit)

variable {m : Type → Type} [Monad m] [LawfulMonad m] [Faults m]

theorem error_call (target : Env m) (c : Call) (s : ErrState) (h : s.writable_file_error = false ∨ c.creates = none) :
    ((ErrorEnv target).call c).run s = (do return (← target.call c, s)) := by
  cases c <;> simp [Env.call, ErrorEnv, EnvWapper, Env.lift, Call.creates] at h ⊢
  all_goals simp [h]

theorem error_fake (target : Env m) (c : Call) (f : Bytes) (s : ErrState) (h : s.writable_file_error = true) (hc : c.creates = some f)
    (hn : s.num_writable_file_errors < 2147483647) :
    ((ErrorEnv target).call c).run s =
      pure (.opened (.err .ioError f (lit "fake error")) .null, { s with num_writable_file_errors := s.num_writable_file_errors + 1 }) := by
  have : ¬ (s.num_writable_file_errors + 1 > 2147483647) := by omega
  cases c <;> simp [Call.creates] at hc <;> subst hc <;>
  simp [Env.call, ErrorEnv, h, fakeError, this]

theorem error_acts (target : Env m) (acts : List Act) (s : ErrState)
    (hn : s.num_writable_file_errors + acts.length ≤ 2147483647) :
    (runActs (ErrorEnv target) acts).run s = (do
      let (rs, b, n) ← fakes target s.writable_file_error acts
      return (rs, ⟨b, s.num_writable_file_errors + (n : Nat)⟩)) := by
  induction acts generalizing s with
  | nil => simp [runActs, fakes]
  | cons a as ih =>
    cases a with
    | setError b =>
      simp only [runActs, fakes, StateT.run_bind, StateT.run_modify, pure_bind]
      exact ih _ (by simp only [List.length_cons] at hn ⊢; omega)
    | call c =>
      have hl : s.num_writable_file_errors + as.length ≤ 2147483647 := by simp only [List.length_cons] at hn; omega
      have plain : (s.writable_file_error = false ∨ c.creates = none) →
          (runActs (ErrorEnv target) (.call c :: as)).run s = (do
            let r ← target.call c
            let (rs, b, n) ← fakes target s.writable_file_error as
            return (r :: rs, ⟨b, s.num_writable_file_errors + (n : Nat)⟩)) := by
        intro h
        simp [runActs, error_call target c s h, ih s hl]
      cases hf : s.writable_file_error with
      | false => rw [plain (.inl hf)]; simp [fakes, hf]
      | true =>
        cases hc : c.creates with
        | none => rw [plain (.inr hc)]; simp [fakes, hc, hf]
        | some f =>
          have hlt : s.num_writable_file_errors < 2147483647 := by simp only [List.length_cons] at hn; omega
          have := ih { s with num_writable_file_errors := s.num_writable_file_errors + 1 }
            (by simp only [List.length_cons] at hn ⊢; omega)
          simp only [hf] at this
          simp [runActs, error_fake target c f s hf hc hlt, this, fakes, hc, hf, Int.add_assoc, Int.add_comm, Int.add_left_comm]

end Iface
end Lsmdb
