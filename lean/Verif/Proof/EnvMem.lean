import Verif.Model.EnvMem
import Verif.Spec.EnvI
import Verif.Proof.MemEnv2

/-! The in-memory `Env` through the interface. -/

namespace Lsmdb
namespace Iface

open MemEnv (St lit)

/-- The status is OK exactly when there is an object. -/
def OpenRes (r : M (St × Option Nat × MemEnv.Env)) : Prop :=
  ∀ st h e, r = .ok (st, h, e) → (st = .ok ↔ h.isSome = true)

theorem openRes_bind {α : Type} (x : M α) (f : α → M (St × Option Nat × MemEnv.Env)) (h : ∀ a, OpenRes (f a)) : OpenRes (x >>= f) := by
  intro st p e hr
  cases hx : x with
  | error er => rw [hx] at hr; exact nomatch hr
  | ok a => rw [hx] at hr; exact h a st p e hr

theorem openRes_ok (i : Nat) (e : MemEnv.Env) : OpenRes (pure (.ok, some i, e)) := by
  intro st p e' h; cases h; simp

theorem openRes_err (f : Bytes) (e : MemEnv.Env) : OpenRes (pure (MemEnv.notFound f, none, e)) := by
  intro st p e' h; cases h; simp [MemEnv.notFound]

theorem openRes_seq (e : MemEnv.Env) (f : Bytes) : OpenRes (MemEnv.NewSequentialFile e f) := by
  unfold MemEnv.NewSequentialFile
  split
  · exact openRes_err _ _
  · exact openRes_bind _ _ (fun _ => openRes_ok _ _)

theorem openRes_rand (e : MemEnv.Env) (f : Bytes) : OpenRes (MemEnv.NewRandomAccessFile e f) := by
  unfold MemEnv.NewRandomAccessFile
  split
  · exact openRes_err _ _
  · exact openRes_bind _ _ (fun _ => openRes_ok _ _)

theorem openRes_wr (e : MemEnv.Env) (f : Bytes) : OpenRes (MemEnv.NewWritableFile e f) := by
  unfold MemEnv.NewWritableFile
  simp only []
  split
  · exact openRes_bind _ _ (fun _ => openRes_bind _ _ (fun _ => openRes_bind _ _ (fun _ => openRes_ok _ _)))
  · exact openRes_bind _ _ (fun _ => openRes_bind _ _ (fun _ => openRes_bind _ _ (fun _ => openRes_ok _ _)))

theorem openRes_app (e : MemEnv.Env) (f : Bytes) : OpenRes (MemEnv.NewAppendableFile e f) := by
  unfold MemEnv.NewAppendableFile
  simp only []
  split
  · exact openRes_bind _ _ (fun _ => openRes_bind _ _ (fun _ => openRes_bind _ _ (fun _ => openRes_ok _ _)))
  · exact openRes_bind _ _ (fun _ => openRes_bind _ _ (fun _ => openRes_ok _ _))

theorem open_call {F : MemEnv.Env → M (St × Option Nat × MemEnv.Env)} (hF : ∀ e, OpenRes (F e)) {s s' : MemState} {st : St} {p : Ptr}
    (h : (do let (s, p) ← onFiles (m := M) fun e => (do let (s, h, e) ← F e; return ((s, Ptr.of h), e))
             return Reply.opened s p : StateT MemState M Reply) s = .ok (.opened st p, s')) :
    if st = .ok then ∃ x, p = .obj x else p = .null := by
  simp only [onFiles, bind, StateT.bind, Except.bind] at h
  cases hf : F s.env with
  | error e => rw [hf] at h; simp [ofM, Faults.fault] at h
  | ok r =>
    obtain ⟨st', x, e'⟩ := r
    rw [hf] at h
    have := hF s.env st' x e' hf
    simp [ofM, pure, StateT.pure, Except.pure] at h
    obtain ⟨⟨rfl, rfl⟩, _⟩ := h
    cases x with
    | none => simp [Ptr.of] at this ⊢; simp [this]
    | some x => simp [Ptr.of] at this ⊢; simp [this]

end Iface
end Lsmdb
