import Verif.Spec.Posix

/-! # Reasoning about code that makes system calls -/

namespace Lsmdb
namespace Posix

/-- If it returns then `Q`, if the machine crashes then `C`, and it has no undefined behaviour. -/
def Out.Sat {α : Type} (o : Out α) (Q : α → World → Prop) (C : World → Prop) : Prop :=
  match o with
  | .done a w => Q a w
  | .crash w => C w
  | .fault _ => False

theorem bind_eq {α β : Type} (x : P α) (f : α → P β) (w : World) :
    (x >>= f) w = match x w with
      | .done a w => f a w
      | .crash w => .crash w
      | .fault e => .fault e := rfl

theorem pure_eq {α : Type} (a : α) (w : World) : (pure a : P α) w = .done a w := rfl

theorem Out.Sat.bind {α β : Type} {x : P α} {f : α → P β} {w : World} {Q : β → World → Prop}
    {C : World → Prop} (h : (x w).Sat (fun a w' => (f a w').Sat Q C) C) : ((x >>= f) w).Sat Q C := by
  rw [bind_eq]; cases hx : x w <;> simp_all [Out.Sat]

theorem Out.Sat.pure {α : Type} {a : α} {w : World} {Q : α → World → Prop} {C : World → Prop} (h : Q a w) :
    ((pure a : P α) w).Sat Q C := h

theorem Out.Sat.pureM {α : Type} {x : M α} {a : α} {w : World} {Q : α → World → Prop} {C : World → Prop}
    (hx : x = .ok a) (h : Q a w) : (Posix.pureM x w).Sat Q C := by
  subst hx; exact h

theorem Out.Sat.mono {α : Type} {o : Out α} {Q Q' : α → World → Prop} {C C' : World → Prop}
    (h : o.Sat Q C) (hq : ∀ a w, Q a w → Q' a w) (hc : ∀ w, C w → C' w) : o.Sat Q' C' := by
  cases o with
  | done a w => exact hq a w h
  | crash w => exact hc w h
  | fault e => exact h

theorem Out.Sat.and {α : Type} {o : Out α} {Q Q' : α → World → Prop} {C C' : World → Prop}
    (h : o.Sat Q C) (h' : o.Sat Q' C') : o.Sat (fun a w => Q a w ∧ Q' a w) (fun w => C w ∧ C' w) := by
  cases o with
  | done a w => exact ⟨h, h'⟩
  | crash w => exact ⟨h, h'⟩
  | fault e => exact h

theorem Out.Sat.sys {α : Type} {call : α → List Call} {f : Choice → Kernel → α × Kernel} {w : World}
    {Q : α → World → Prop} {C : World → Prop} (hc : w.choices = [] → C w)
    (hd : ∀ c cs, w.choices = c :: cs → Q (f c (c.other w.k)).1
      ⟨(f c (c.other w.k)).2, cs, w.calls ++ call (f c (c.other w.k)).1⟩) :
    (Posix.sys call f w).Sat Q C := by
  unfold Posix.sys
  cases h : w.choices with
  | nil => exact hc h
  | cons c cs => exact hd c cs h

theorem Out.Sat.done {α : Type} {o : Out α} {Q : α → World → Prop} {C : World → Prop} {a : α} {w : World}
    (h : o.Sat Q C) (e : o = .done a w) : Q a w := by subst e; exact h

theorem Out.Sat.crash {α : Type} {o : Out α} {Q : α → World → Prop} {C : World → Prop} {w : World}
    (h : o.Sat Q C) (e : o = .crash w) : C w := by subst e; exact h

theorem Out.Sat.fault {α : Type} {o : Out α} {Q : α → World → Prop} {C : World → Prop} {e : Fault}
    (h : o.Sat Q C) : o ≠ .fault e := by rintro rfl; exact h

/-! ## The kernel -/

theorem toNat_lt_of_ofd {k : Kernel} {fd : Int} {o : Ofd} (h : k.ofd fd = some o) :
    0 ≤ fd ∧ k.fds[fd.toNat]? = some (some o) := by
  unfold Kernel.ofd at h
  split at h
  · exact nomatch h
  · refine ⟨by omega, ?_⟩
    cases hx : k.fds[fd.toNat]? with
    | none => rw [hx] at h; exact nomatch h
    | some x => rw [hx] at h; simp at h; rw [h]

theorem ofd_set_same {k : Kernel} {fd : Int} {o o' : Ofd} (h : k.ofd fd = some o) :
    Kernel.ofd { k with fds := k.fds.set fd.toNat (some o') } fd = some o' := by
  obtain ⟨h0, h1⟩ := toNat_lt_of_ofd h
  have hlt : fd.toNat < k.fds.length := by
    rcases Nat.lt_or_ge fd.toNat k.fds.length with h | h
    · exact h
    · rw [List.getElem?_eq_none h] at h1; exact nomatch h1
  unfold Kernel.ofd
  rw [if_neg (by omega)]
  simp [List.getElem?_set_self hlt]

theorem ofd_set_other {k : Kernel} {fd : Int} {i : Nat} {x : Option Ofd} (h : fd.toNat ≠ i) :
    Kernel.ofd { k with fds := k.fds.set i x } fd = k.ofd fd := by
  unfold Kernel.ofd
  split
  · rfl
  · simp only []
    rw [List.getElem?_set_ne (Ne.symm h)]

theorem freeFd_none (l : List (Option Ofd)) : l[Kernel.freeFd l]? = none ∨ l[Kernel.freeFd l]? = some none := by
  induction l with
  | nil => left; rfl
  | cons x r ih =>
    cases x with
    | none => right; rfl
    | some o => simpa [Kernel.freeFd] using ih

theorem freeFd_le (l : List (Option Ofd)) : Kernel.freeFd l ≤ l.length := by
  induction l with
  | nil => simp [Kernel.freeFd]
  | cons x r ih => cases x <;> simp [Kernel.freeFd]; omega

theorem putFd_get_same (l : List (Option Ofd)) (o : Ofd) :
    (Kernel.putFd l (Kernel.freeFd l) o)[Kernel.freeFd l]? = some (some o) := by
  unfold Kernel.putFd
  split
  · rename_i h; rw [List.getElem?_set_self h]
  · rename_i h
    have h1 := freeFd_le l
    have : Kernel.freeFd l = l.length := by omega
    rw [this]; simp

theorem putFd_get_other (l : List (Option Ofd)) (o : Ofd) (i : Nat) (h : i ≠ Kernel.freeFd l) :
    (Kernel.putFd l (Kernel.freeFd l) o)[i]? = l[i]? := by
  unfold Kernel.putFd
  split
  · rw [List.getElem?_set_ne (Ne.symm h)]
  · rename_i h2
    have h1 := freeFd_le l
    have h3 : Kernel.freeFd l = l.length := by omega
    rcases Nat.lt_or_ge i l.length with h4 | h4
    · rw [List.getElem?_append_left h4]
    · rw [List.getElem?_eq_none (by simp; omega), List.getElem?_eq_none h4]

end Posix
end Lsmdb
