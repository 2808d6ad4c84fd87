import Verif.Proof.MemSync4
import Verif.Proof.MemConc15
import Mathlib.Data.List.Induction

/-!
# Every run of the shared in-memory Env is an execution
-/

namespace Lsmdb
namespace MemConc
open MemEnv
open CacheConc (Tid)

/-- An execution with one more step. -/
theorem Exec.add {N : Nat} (x : Exec N) {e : Option Ev} {w' : World} (s : Step (x.w N) e w')
    (p : ∀ t o, e = some (.call t o) → Permitted (hist x.ev N) o) :
    ∃ y : Exec (N + 1), y.w (N + 1) = w' ∧ hist y.ev (N + 1) = e.toList ++ hist x.ev N ∧
      ∀ i, i ≤ N → y.w i = x.w i ∧ hist y.ev i = hist x.ev i := by
  have hh : ∀ n, n ≤ N → hist (fun i => if i = N then e else x.ev i) n = hist x.ev n := by
    intro n
    induction n with
    | zero => intro _; rfl
    | succ n ih =>
      intro hn
      simp only [hist]
      rw [ih (by omega), if_neg (by omega)]
  refine ⟨⟨fun i => if i = N + 1 then w' else x.w i, fun i => if i = N then e else x.ev i, ?_, ?_, ?_⟩, ?_, ?_, ?_⟩
  · show (if 0 = N + 1 then w' else x.w 0) = _
    rw [if_neg (by omega)]
    exact x.start
  · intro i hi
    rw [if_neg (by omega : i ≠ N + 1)]
    by_cases hiN : i = N
    · subst hiN
      rw [if_pos rfl, if_pos rfl]
      exact s
    · rw [if_neg hiN, if_neg (by omega)]
      exact x.step i (by omega)
  · intro i hi t o he
    rw [hh i (by omega)]
    by_cases hiN : i = N
    · subst hiN
      rw [if_pos rfl] at he
      exact p t o he
    · rw [if_neg hiN] at he
      exact x.rules i (by omega) t o he
  · simp
  · show (if N = N then e else x.ev N).toList ++ hist (fun i => if i = N then e else x.ev i) N = _
    rw [if_pos rfl, hh N (Nat.le_refl N)]
  · intro i hi
    exact ⟨if_neg (by omega), hh i hi⟩

theorem Exec.none : ∃ x : Exec 0, x.w 0 = World.init ∧ hist x.ev 0 = [] :=
  ⟨⟨fun _ => World.init, fun _ => .none, rfl, fun i hi => absurd hi (Nat.not_lt_zero i), fun i hi => absurd hi (Nat.not_lt_zero i)⟩, rfl, rfl⟩

/-- Every run is an execution. -/
theorem Run.exec {w : World} {H : Hist} (r : Run w H) : ∃ (N : Nat) (x : Exec N), x.w N = w ∧ hist x.ev N = H := by
  induction r with
  | init => obtain ⟨x, h⟩ := Exec.none; exact ⟨0, x, h⟩
  | internal r s ih =>
    obtain ⟨N, x, rfl, rfl⟩ := ih
    obtain ⟨y, h1, h2, -⟩ := x.add s (fun _ _ h => nomatch h)
    exact ⟨N + 1, y, h1, h2⟩
  | call r s p ih =>
    obtain ⟨N, x, rfl, rfl⟩ := ih
    obtain ⟨y, h1, h2, -⟩ := x.add s (fun _ _ h => by cases h; exact p)
    exact ⟨N + 1, y, h1, h2⟩
  | ret r s ih =>
    obtain ⟨N, x, rfl, rfl⟩ := ih
    obtain ⟨y, h1, h2, -⟩ := x.add s (fun _ _ h => nomatch h)
    exact ⟨N + 1, y, h1, h2⟩

/-- Every schedule is an execution, move by move. -/
theorem exec_play {w : World} {H : Hist} (ms : List Move) (h : play World.init [] ms = some (w, H)) (ap : AllPermitted H) :
    ∃ (N : Nat) (x : Exec N), N = ms.length ∧ ∀ i, i ≤ N → play World.init [] (ms.take i) = some (x.w i, hist x.ev i) := by
  induction ms using List.reverseRecOn generalizing w H with
  | nil =>
    obtain ⟨x, h1, h2⟩ := Exec.none
    refine ⟨0, x, rfl, fun i hi => ?_⟩
    have : i = 0 := Nat.le_zero.mp hi
    subst this
    rw [h1, h2]
    rfl
  | append_singleton ms m ih =>
    cases e : play World.init [] ms with
    | none =>
      have : ∀ (ms : List Move) (w : World) (H : Hist), play w H ms = Option.none → play w H (ms ++ [m]) = Option.none := by
        intro ms
        induction ms with
        | nil => intro _ _ h; cases h
        | cons m ms ih =>
          intro w H h
          simp only [play, List.cons_append] at h ⊢
          split at h
          · exact ih _ _ h
          · exact ih _ _ h
          · rfl
      rw [this _ _ _ e] at h
      cases h
    | some p =>
      obtain ⟨w1, H1⟩ := p
      rw [play_append e] at h
      have h1 := h
      simp only [play] at h
      have hs : H1 <:+ H := by
        split at h <;> cases h
        · exact List.suffix_cons _ _
        · exact List.suffix_refl _
      obtain ⟨N, x, rfl, hx⟩ := ih e (ap.suffix hs)
      have hl := hx ms.length (Nat.le_refl _)
      rw [List.take_length, e] at hl
      injection hl with hl
      injection hl with hw hH
      subst hw; subst hH
      have : ∃ ev, fire (x.w ms.length) m = some (ev, w) ∧ H = ev.toList ++ hist x.ev ms.length := by
        split at h
        · rename_i ev w' hf
          cases h
          exact ⟨_, hf, rfl⟩
        · rename_i w' hf
          cases h
          exact ⟨_, hf, rfl⟩
        · cases h
      obtain ⟨ev, hf, rfl⟩ := this
      obtain ⟨y, g1, g2, g3⟩ := x.add (fire_sound hf) (fun t o he => by
        subst he
        exact ap t o _ (List.suffix_refl _))
      refine ⟨_, y, by rw [List.length_append]; rfl, fun i hi => ?_⟩
      rcases Nat.lt_or_ge i (ms.length + 1) with hlt | hge
      · have hle : i ≤ ms.length := by omega
        rw [List.take_append_of_le_length hle, hx i hle, (g3 i hle).1, (g3 i hle).2]
      · have : i = ms.length + 1 := by omega
        subst this
        rw [List.take_of_length_le (by rw [List.length_append]; exact Nat.le_refl _), play_append e, h1, g1, g2]

/-- An event of the history is made in some step. -/
theorem hist_split {ev : Nat → Option Ev} {e : Ev} {H0 : Hist} : ∀ {n : Nat}, (e :: H0) <:+ hist ev n → ∃ i, i < n ∧ ev i = some e ∧ hist ev i = H0
  | 0, h => by
    have := h.length_le
    simp [hist] at this
  | n + 1, h => by
    simp only [hist] at h
    cases he : ev n with
    | none =>
      rw [he] at h
      obtain ⟨i, h1, h2⟩ := hist_split (n := n) h
      exact ⟨i, by omega, h2⟩
    | some e' =>
      rw [he] at h
      rcases List.suffix_cons_iff.mp h with h | h
      · injection h with h1 h2
        subst h1
        exact ⟨n, Nat.lt_succ_self n, he, h2.symm⟩
      · obtain ⟨i, h1, h2⟩ := hist_split (n := n) h
        exact ⟨i, by omega, h2⟩

end MemConc
end Lsmdb
