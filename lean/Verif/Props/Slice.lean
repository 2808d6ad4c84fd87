import Verif.Proof.Slice

/-!
# C06: Slice comparison
-/

namespace Lsmdb
namespace Props
open Spec

/-- C06: on any two slices that point at existing bytes, `compare` returns without reading outside
either, and is negative / zero / positive exactly when the left bytes are lexicographically before /
equal to / after the right bytes. -/
theorem C06_compare (a b : Slice) (ha : a.WF) (hb : b.WF) :
    ∃ r : Int, a.compare b = .ok r ∧ (r < 0 ↔ lexLt a.bytes b.bytes) ∧
      (r = 0 ↔ a.bytes = b.bytes) ∧ (0 < r ↔ lexLt b.bytes a.bytes) := by
  refine ⟨_, Slice.compare_eq a b ha hb, cmpBytes_lt_iff _ _, cmpBytes_eq_zero_iff _ _, ?_⟩
  rw [← cmpBytes_lt_iff, cmpBytes_swap a.bytes]; omega

/-- C06: the order is a strict total order: irreflexive, transitive, and any two byte strings are
before, equal or after. -/
theorem C06_total_order (a b c : Bytes) :
    ¬ lexLt a a ∧ (lexLt a b → lexLt b c → lexLt a c) ∧ (lexLt a b ∨ a = b ∨ lexLt b a) := by
  refine ⟨?_, ?_, ?_⟩
  · rw [← cmpBytes_lt_iff, cmpBytes_refl]; omega
  · simp only [← cmpBytes_lt_iff]
    induction a generalizing b c with
    | nil => cases b <;> cases c <;> simp [cmpBytes]
    | cons x xs ih =>
      cases b with
      | nil => simp [cmpBytes]
      | cons y ys =>
        cases c with
        | nil => simp [cmpBytes]
        | cons z zs =>
          simp only [cmpBytes, UInt8.lt_iff_toNat_lt]
          have := ih ys zs
          split <;> split <;> split <;> (try split) <;> (try split) <;> (try split) <;> omega
  · rw [← cmpBytes_lt_iff, ← cmpBytes_lt_iff, ← cmpBytes_eq_zero_iff, cmpBytes_swap a b]; omega

/-- C06: `==` and `!=` hold exactly for equal / different bytes, and agree with `compare`. -/
theorem C06_equality (a b : Slice) (ha : a.WF) (hb : b.WF) :
    (∃ e : Bool, a.eq b = .ok e ∧ (e = true ↔ a.bytes = b.bytes)) ∧
    (∃ e : Bool, a.ne b = .ok e ∧ (e = true ↔ a.bytes ≠ b.bytes)) ∧
    (a.eq b = .ok true ↔ a.compare b = .ok 0) := by
  have h := Slice.eq_eq a b ha hb
  refine ⟨⟨_, h, by simp⟩, ⟨!(decide (a.bytes = b.bytes)), ?_, by simp⟩, ?_⟩
  · rw [Slice.ne, h]; rfl
  · rw [h, Slice.compare_eq a b ha hb]
    simp [cmpBytes_eq_zero_iff]

/-- C06: `starts_with` holds exactly for prefixes. -/
theorem C06_starts_with (a x : Slice) (ha : a.WF) (hx : x.WF) :
    ∃ e : Bool, a.startsWith x = .ok e ∧ (e = true ↔ ∃ rest, a.bytes = x.bytes ++ rest) := by
  refine ⟨_, Slice.startsWith_eq a x ha hx, ?_⟩
  simp only [decide_eq_true_eq]
  exact ⟨fun ⟨t, h⟩ => ⟨t, h.symm⟩, fun ⟨t, h⟩ => ⟨t, h.symm⟩⟩

/-- C06: indexing, dropping a prefix and copying out act on the bytes referred to, and stay inside
them: exactly the calls that meet the documented requirement return. -/
theorem C06_access (s : Slice) (hs : s.WF) (n : Nat) :
    (s.toString = .ok s.bytes) ∧
    (n < s.len → ∃ b, s.get n = .ok b ∧ s.bytes[n]? = some b) ∧
    (s.len ≤ n → s.get n = .error .assertFail) ∧
    (n ≤ s.len → ∃ t, s.removePrefix n = .ok t ∧ t.WF ∧ t.bytes = s.bytes.drop n) ∧
    (s.len < n → s.removePrefix n = .error .assertFail) := by
  have hs' : s.off + s.len ≤ s.buf.length := hs
  refine ⟨by rw [Slice.toString, if_pos hs']; rfl, ?_, ?_, ?_, ?_⟩
  · intro h
    have h1 : s.off + n < s.buf.length := by omega
    refine ⟨s.buf[s.off + n], ?_, ?_⟩
    · simp [Slice.get, cassert, h, rd, h1, bind, Except.bind]
    · simp [Slice.bytes, List.getElem?_take, h, h1]
  · intro h
    have : ¬ n < s.len := by omega
    simp [Slice.get, cassert, this, bind, Except.bind]
  · intro h
    refine ⟨⟨s.buf, s.off + n, s.len - n⟩, ?_, ?_, ?_⟩
    · simp [Slice.removePrefix, cassert, h, bind, Except.bind, pure, Except.pure]
    · simp only [Slice.WF]; omega
    · simp only [Slice.bytes, List.drop_take, List.drop_drop]
  · intro h
    have : ¬ n ≤ s.len := by omega
    simp [Slice.removePrefix, cassert, this, bind, Except.bind]

example : lexLt [1, 255] [2] ∧ lexLt [1] [1, 0] ∧ ¬ lexLt [128] [127] := by
  refine ⟨(cmpBytes_lt_iff _ _).mp (by decide), (cmpBytes_lt_iff _ _).mp (by decide), ?_⟩
  rw [← cmpBytes_lt_iff]; decide
example : (Slice.mk [9, 1, 255, 9] 1 2).WF ∧ (Slice.mk [2, 0] 0 1).WF ∧
    (Slice.mk [9, 1, 255, 9] 1 2).compare (Slice.mk [2, 0] 0 1) = .ok (-1) := by decide

end Props
end Lsmdb
