import Verif.Proof.Varint
import Verif.Spec.Order

namespace Lsmdb
open Spec

/-- Three-way comparison of byte strings by structural recursion. -/
def cmpBytes : Bytes → Bytes → Int
  | [], [] => 0
  | [], _ :: _ => -1
  | _ :: _, [] => 1
  | a :: as, b :: bs => if a < b then -1 else if b < a then 1 else cmpBytes as bs

theorem cmpBytes_refl (a : Bytes) : cmpBytes a a = 0 := by
  induction a with
  | nil => rfl
  | cons x xs ih => simp [cmpBytes, ih]

theorem u8_not_lt_of_lt {a b : UInt8} (h : a < b) : ¬ b < a := by
  rw [UInt8.lt_iff_toNat_lt] at *; omega

theorem u8_eq_of_not_lt {a b : UInt8} (h : ¬ a < b) (h' : ¬ b < a) : a = b := by
  rw [UInt8.lt_iff_toNat_lt] at *; exact UInt8.toNat_inj.mp (by omega)

theorem cmpBytes_lt_iff (a b : Bytes) : cmpBytes a b < 0 ↔ lexLt a b := by
  induction a generalizing b with
  | nil =>
    cases b with
    | nil =>
      simp only [cmpBytes]
      constructor
      · intro h; omega
      · rintro ⟨c, ⟨y, b', h1, h2⟩ | ⟨x, a', y, b', h1, h2, _⟩⟩
        · subst h1; simp at h2
        · simp at h1
    | cons y ys =>
      simp only [cmpBytes]
      exact ⟨fun _ => ⟨[], Or.inl ⟨y, ys, rfl, rfl⟩⟩, fun _ => by omega⟩
  | cons x xs ih =>
    cases b with
    | nil =>
      simp only [cmpBytes]
      constructor
      · intro h; omega
      · rintro ⟨c, ⟨y, b', h1, h2⟩ | ⟨x, a', y, b', h1, h2, _⟩⟩ <;> simp at h2
    | cons y ys =>
      simp only [cmpBytes]
      split
      · rename_i hlt
        refine ⟨fun _ => ⟨[], Or.inr ⟨x, xs, y, ys, rfl, rfl, UInt8.lt_iff_toNat_lt.mp hlt⟩⟩,
          fun _ => by omega⟩
      · split
        · rename_i h1 h2
          constructor
          · intro h; omega
          · rintro ⟨c, ⟨y', b', e1, e2⟩ | ⟨x', a', y', b', e1, e2, h3⟩⟩
            · subst e1; simp only [List.cons_append, List.cons.injEq] at e2
              rw [e2.1] at h2; exact absurd h2 (by rw [UInt8.lt_iff_toNat_lt]; omega)
            · cases c with
              | nil =>
                simp only [List.nil_append, List.cons.injEq] at e1 e2
                rw [e1.1, e2.1, UInt8.lt_iff_toNat_lt] at h2; omega
              | cons z zs =>
                simp only [List.cons_append, List.cons.injEq] at e1 e2
                rw [e1.1, e2.1] at h2; exact absurd h2 (by rw [UInt8.lt_iff_toNat_lt]; omega)
        · rename_i h1 h2
          have hxy := u8_eq_of_not_lt h1 h2
          subst hxy
          rw [ih]
          constructor
          · rintro ⟨c, ⟨y', b', e1, e2⟩ | ⟨x', a', y', b', e1, e2, h3⟩⟩
            · exact ⟨x :: c, Or.inl ⟨y', b', by rw [e1], by rw [e2]; rfl⟩⟩
            · exact ⟨x :: c, Or.inr ⟨x', a', y', b', by rw [e1]; rfl, by rw [e2]; rfl, h3⟩⟩
          · rintro ⟨c, ⟨y', b', e1, e2⟩ | ⟨x', a', y', b', e1, e2, h3⟩⟩
            · subst e1
              simp only [List.cons_append, List.cons.injEq] at e2
              exact ⟨xs, Or.inl ⟨y', b', rfl, e2.2⟩⟩
            · cases c with
              | nil =>
                simp only [List.nil_append, List.cons.injEq] at e1 e2
                rw [← e1.1, ← e2.1] at h3; omega
              | cons z zs =>
                simp only [List.cons_append, List.cons.injEq] at e1 e2
                exact ⟨zs, Or.inr ⟨x', a', y', b', e1.2, e2.2, h3⟩⟩

theorem cmpBytes_swap (a b : Bytes) : cmpBytes b a = - cmpBytes a b := by
  induction a generalizing b with
  | nil => cases b <;> simp [cmpBytes]
  | cons x xs ih =>
    cases b with
    | nil => simp [cmpBytes]
    | cons y ys =>
      simp only [cmpBytes]
      by_cases h1 : x < y
      · simp [h1, u8_not_lt_of_lt h1]
      · by_cases h2 : y < x
        · simp [h1, h2]
        · simp [h1, h2, ih]

theorem cmpBytes_eq_zero_iff (a b : Bytes) : cmpBytes a b = 0 ↔ a = b := by
  induction a generalizing b with
  | nil => cases b <;> simp [cmpBytes]
  | cons x xs ih =>
    cases b with
    | nil => simp [cmpBytes]
    | cons y ys =>
      simp only [cmpBytes]
      split
      · rename_i h; simp only [List.cons.injEq]
        constructor
        · intro h'; omega
        · rintro ⟨e, _⟩; rw [e] at h; exact absurd h (by rw [UInt8.lt_iff_toNat_lt]; omega)
      · split
        · rename_i h; simp only [List.cons.injEq]
          constructor
          · intro h'; omega
          · rintro ⟨e, _⟩; rw [e] at h; exact absurd h (by rw [UInt8.lt_iff_toNat_lt]; omega)
        · rename_i h1 h2
          rw [ih]; simp [u8_eq_of_not_lt h1 h2]

theorem memcmpLoop_eq (a b : Bytes) (i j n : Nat) (ha : i + n ≤ a.length) (hb : j + n ≤ b.length) :
    memcmpLoop a i b j n = .ok (cmpBytes ((a.drop i).take n) ((b.drop j).take n)) := by
  induction n generalizing i j with
  | zero => simp [memcmpLoop, cmpBytes]
  | succ n ih =>
    have hi : i < a.length := by omega
    have hj : j < b.length := by omega
    have e1 : rd a i = .ok a[i] := by simp [rd, hi]
    have e2 : rd b j = .ok b[j] := by simp [rd, hj]
    rw [memcmpLoop, e1, e2, List.drop_eq_getElem_cons hi, List.drop_eq_getElem_cons hj]
    simp only [bind, Except.bind, List.take_succ_cons, cmpBytes]
    split
    · rfl
    · split
      · rfl
      · exact ih _ _ (by omega) (by omega)

theorem memcmp_eq (a b : Bytes) (i j n : Nat) (ha : i + n ≤ a.length) (hb : j + n ≤ b.length) :
    memcmp a i b j n = .ok (cmpBytes ((a.drop i).take n) ((b.drop j).take n)) := by
  rw [memcmp, if_pos ⟨ha, hb⟩, memcmpLoop_eq _ _ _ _ _ ha hb]

theorem cmpBytes_split (a b : Bytes) :
    cmpBytes a b =
      if cmpBytes (a.take (min a.length b.length)) (b.take (min a.length b.length)) = 0 then
        if a.length < b.length then -1 else if b.length < a.length then 1 else 0
      else cmpBytes (a.take (min a.length b.length)) (b.take (min a.length b.length)) := by
  induction a generalizing b with
  | nil => cases b <;> simp [cmpBytes]
  | cons x xs ih =>
    cases b with
    | nil => simp [cmpBytes]
    | cons y ys =>
      have : min (x :: xs).length (y :: ys).length = min xs.length ys.length + 1 := by
        simp only [List.length_cons]; omega
      rw [this]
      simp only [List.take_succ_cons, cmpBytes, List.length_cons, Nat.add_lt_add_iff_right]
      by_cases h1 : x < y
      · simp [h1]
      · by_cases h2 : y < x
        · simp [h1, h2]
        · simp only [h1, h2, if_false]
          exact ih ys

theorem Slice.take_bytes (s : Slice) (n : Nat) (h : n ≤ s.len) :
    s.bytes.take n = (s.buf.drop s.off).take n := by
  rw [Slice.bytes, List.take_take, Nat.min_eq_left h]

theorem Slice.compare_eq (s b : Slice) (hs : s.WF) (hb : b.WF) :
    s.compare b = .ok (cmpBytes s.bytes b.bytes) := by
  have hs' : s.off + s.len ≤ s.buf.length := hs
  have hb' : b.off + b.len ≤ b.buf.length := hb
  have hmin : (if s.len < b.len then s.len else b.len) = min s.len b.len := by split <;> omega
  rw [Slice.compare]
  simp only [hmin]
  rw [memcmp_eq _ _ _ _ _ (by omega) (by omega), cmpBytes_split s.bytes b.bytes,
    Slice.bytes_length hs, Slice.bytes_length hb, Slice.take_bytes _ _ (Nat.min_le_left _ _),
    Slice.take_bytes _ _ (Nat.min_le_right _ _)]
  simp only [bind, Except.bind, gt_iff_lt]
  split
  · rename_i h
    split
    · rfl
    · split
      · rfl
      · rw [h]; rfl
  · rfl

theorem Slice.eq_eq (s b : Slice) (hs : s.WF) (hb : b.WF) :
    s.eq b = .ok (decide (s.bytes = b.bytes)) := by
  have hs' : s.off + s.len ≤ s.buf.length := hs
  have hb' : b.off + b.len ≤ b.buf.length := hb
  rw [Slice.eq]
  split
  · rename_i h
    rw [memcmp_eq _ _ _ _ _ (by omega) (by omega)]
    simp only [bind, Except.bind, pure, Except.pure]
    have e1 : (s.buf.drop s.off).take s.len = s.bytes := rfl
    have e2 : (b.buf.drop b.off).take s.len = b.bytes := by rw [h]; rfl
    rw [e1, e2]
    congr 1
    rw [Bool.eq_iff_iff]
    simp [cmpBytes_eq_zero_iff]
  · rename_i h
    have : s.bytes ≠ b.bytes := by
      intro e; apply h; rw [← Slice.bytes_length hs, ← Slice.bytes_length hb, e]
    simp [this, pure, Except.pure]

theorem Slice.startsWith_eq (s x : Slice) (hs : s.WF) (hx : x.WF) :
    s.startsWith x = .ok (decide (x.bytes <+: s.bytes)) := by
  have hs' : s.off + s.len ≤ s.buf.length := hs
  have hx' : x.off + x.len ≤ x.buf.length := hx
  have hsl := Slice.bytes_length hs
  have hxl := Slice.bytes_length hx
  rw [Slice.startsWith]
  split
  · rename_i h
    rw [memcmp_eq _ _ _ _ _ (by omega) (by omega)]
    simp only [bind, Except.bind, pure, Except.pure]
    have e1 : (x.buf.drop x.off).take x.len = x.bytes := rfl
    rw [e1, ← Slice.take_bytes s _ h]
    congr 1
    rw [Bool.eq_iff_iff]
    simp only [beq_iff_eq, cmpBytes_eq_zero_iff, decide_eq_true_eq, List.prefix_iff_eq_take, hxl]
    exact eq_comm
  · rename_i h
    have : ¬ x.bytes <+: s.bytes := by
      intro e; have := e.length_le; omega
    simp [this, pure, Except.pure]

end Lsmdb
