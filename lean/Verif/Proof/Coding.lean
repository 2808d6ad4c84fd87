import Verif.Model.Coding
import Verif.Spec.Coding

namespace Lsmdb
namespace Coding
open Spec

/-! ## bits -/

theorem nat_or_shl {a x s : Nat} (h : a < 2 ^ s) : a ||| (x <<< s) = a + x * 2 ^ s := by
  rw [Nat.or_comm, ← Nat.shiftLeft_add_eq_or_of_lt h, Nat.shiftLeft_eq, Nat.add_comm]

theorem mod_shl (x s w : Nat) (h : s ≤ w) : (x <<< s) % 2 ^ w = (x % 2 ^ (w - s)) <<< s := by
  rw [Nat.shiftLeft_eq, Nat.shiftLeft_eq]
  have : 2 ^ w = 2 ^ (w - s) * 2 ^ s := by rw [← Nat.pow_add]; congr 1; omega
  rw [this, Nat.mul_mod_mul_right]

theorem add_mod_mul_aux (a x p q : Nat) (h : a < q) (hp : 0 < p) :
    a + x % p * q = (a + x * q) % (p * q) := by
  have hd := Nat.div_add_mod x p
  have : a + x * q = (a + x % p * q) + (p * q) * (x / p) := by
    conv => lhs; rw [← hd]
    rw [Nat.add_mul, Nat.mul_right_comm]; omega
  rw [this, Nat.add_mul_mod_self_left]
  symm
  apply Nat.mod_eq_of_lt
  have h1 : x % p < p := Nat.mod_lt _ hp
  have h2 : (x % p + 1) * q ≤ p * q := Nat.mul_le_mul_right _ h1
  rw [Nat.add_mul] at h2; omega

theorem nat_or_shl_mod {a x s w : Nat} (h : a < 2 ^ s) (hs : s ≤ w) :
    a ||| ((x <<< s) % 2 ^ w) = (a + x * 2 ^ s) % 2 ^ w := by
  rw [mod_shl x s w hs, nat_or_shl h]
  have e : 2 ^ w = 2 ^ (w - s) * 2 ^ s := by rw [← Nat.pow_add]; congr 1; omega
  rw [e]
  exact add_mod_mul_aux _ _ _ _ h (Nat.two_pow_pos _)

theorem or_shl32 {a x : UInt32} {s : Nat} (h : a.toNat < 2 ^ s) (hs : s < 32) :
    a ||| (x <<< UInt32.ofNat s) = UInt32.ofNat (a.toNat + x.toNat * 2 ^ s) := by
  apply UInt32.toNat_inj.mp
  rw [UInt32.toNat_or, UInt32.toNat_shiftLeft, UInt32.toNat_ofNat', UInt32.toNat_ofNat']
  have : s % 2 ^ 32 % 32 = s := by omega
  rw [this]
  exact nat_or_shl_mod h (by omega)

theorem or_shl64 {a x : UInt64} {s : Nat} (h : a.toNat < 2 ^ s) (hs : s < 64) :
    a ||| (x <<< UInt64.ofNat s) = UInt64.ofNat (a.toNat + x.toNat * 2 ^ s) := by
  apply UInt64.toNat_inj.mp
  rw [UInt64.toNat_or, UInt64.toNat_shiftLeft, UInt64.toNat_ofNat', UInt64.toNat_ofNat']
  have : s % 2 ^ 64 % 64 = s := by omega
  rw [this]
  exact nat_or_shl_mod h (by omega)

theorem byte_and128 : ∀ b : Nat, b < 256 → ((b &&& 128 = 0) ↔ b < 128) := by decide +kernel

theorem and127_32 (b : UInt8) : (b.toUInt32 &&& 127).toNat = b.toNat % 128 := by
  rw [UInt32.toNat_and]
  simp only [UInt8.toNat_toUInt32]
  exact Nat.and_two_pow_sub_one_eq_mod b.toNat 7

theorem and127_64 (b : UInt8) : (b.toUInt64 &&& 127).toNat = b.toNat % 128 := by
  rw [UInt64.toNat_and]
  simp only [UInt8.toNat_toUInt64]
  exact Nat.and_two_pow_sub_one_eq_mod b.toNat 7

theorem and128_32 (b : UInt8) : (b.toUInt32 &&& 128 = 0) ↔ b.toNat < 128 := by
  rw [← UInt32.toNat_inj, UInt32.toNat_and]
  simp only [UInt8.toNat_toUInt32]
  exact byte_and128 b.toNat b.toNat_lt

theorem and128_64 (b : UInt8) : (b.toUInt64 &&& 128 = 0) ↔ b.toNat < 128 := by
  rw [← UInt64.toNat_inj, UInt64.toNat_and]
  simp only [UInt8.toNat_toUInt64]
  exact byte_and128 b.toNat b.toNat_lt

theorem byte_or128 : ∀ b : Nat, b < 256 → b ||| 128 = b % 128 + 128 := by decide +kernel

/-- The low byte of `v | 128`. -/
theorem or128_byte (v : Nat) : (v ||| 128) % 256 = v % 128 + 128 := by
  have := Nat.or_mod_two_pow (a := v) (b := 128) (n := 8)
  simp only [Nat.reducePow] at this
  rw [this, byte_or128 _ (by omega)]
  omega

theorem or128_32 (v : UInt32) : (v ||| 128).toUInt8 = UInt8.ofNat (v.toNat % 128 + 128) := by
  apply UInt8.toNat_inj.mp
  rw [UInt32.toNat_toUInt8, UInt32.toNat_or, UInt8.toNat_ofNat']
  have : (128 : UInt32).toNat = 128 := rfl
  rw [this]
  have := or128_byte v.toNat
  omega

theorem or128_64 (v : UInt64) : (v ||| 128).toUInt8 = UInt8.ofNat (v.toNat % 128 + 128) := by
  apply UInt8.toNat_inj.mp
  rw [UInt64.toNat_toUInt8, UInt64.toNat_or, UInt8.toNat_ofNat']
  have : (128 : UInt64).toNat = 128 := rfl
  rw [this]
  have := or128_byte v.toNat
  omega

theorem shr32 (v : UInt32) (s : Nat) (hs : s < 32) :
    (v >>> UInt32.ofNat s).toNat = v.toNat / 2 ^ s := by
  rw [UInt32.toNat_shiftRight, UInt32.toNat_ofNat', Nat.shiftRight_eq_div_pow]
  congr 2; omega

theorem shr64 (v : UInt64) (s : Nat) (hs : s < 64) :
    (v >>> UInt64.ofNat s).toNat = v.toNat / 2 ^ s := by
  rw [UInt64.toNat_shiftRight, UInt64.toNat_ofNat', Nat.shiftRight_eq_div_pow]
  congr 2; omega

theorem low32 (v : UInt32) : v.toUInt8 = UInt8.ofNat v.toNat := by
  apply UInt8.toNat_inj.mp; rw [UInt32.toNat_toUInt8, UInt8.toNat_ofNat']

theorem low64 (v : UInt64) : v.toUInt8 = UInt8.ofNat v.toNat := by
  apply UInt8.toNat_inj.mp; rw [UInt64.toNat_toUInt8, UInt8.toNat_ofNat']

theorem ofNat8_congr {a b : Nat} (h : a % 256 = b % 256) : UInt8.ofNat a = UInt8.ofNat b := by
  apply UInt8.toNat_inj.mp; rw [UInt8.toNat_ofNat', UInt8.toNat_ofNat']; exact h

/-! ## fixed width -/

theorem EncodeFixed32_eq (v : UInt32) : EncodeFixed32 v = leBytes 4 v.toNat := by
  have h := v.toNat_lt
  have e8 := shr32 v 8 (by omega)
  have e16 := shr32 v 16 (by omega)
  have e24 := shr32 v 24 (by omega)
  simp only [EncodeFixed32, leBytes, List.cons.injEq, and_true]
  refine ⟨?_, ?_, ?_, ?_⟩ <;> rw [low32] <;> apply ofNat8_congr
  · omega
  · change (v >>> UInt32.ofNat 8).toNat % 256 = _; rw [e8]; omega
  · change (v >>> UInt32.ofNat 16).toNat % 256 = _; rw [e16]; omega
  · change (v >>> UInt32.ofNat 24).toNat % 256 = _; rw [e24]; omega

theorem EncodeFixed64_eq (v : UInt64) : EncodeFixed64 v = leBytes 8 v.toNat := by
  have h := v.toNat_lt
  have e (s : Nat) (hs : s < 64) := shr64 v s hs
  simp only [EncodeFixed64, leBytes, List.cons.injEq, and_true]
  refine ⟨?_, ?_, ?_, ?_, ?_, ?_, ?_, ?_⟩ <;> rw [low64] <;> apply ofNat8_congr
  · omega
  · change (v >>> UInt64.ofNat 8).toNat % 256 = _; rw [e _ (by omega)]; omega
  · change (v >>> UInt64.ofNat 16).toNat % 256 = _; rw [e _ (by omega)]; omega
  · change (v >>> UInt64.ofNat 24).toNat % 256 = _; rw [e _ (by omega)]; omega
  · change (v >>> UInt64.ofNat 32).toNat % 256 = _; rw [e _ (by omega)]; omega
  · change (v >>> UInt64.ofNat 40).toNat % 256 = _; rw [e _ (by omega)]; omega
  · change (v >>> UInt64.ofNat 48).toNat % 256 = _; rw [e _ (by omega)]; omega
  · change (v >>> UInt64.ofNat 56).toNat % 256 = _; rw [e _ (by omega)]; omega

theorem leBytes_length (k n : Nat) : (leBytes k n).length = k := by
  induction k generalizing n with
  | zero => rfl
  | succ k ih => simp [leBytes, ih]

theorem leValue_leBytes (k n : Nat) : leValue (leBytes k n) = n % 256 ^ k := by
  induction k generalizing n with
  | zero => simp [leBytes, leValue, Nat.mod_one]
  | succ k ih =>
    simp only [leBytes, leValue, ih, UInt8.toNat_ofNat']
    rw [Nat.pow_succ 256 k, Nat.mul_comm (256 ^ k) 256, Nat.mod_mul]
    simp

theorem leValue_lt (b : Bytes) : leValue b < 256 ^ b.length := by
  induction b with
  | nil => simp [leValue]
  | cons x xs ih =>
    have := x.toNat_lt
    simp only [leValue, List.length_cons, Nat.pow_succ]; omega

theorem rd_append_left {a b : Bytes} {i : Nat} (h : i < a.length) : rd (a ++ b) i = rd a i := by
  simp [rd, List.getElem?_append_left h]

theorem rd_append_right {a b : Bytes} {i : Nat} : rd (a ++ b) (a.length + i) = rd b i := by
  simp [rd, List.getElem?_append_right]

theorem step32 (a : Nat) (x : UInt8) (s : Nat) (h : a < 2 ^ s) (hs : s < 32) :
    (UInt32.ofNat a ||| x.toUInt32 <<< UInt32.ofNat s) = UInt32.ofNat (a + x.toNat * 2 ^ s) := by
  have : a < 2 ^ 32 := Nat.lt_of_lt_of_le h (Nat.pow_le_pow_right (by omega) (by omega))
  rw [or_shl32 (by rw [UInt32.toNat_ofNat']; omega) hs, UInt32.toNat_ofNat', UInt8.toNat_toUInt32]
  congr 2; omega

theorem step64 (a : Nat) (x : UInt8) (s : Nat) (h : a < 2 ^ s) (hs : s < 64) :
    (UInt64.ofNat a ||| x.toUInt64 <<< UInt64.ofNat s) = UInt64.ofNat (a + x.toNat * 2 ^ s) := by
  have : a < 2 ^ 64 := Nat.lt_of_lt_of_le h (Nat.pow_le_pow_right (by omega) (by omega))
  rw [or_shl64 (by rw [UInt64.toNat_ofNat']; omega) hs, UInt64.toNat_ofNat', UInt8.toNat_toUInt64]
  congr 2; omega

theorem DecodeFixed32_eq (pre bs post : Bytes) (h : bs.length = 4) :
    DecodeFixed32 (pre ++ bs ++ post) pre.length = .ok (UInt32.ofNat (leValue bs)) := by
  match bs, h with
  | [b0, b1, b2, b3], _ =>
    have r (i : Nat) (hi : i < 4) : rd (pre ++ [b0, b1, b2, b3] ++ post) (pre.length + i) =
        rd [b0, b1, b2, b3] i := by
      rw [List.append_assoc, rd_append_right, rd_append_left hi]
    have r0 := r 0 (by omega)
    simp only [Nat.add_zero] at r0
    simp only [DecodeFixed32, r0, r 1 (by omega), r 2 (by omega), r 3 (by omega)]
    simp only [rd, List.getElem?_cons_zero, List.getElem?_cons_succ, bind, Except.bind, pure,
      Except.pure]
    congr 1
    have l0 := b0.toNat_lt
    have l1 := b1.toNat_lt
    have l2 := b2.toNat_lt
    have l3 := b3.toNat_lt
    change ((b0.toUInt32 ||| b1.toUInt32 <<< UInt32.ofNat 8) ||| b2.toUInt32 <<< UInt32.ofNat 16) |||
      b3.toUInt32 <<< UInt32.ofNat 24 = _
    have e0 : b0.toUInt32 = UInt32.ofNat b0.toNat := by
      apply UInt32.toNat_inj.mp; rw [UInt8.toNat_toUInt32, UInt32.toNat_ofNat']; omega
    rw [e0,
      step32 (b0.toNat) _ 8 (by omega) (by omega),
      step32 (b0.toNat + b1.toNat * 2 ^ 8) _ 16 (by omega) (by omega),
      step32 (b0.toNat + b1.toNat * 2 ^ 8 + b2.toNat * 2 ^ 16) _ 24 (by omega) (by omega)]
    congr 1
    simp only [leValue]
    omega

theorem DecodeFixed64_eq (pre bs post : Bytes) (h : bs.length = 8) :
    DecodeFixed64 (pre ++ bs ++ post) pre.length = .ok (UInt64.ofNat (leValue bs)) := by
  match bs, h with
  | [b0, b1, b2, b3, b4, b5, b6, b7], _ =>
    have r (i : Nat) (hi : i < 8) :
        rd (pre ++ [b0, b1, b2, b3, b4, b5, b6, b7] ++ post) (pre.length + i) =
        rd [b0, b1, b2, b3, b4, b5, b6, b7] i := by
      rw [List.append_assoc, rd_append_right, rd_append_left hi]
    have r0 := r 0 (by omega)
    simp only [Nat.add_zero] at r0
    simp only [DecodeFixed64, r0, r 1 (by omega), r 2 (by omega), r 3 (by omega),
      r 4 (by omega), r 5 (by omega), r 6 (by omega), r 7 (by omega)]
    simp only [rd, List.getElem?_cons_zero, List.getElem?_cons_succ, bind, Except.bind, pure,
      Except.pure]
    congr 1
    have l0 := b0.toNat_lt
    have l1 := b1.toNat_lt
    have l2 := b2.toNat_lt
    have l3 := b3.toNat_lt
    have l4 := b4.toNat_lt
    have l5 := b5.toNat_lt
    have l6 := b6.toNat_lt
    have l7 := b7.toNat_lt
    change b0.toUInt64 ||| b1.toUInt64 <<< UInt64.ofNat 8 ||| b2.toUInt64 <<< UInt64.ofNat 16 |||
      b3.toUInt64 <<< UInt64.ofNat 24 ||| b4.toUInt64 <<< UInt64.ofNat 32 |||
      b5.toUInt64 <<< UInt64.ofNat 40 ||| b6.toUInt64 <<< UInt64.ofNat 48 |||
      b7.toUInt64 <<< UInt64.ofNat 56 = _
    have e0 : b0.toUInt64 = UInt64.ofNat b0.toNat := by
      apply UInt64.toNat_inj.mp; rw [UInt8.toNat_toUInt64, UInt64.toNat_ofNat']; omega
    rw [e0,
      step64 (b0.toNat) _ 8 (by omega) (by omega),
      step64 (b0.toNat + b1.toNat * 2 ^ 8) _ 16 (by omega) (by omega),
      step64 (b0.toNat + b1.toNat * 2 ^ 8 + b2.toNat * 2 ^ 16) _ 24 (by omega) (by omega),
      step64 (b0.toNat + b1.toNat * 2 ^ 8 + b2.toNat * 2 ^ 16 + b3.toNat * 2 ^ 24) _ 32 (by omega) (by omega),
      step64 (b0.toNat + b1.toNat * 2 ^ 8 + b2.toNat * 2 ^ 16 + b3.toNat * 2 ^ 24 + b4.toNat * 2 ^ 32) _ 40 (by omega) (by omega),
      step64 (b0.toNat + b1.toNat * 2 ^ 8 + b2.toNat * 2 ^ 16 + b3.toNat * 2 ^ 24 + b4.toNat * 2 ^ 32 + b5.toNat * 2 ^ 40) _ 48 (by omega) (by omega),
      step64 (b0.toNat + b1.toNat * 2 ^ 8 + b2.toNat * 2 ^ 16 + b3.toNat * 2 ^ 24 + b4.toNat * 2 ^ 32 + b5.toNat * 2 ^ 40 + b6.toNat * 2 ^ 48) _ 56 (by omega) (by omega)]
    congr 1
    simp only [leValue]
    omega

end Coding
end Lsmdb
