import Verif.Model.Random
import Mathlib.NumberTheory.LucasPrimality
import Mathlib.GroupTheory.OrderOfElement
import Mathlib.Tactic.NormNum.Prime
import Mathlib.FieldTheory.Finite.Basic

namespace Lsmdb
namespace Random

/-- 2^31 - 1. -/
def P : Nat := 2147483647

theorem init_range (s : UInt32) : 1 ≤ (init s).toNat ∧ (init s).toNat ≤ P - 1 := by
  have h : (s &&& 0x7fffffff).toNat = s.toNat % 2 ^ 31 := by
    rw [UInt32.toNat_and]
    exact Nat.and_two_pow_sub_one_eq_mod s.toNat 31
  unfold init P
  simp only
  split
  · simp
  · rename_i hc
    have h0 : (s &&& 0x7fffffff).toNat ≠ 0 := fun e => hc (Or.inl (UInt32.toNat_inj.mp e))
    have h1 : (s &&& 0x7fffffff).toNat ≠ 2147483647 := fun e => hc (Or.inr (UInt32.toNat_inj.mp e))
    rw [h] at h0 h1 ⊢
    omega

theorem init_id {s : UInt32} (h1 : 1 ≤ s.toNat) (h2 : s.toNat ≤ P - 1) : init s = s := by
  have h : (s &&& 0x7fffffff).toNat = s.toNat := by
    rw [UInt32.toNat_and]
    rw [show (0x7fffffff : UInt32).toNat = 2 ^ 31 - 1 from rfl, Nat.and_two_pow_sub_one_eq_mod s.toNat 31]
    unfold P at h2; omega
  have h' : s &&& 0x7fffffff = s := UInt32.toNat_inj.mp h
  unfold init P at *
  rw [h']
  simp only
  rw [if_neg]
  rintro (e | e)
  · subst e; simp at h1
  · subst e; simp at h2

theorem Next_eq (s : UInt32) (h1 : 1 ≤ s.toNat) (h2 : s.toNat ≤ P - 1) (hne : 16807 * s.toNat % P ≠ 0) :
    (Next s).toNat = 16807 * s.toNat % P := by
  unfold P at *
  have hp : (s.toUInt64 * 16807).toNat = s.toNat * 16807 := by
    rw [UInt64.toNat_mul, UInt32.toNat_toUInt64]
    change s.toNat * 16807 % 2 ^ 64 = _
    omega
  have hs : ((s.toUInt64 * 16807) >>> 31).toNat = s.toNat * 16807 / 2 ^ 31 := by
    rw [UInt64.toNat_shiftRight, hp]
    exact Nat.shiftRight_eq_div_pow _ _
  have ha : ((s.toUInt64 * 16807) &&& (2147483647 : UInt32).toUInt64).toNat =
      s.toNat * 16807 % 2 ^ 31 := by
    rw [UInt64.toNat_and, hp]
    exact Nat.and_two_pow_sub_one_eq_mod _ 31
  have hsum : (((s.toUInt64 * 16807) >>> 31) +
      ((s.toUInt64 * 16807) &&& (2147483647 : UInt32).toUInt64)).toUInt32.toNat =
      s.toNat * 16807 / 2 ^ 31 + s.toNat * 16807 % 2 ^ 31 := by
    rw [UInt64.toNat_toUInt32, UInt64.toNat_add, hs, ha]
    omega
  unfold Next
  simp only
  split
  · rename_i hgt
    rw [gt_iff_lt, UInt32.lt_iff_toNat_lt, hsum] at hgt
    have hgt' : 2147483647 < s.toNat * 16807 / 2 ^ 31 + s.toNat * 16807 % 2 ^ 31 := hgt
    rw [UInt32.toNat_sub_of_le _ _ (by rw [UInt32.le_iff_toNat_le, hsum]; exact Nat.le_of_lt hgt'),
      hsum]
    change _ - 2147483647 = _
    omega
  · rename_i hgt
    rw [gt_iff_lt, UInt32.lt_iff_toNat_lt, hsum] at hgt
    have hgt' : ¬ 2147483647 < s.toNat * 16807 / 2 ^ 31 + s.toNat * 16807 % 2 ^ 31 := hgt
    rw [hsum]
    omega

/-! ## 2^31 - 1 is prime and 16807 is a primitive root -/

/-- Modular exponentiation by repeated squaring, with explicit fuel. -/
def powModF : Nat → Nat → Nat → Nat → Nat
  | 0, _, _, m => 1 % m
  | f + 1, a, n, m =>
    if n % 2 = 1 then powModF f (a * a % m) (n / 2) m * a % m else powModF f (a * a % m) (n / 2) m

theorem powModF_eq (f a n m : Nat) (h : n < 2 ^ f) : powModF f a n m = a ^ n % m := by
  induction f generalizing a n with
  | zero =>
    have : n = 0 := by simpa using h
    subst this; simp [powModF]
  | succ f ih =>
    have h2 : n / 2 < 2 ^ f := by rw [Nat.pow_succ] at h; omega
    rw [powModF]
    split
    · rename_i h1
      rw [ih _ _ h2, ← Nat.pow_mod, ← Nat.pow_two, ← Nat.pow_mul, Nat.mod_mul_mod, ← Nat.pow_succ]
      congr 2; omega
    · rename_i h1
      rw [ih _ _ h2, ← Nat.pow_mod, ← Nat.pow_two, ← Nat.pow_mul]
      congr 2; omega

theorem cast_pow (a n : Nat) (hn : n < 2 ^ 32) :
    ((a : ZMod P) ^ n) = ((powModF 32 a n P : Nat) : ZMod P) := by
  rw [powModF_eq _ _ _ _ hn, ZMod.natCast_mod, Nat.cast_pow]

theorem primeFactors_P {q : Nat} (hq : q.Prime) (hd : q ∣ P - 1) :
    q = 2 ∨ q = 3 ∨ q = 7 ∨ q = 11 ∨ q = 31 ∨ q = 151 ∨ q = 331 := by
  have e : P - 1 = 2 * (3 * (3 * (7 * (11 * (31 * (151 * 331)))))) := by unfold P; norm_num
  rw [e] at hd
  have key (r : Nat) (hr : r.Prime) (h : q ∣ r) : q = r := (Nat.prime_dvd_prime_iff_eq hq hr).mp h
  rcases hq.dvd_mul.mp hd with h | hd
  · exact Or.inl (key 2 (by norm_num) h)
  rcases hq.dvd_mul.mp hd with h | hd
  · have := key 3 (by norm_num) h; omega
  rcases hq.dvd_mul.mp hd with h | hd
  · have := key 3 (by norm_num) h; omega
  rcases hq.dvd_mul.mp hd with h | hd
  · have := key 7 (by norm_num) h; omega
  rcases hq.dvd_mul.mp hd with h | hd
  · have := key 11 (by norm_num) h; omega
  rcases hq.dvd_mul.mp hd with h | hd
  · have := key 31 (by norm_num) h; omega
  rcases hq.dvd_mul.mp hd with h | h
  · have := key 151 (by norm_num) h; omega
  · have := key 331 (by norm_num) h; omega

instance : Fact (1 < P) := ⟨by unfold P; norm_num⟩

theorem natCast_ne_one {n : Nat} (h1 : n < P) (h2 : n ≠ 1) : ((n : Nat) : ZMod P) ≠ 1 := by
  intro h
  have h' : ((n : Nat) : ZMod P) = ((1 : Nat) : ZMod P) := by rw [h, Nat.cast_one]
  rw [ZMod.natCast_eq_natCast_iff', Nat.mod_eq_of_lt h1,
    Nat.mod_eq_of_lt (by unfold P; norm_num)] at h'
  exact h2 h'

theorem pow_full : ((16807 : Nat) : ZMod P) ^ (P - 1) = 1 := by
  rw [cast_pow _ _ (by unfold P; norm_num)]
  have : powModF 32 16807 (P - 1) P = 1 := by decide +kernel
  rw [this, Nat.cast_one]

theorem pow_div (q : Nat) (hq : q.Prime) (hd : q ∣ P - 1) :
    ((16807 : Nat) : ZMod P) ^ ((P - 1) / q) ≠ 1 := by
  have h32 : (P - 1) / q < 2 ^ 32 := lt_of_le_of_lt (Nat.div_le_self _ _) (by unfold P; norm_num)
  rw [cast_pow _ _ h32]
  rcases primeFactors_P hq hd with rfl | rfl | rfl | rfl | rfl | rfl | rfl <;>
    exact natCast_ne_one (by decide +kernel) (by decide +kernel)

theorem P_prime : P.Prime :=
  lucas_primality P ((16807 : Nat) : ZMod P) pow_full pow_div

instance : Fact P.Prime := ⟨P_prime⟩

theorem orderOf_A : orderOf ((16807 : Nat) : ZMod P) = P - 1 :=
  orderOf_eq_of_pow_and_pow_div_prime (by unfold P; norm_num) pow_full pow_div

theorem A_mul_ne_zero {n : Nat} (h1 : 1 ≤ n) (h2 : n ≤ P - 1) : 16807 * n % P ≠ 0 := by
  intro h
  have hP : 1 < P := by unfold P; norm_num
  rcases (P_prime.dvd_mul).mp (Nat.dvd_of_mod_eq_zero h) with h | h
  · exact absurd (Nat.le_of_dvd (by norm_num) h) (by unfold P; norm_num)
  · exact absurd (Nat.le_of_dvd h1 h) (by omega)

theorem Next_toNat (s : UInt32) (h1 : 1 ≤ s.toNat) (h2 : s.toNat ≤ P - 1) :
    (Next s).toNat = 16807 * s.toNat % P ∧ 1 ≤ (Next s).toNat ∧ (Next s).toNat ≤ P - 1 := by
  have hne := A_mul_ne_zero h1 h2
  have h := Next_eq s h1 h2 hne
  have hP : 0 < P := by unfold P; norm_num
  have := Nat.mod_lt (16807 * s.toNat) hP
  exact ⟨h, by omega, by omega⟩

/-- The state after `k` calls. -/
def iter (s : UInt32) : Nat → UInt32
  | 0 => s
  | k + 1 => Next (iter s k)

theorem iter_range (s : UInt32) (h1 : 1 ≤ s.toNat) (h2 : s.toNat ≤ P - 1) (k : Nat) :
    1 ≤ (iter s k).toNat ∧ (iter s k).toNat ≤ P - 1 := by
  induction k with
  | zero => exact ⟨h1, h2⟩
  | succ k ih => exact (Next_toNat _ ih.1 ih.2).2

theorem iter_cast (s : UInt32) (h1 : 1 ≤ s.toNat) (h2 : s.toNat ≤ P - 1) (k : Nat) :
    (((iter s k).toNat : Nat) : ZMod P) = ((16807 : Nat) : ZMod P) ^ k * (s.toNat : ZMod P) := by
  induction k with
  | zero => simp [iter]
  | succ k ih =>
    have hr := iter_range s h1 h2 k
    rw [iter, (Next_toNat _ hr.1 hr.2).1, ZMod.natCast_mod, Nat.cast_mul, ih, pow_succ']
    ring

theorem cast_inj {a b : Nat} (ha : a ≤ P - 1) (hb : b ≤ P - 1) (h : (a : ZMod P) = (b : ZMod P)) :
    a = b := by
  have hP : 1 < P := by unfold P; norm_num
  rw [ZMod.natCast_eq_natCast_iff', Nat.mod_eq_of_lt (by omega), Nat.mod_eq_of_lt (by omega)] at h
  exact h

theorem cast_ne_zero {a : Nat} (h1 : 1 ≤ a) (ha : a ≤ P - 1) : (a : ZMod P) ≠ 0 := by
  intro h
  have := cast_inj ha (Nat.zero_le _) (h.trans (Nat.cast_zero).symm)
  omega

theorem iter_inj (s : UInt32) (h1 : 1 ≤ s.toNat) (h2 : s.toNat ≤ P - 1) {j k : Nat}
    (hj : j < P - 1) (hk : k < P - 1) (h : iter s j = iter s k) : j = k := by
  have e : ((iter s j).toNat : ZMod P) = ((iter s k).toNat : ZMod P) := by rw [h]
  rw [iter_cast s h1 h2, iter_cast s h1 h2] at e
  have e' := mul_right_cancel₀ (cast_ne_zero h1 h2) e
  apply pow_injOn_Iio_orderOf (x := ((16807 : Nat) : ZMod P))
  · rw [Set.mem_Iio, orderOf_A]; exact hj
  · rw [Set.mem_Iio, orderOf_A]; exact hk
  · exact e'

theorem iter_period (s : UInt32) (h1 : 1 ≤ s.toNat) (h2 : s.toNat ≤ P - 1) :
    iter s (P - 1) = s := by
  have hr := iter_range s h1 h2 (P - 1)
  apply UInt32.toNat_inj.mp
  apply cast_inj hr.2 h2
  rw [iter_cast s h1 h2, pow_full, one_mul]

theorem iter_surj (s : UInt32) (h1 : 1 ≤ s.toNat) (h2 : s.toNat ≤ P - 1) (y : Nat) (hy1 : 1 ≤ y)
    (hy2 : y ≤ P - 1) : ∃ k, k < P - 1 ∧ (iter s k).toNat = y := by
  -- an injective map between finite sets of the same size is onto
  have hmaps : Set.MapsTo (fun k => (iter s k).toNat) (Finset.range (P - 1) : Set Nat)
      (Finset.Icc 1 (P - 1) : Set Nat) := by
    intro k _
    have := iter_range s h1 h2 k
    simp [this.1, this.2]
  have hinj : Set.InjOn (fun k => (iter s k).toNat) (Finset.range (P - 1) : Set Nat) := by
    intro j hj k hk h
    simp only [Finset.coe_range, Set.mem_Iio] at hj hk
    exact iter_inj s h1 h2 hj hk (UInt32.toNat_inj.mp h)
  have hsurj := Finset.surjOn_of_injOn_of_card_le _ hmaps hinj (by simp)
  obtain ⟨k, hk, e⟩ := hsurj (by simp [hy1, hy2] : y ∈ (Finset.Icc 1 (P - 1) : Set Nat))
  simp only [Finset.coe_range, Set.mem_Iio] at hk
  exact ⟨k, hk, e⟩

end Random
end Lsmdb
