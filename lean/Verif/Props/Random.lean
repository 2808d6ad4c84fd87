import Verif.Proof.Random

/-!
# C09–C11: the random number generator
-/

namespace Lsmdb
namespace Props

/-- The value returned by the `k`-th call of `Next` (counting from 0) on a generator constructed with
seed `s`, and hence the value of `seed_` after it. -/
def returned (s : UInt32) : Nat → UInt32
  | 0 => Random.Next (Random.init s)
  | k + 1 => Random.Next (returned s k)

theorem returned_eq_iter (s : UInt32) (k : Nat) :
    returned s k = Random.iter (Random.init s) (k + 1) := by
  induction k with
  | zero => rfl
  | succ k ih => rw [returned, ih]; rfl

/-- C09: from any constructor argument the values are the Lehmer sequence modulo 2^31-1, and always
lie in [1, 2^31-2]. -/
theorem C09_lehmer (s : UInt32) :
    (∃ s0 : Nat, 1 ≤ s0 ∧ s0 ≤ 2 ^ 31 - 2 ∧
      (s.toNat % 2 ^ 31 ≠ 0 → s.toNat % 2 ^ 31 ≠ 2 ^ 31 - 1 → s0 = s.toNat % 2 ^ 31) ∧
      (returned s 0).toNat = 16807 * s0 % (2 ^ 31 - 1)) ∧
    (∀ k, (returned s (k + 1)).toNat = 16807 * (returned s k).toNat % (2 ^ 31 - 1)) ∧
    (∀ k, 1 ≤ (returned s k).toNat ∧ (returned s k).toNat ≤ 2 ^ 31 - 2) := by
  have hi := Random.init_range s
  have hr (k : Nat) := Random.iter_range (Random.init s) hi.1 hi.2 k
  refine ⟨⟨(Random.init s).toNat, hi.1, hi.2, ?_, (Random.Next_toNat _ hi.1 hi.2).1⟩, ?_, ?_⟩
  · intro h0 h1
    have h : (s &&& 0x7fffffff).toNat = s.toNat % 2 ^ 31 := by
      rw [UInt32.toNat_and]
      exact Nat.and_two_pow_sub_one_eq_mod s.toNat 31
    unfold Random.init
    simp only
    rw [if_neg]
    · exact h
    · rintro (e | e)
      · rw [e] at h; exact h0 h.symm
      · rw [e] at h; exact h1 h.symm
  · intro k
    have := hr (k + 1)
    rw [returned, returned_eq_iter]
    exact (Random.Next_toNat _ this.1 this.2).1
  · intro k
    rw [returned_eq_iter]; exact hr (k + 1)

/-- C10: full period.  From any constructor argument each number of [1, 2^31-2] is returned by
exactly one of the first 2^31-2 calls, and then the sequence repeats. -/
theorem C10_full_period (s : UInt32) :
    (∀ y : Nat, 1 ≤ y → y ≤ 2 ^ 31 - 2 →
      ∃ k, k < 2 ^ 31 - 2 ∧ (returned s k).toNat = y ∧
        ∀ j, j < 2 ^ 31 - 2 → (returned s j).toNat = y → j = k) ∧
    (∀ k, returned s (k + (2 ^ 31 - 2)) = returned s k) := by
  have hi := Random.init_range s
  have hn := (Random.Next_toNat _ hi.1 hi.2).2
  have shift (k : Nat) : returned s k = Random.iter (Random.Next (Random.init s)) k := by
    induction k with
    | zero => rfl
    | succ k ih => rw [returned, ih]; rfl
  constructor
  · intro y h1 h2
    obtain ⟨k, hk, e⟩ := Random.iter_surj _ hn.1 hn.2 y h1 h2
    refine ⟨k, hk, by rw [shift]; exact e, fun j hj ej => ?_⟩
    rw [shift] at ej
    exact Random.iter_inj _ hn.1 hn.2 hj hk (UInt32.toNat_inj.mp (ej.trans e.symm))
  · intro k
    have hper := Random.iter_period _ hn.1 hn.2
    have h0 : returned s (2 ^ 31 - 2) = returned s 0 := by rw [shift]; exact hper
    induction k with
    | zero => rw [Nat.zero_add]; exact h0
    | succ k ih =>
      have e : k + 1 + (2 ^ 31 - 2) = (k + (2 ^ 31 - 2)) + 1 := by omega
      rw [e, returned, ih, returned]

/-- C11: `Uniform(n)` for a positive `int` returns a number below `n`, never faulting; `OneIn(n)`
likewise, and it is true exactly when the corresponding `Uniform(n)` would be 0; `OneIn(1)` is always
true. -/
theorem C11_uniform (seed : UInt32) (n : Int) (h0 : 0 < n) (h1 : n < 2 ^ 31) :
    (∃ r : UInt32, Random.Uniform seed n = .ok (r, Random.Next seed) ∧ (r.toNat : Int) < n ∧
      Random.OneIn seed n = .ok (r == 0, Random.Next seed)) ∧
    Random.OneIn seed 1 = .ok (true, Random.Next seed) := by
  have hd : (UInt32.ofNat (n % 2 ^ 32).toNat).toNat = n.toNat := by
    rw [UInt32.toNat_ofNat']; omega
  have hne : UInt32.ofNat (n % 2 ^ 32).toNat ≠ 0 := by
    intro h; rw [h] at hd; simp at hd; omega
  constructor
  · refine ⟨Random.Next seed % UInt32.ofNat (n % 2 ^ 32).toNat, ?_, ?_, ?_⟩
    · rw [Random.Uniform, if_neg hne]
    · rw [UInt32.toNat_mod, hd]
      have := Nat.mod_lt (Random.Next seed).toNat (show 0 < n.toNat by omega)
      omega
    · rw [Random.OneIn, if_neg hne]
  · rw [Random.OneIn]
    have e : UInt32.ofNat ((1 : Int) % 2 ^ 32).toNat = 1 := by decide
    simp only [e]
    rw [if_neg (by decide)]
    congr 2
    rw [beq_iff_eq]
    apply UInt32.toNat_inj.mp
    rw [UInt32.toNat_mod]
    exact Nat.mod_one _

/-- C11: `Skewed(max_log)` for 0 ≤ max_log ≤ 30 returns a number below 2^max_log and never divides by
zero or shifts out of range. -/
theorem C11_skewed (seed : UInt32) (max_log : Nat) (h : max_log ≤ 30) :
    ∃ r s', Random.Skewed seed max_log = .ok (r, s') ∧ r.toNat < 2 ^ max_log := by
  obtain ⟨⟨k, hk, hlt, _⟩, _⟩ := C11_uniform seed (max_log + 1) (by omega) (by omega)
  have hk30 : k.toNat ≤ max_log := by omega
  have hpow : (2 : Int) ^ k.toNat < 2 ^ 31 := by
    have : (2 : Nat) ^ k.toNat < 2 ^ 31 := Nat.pow_lt_pow_right (by omega) (by omega)
    exact_mod_cast this
  obtain ⟨⟨r, hr, hrlt, _⟩, _⟩ := C11_uniform (Random.Next seed) (2 ^ k.toNat)
    (by positivity) hpow
  refine ⟨r, Random.Next (Random.Next seed), ?_, ?_⟩
  · rw [Random.Skewed, if_neg (by omega)]
    simp only [hk, bind, Except.bind, pure, Except.pure]
    rw [if_neg (by omega)]
    exact hr
  · have h1 : r.toNat < 2 ^ k.toNat := by exact_mod_cast hrlt
    have h2 : (2 : Nat) ^ k.toNat ≤ 2 ^ max_log := Nat.pow_le_pow_right (by omega) hk30
    omega

/-- C11: the bound 30 is tight: `Skewed(31)` can shift a 1 into the sign bit of an `int`. -/
theorem C11_skewed_31_overflows : ∃ seed : UInt32, Random.Skewed seed 31 = .error .arith :=
  ⟨9, by decide +kernel⟩

example : (0 : Int) < 10 ∧ (10 : Int) < 2 ^ 31 := by decide
example : Random.init 0 = 1 ∧ Random.init 0xffffffff = 1 ∧ Random.Next 1 = 16807 := by
  decide +kernel

end Props
end Lsmdb
