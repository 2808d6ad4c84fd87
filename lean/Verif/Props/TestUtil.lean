import Verif.Spec.TestUtil
import Verif.Model.Tool

/-!
# C67: the command-line tool; C68: random test data
-/

namespace Lsmdb

open MemEnv (lit)

namespace Tool

/-- C67: the exit code is 0 exactly if the first argument is `dump`, otherwise it is 1; nothing is printed in the first case, and the
usage text in the second. -/
theorem C67_main (argv : List Bytes) :
    ((∃ prog rest, argv = prog :: lit "dump" :: rest) → main argv = ([], 0)) ∧
    ((¬ ∃ prog rest, argv = prog :: lit "dump" :: rest) → main argv = (usage, 1)) := by
  constructor
  · rintro ⟨prog, rest, rfl⟩
    simp [main, show ¬ rest.length + 1 + 1 < 2 by omega]
  · intro h
    match argv, h with
    | [], _ => simp [main]
    | [p], _ => simp [main]
    | p :: a :: rest, h =>
      have : a ≠ lit "dump" := by rintro rfl; exact h ⟨p, rest, rfl⟩
      simp [main, this]

example : main [lit "lsmdb_util", lit "dump", lit "f"] = ([], 0) ∧ main [lit "lsmdb_util", lit "dumpx"] = (usage, 1) ∧
    main [] = (usage, 1) := by decide +kernel

end Tool

namespace TestUtil

theorem uniform_eq (seed : UInt32) (n : Nat) (h0 : 0 < n) (h1 : n < 2 ^ 31) :
    Random.Uniform seed n = .ok (Random.Next seed % UInt32.ofNat n, Random.Next seed) := by
  unfold Random.Uniform
  have hd : UInt32.ofNat ((n : Int) % 2 ^ 32).toNat = UInt32.ofNat n := by
    congr 1; omega
  have hne : UInt32.ofNat n ≠ 0 := by
    intro h
    have := congrArg UInt32.toNat h
    rw [UInt32.toNat_ofNat'] at this
    simp at this
    omega
  simp only [hd, hne, if_false]

theorem draw_next (seed : UInt32) (k : Nat) : draw (Random.Next seed) k = draw seed (k + 1) := by
  induction k with
  | zero => rfl
  | succ k ih => rw [draw, ih]; rfl

theorem char_toNat (x : UInt32) : (32 + (x % 95).toUInt8 : UInt8).toNat = 32 + x.toNat % 95 := by
  have h : (x % 95).toNat = x.toNat % 95 := by rw [UInt32.toNat_mod]; rfl
  rw [UInt8.toNat_add, UInt32.toNat_toUInt8, h]
  have : x.toNat % 95 < 95 := Nat.mod_lt _ (by omega)
  show (32 + x.toNat % 95 % 256) % 256 = _
  omega

theorem randomLoop_eq (seed : UInt32) (len : Nat) : ∀ (k i : Nat) (dst : Bytes), i + k = len → dst.length = len →
    (∀ j (h : j < dst.length), j < i → dst[j].toNat = 32 + (draw seed (j + 1)).toNat % 95) →
    ∃ text, randomLoop len i (draw seed i) dst = .ok (draw seed len, text) ∧ DrawnText seed len text := by
  intro k
  induction k with
  | zero =>
    intro i dst hi hl h
    have : i = len := by omega
    subst this
    rw [randomLoop, if_neg (by omega)]
    exact ⟨dst, rfl, hl, fun j hj => h j hj (by omega)⟩
  | succ k ih =>
    intro i dst hi hl h
    rw [randomLoop, if_pos (by omega), show Random.Uniform (draw seed i) 95 = _ from uniform_eq (draw seed i) 95 (by omega) (by omega)]
    simp only [bind, Except.bind]
    rw [if_pos (by omega)]
    refine ih (i + 1) _ (by omega) (by simp [hl]) ?_
    intro j hj hji
    rw [List.getElem_set]
    split
    · next he =>
      subst he
      exact char_toNat _
    · next he => exact h j (by simpa using hj) (by omega)

/-- C68: RandomString sets `*dst`, whatever it held, to exactly `len` printable characters, those that the generator draws, and returns
a slice of all of it. -/
theorem C68_random_string (seed : UInt32) (len : Nat) (hl : len < 2 ^ 31) (dst : Bytes) :
    ∃ text, RandomString seed len dst = .ok (some (draw seed len, text, Slice.ofBytes text)) ∧ DrawnText seed len text ∧
      ∀ c ∈ text, Spec.printable c := by
  obtain ⟨text, h1, h2⟩ := randomLoop_eq seed len len 0 (dst.take len ++ List.replicate (len - dst.length) 0) (by omega) (by simp; omega)
    (fun _ _ h => absurd h (Nat.not_lt_zero _))
  refine ⟨text, ?_, h2, ?_⟩
  · unfold RandomString resize
    rw [if_neg (by omega)]
    simp only [Int.toNat_natCast, bind, Except.bind]
    rw [show randomLoop len 0 seed _ = _ from h1]
    rfl
  · intro c hc
    obtain ⟨i, hi, rfl⟩ := List.mem_iff_getElem.1 hc
    have := h2.2 i hi
    have h95 : (draw seed (i + 1)).toNat % 95 < 95 := Nat.mod_lt _ (by omega)
    unfold Spec.printable
    omega

/-- C68: a negative length is an exception, not undefined behaviour. -/
theorem C68_negative (seed : UInt32) (len : Int) (hl : len < 0) (dst : Bytes) : RandomString seed len dst = .ok none := by
  unfold RandomString resize
  rw [if_pos (.inl hl)]
  rfl

theorem keyLoop_eq (seed : UInt32) (len : Nat) : ∀ (k i : Nat) (r : Bytes), i + k = len →
    ∃ s, keyLoop len i (draw seed i) r = .ok (draw seed len, r ++ s) ∧ s.length = k ∧
      ∀ j, j < k → s[j]? = kTestChars[(draw seed (i + j + 1)).toNat % 10]? := by
  intro k
  induction k with
  | zero =>
    intro i r hi
    have : i = len := by omega
    subst this
    rw [keyLoop, if_neg (by omega)]
    exact ⟨[], by simp [pure, Except.pure], rfl, fun j hj => absurd hj (Nat.not_lt_zero _)⟩
  | succ k ih =>
    intro i r hi
    rw [keyLoop, if_pos (by omega), uniform_eq (draw seed i) kTestChars.length (by decide) (by decide)]
    have hm : (Random.Next (draw seed i) % UInt32.ofNat kTestChars.length).toNat = (draw seed (i + 1)).toNat % 10 := by
      rw [UInt32.toNat_mod]; rfl
    have hlt : (draw seed (i + 1)).toNat % 10 < kTestChars.length := Nat.mod_lt _ (by omega)
    obtain ⟨s, h1, h2, h3⟩ := ih (i + 1) (r ++ [kTestChars[(draw seed (i + 1)).toNat % 10]]) (by omega)
    refine ⟨kTestChars[(draw seed (i + 1)).toNat % 10] :: s, ?_, by simp [h2], ?_⟩
    · simp only [bind, Except.bind, rd, hm, List.getElem?_eq_getElem hlt]
      rw [show Random.Next (draw seed i) = draw seed (i + 1) from rfl, h1, List.append_assoc]
      rfl
    · intro j hj
      cases j with
      | zero => simp [List.getElem?_eq_getElem hlt]
      | succ j =>
        rw [List.getElem?_cons_succ, h3 j (by omega)]
        have : i + 1 + j + 1 = i + (j + 1) + 1 := by omega
        rw [this]

/-- C68: RandomKey returns exactly `len` characters of the alphabet, those that the generator draws. -/
theorem C68_random_key (seed : UInt32) (len : Nat) :
    ∃ key, RandomKey seed len = .ok (draw seed len, key) ∧ key.length = len ∧ (∀ c ∈ key, c ∈ ([0, 1, 97, 98, 99, 100, 101, 253, 254, 255] : Bytes)) ∧
      ∀ i, i < len → key[i]? = ([0, 1, 97, 98, 99, 100, 101, 253, 254, 255] : Bytes)[(draw seed (i + 1)).toNat % 10]? := by
  obtain ⟨s, h1, h2, h3⟩ := keyLoop_eq seed len len 0 [] (by omega)
  refine ⟨s, h1, h2, ?_, ?_⟩
  · intro c hc
    obtain ⟨i, hi, rfl⟩ := List.mem_iff_getElem.1 hc
    have := h3 i (by omega)
    rw [List.getElem?_eq_getElem hi] at this
    exact List.mem_of_getElem? this.symm
  · intro i hi
    have := h3 i hi
    rw [Nat.zero_add] at this
    exact this

theorem fillLoop_eq (raw : Bytes) (hr : 0 < raw.length) (len : Nat) : ∀ (k : Nat) (dst : Bytes), len - dst.length ≤ k → raw.length ∣ dst.length →
    (∀ i, i < dst.length → dst[i]? = raw[i % raw.length]?) →
    ∃ s, fillLoop raw len dst = .ok s ∧ len ≤ s.length ∧ ∀ i, i < s.length → s[i]? = raw[i % raw.length]? := by
  intro k
  induction k with
  | zero =>
    intro dst hk _ h
    rw [fillLoop, if_neg (by omega)]
    exact ⟨dst, rfl, by omega, h⟩
  | succ k ih =>
    intro dst hk hd h
    rw [fillLoop]
    by_cases hlt : dst.length < len
    · rw [if_pos hlt, if_pos hr]
      refine ih (dst ++ raw) (by simp only [List.length_append]; omega) (by rw [List.length_append]; exact (Nat.dvd_add_right hd).2 (Nat.dvd_refl _)) ?_
      intro i hi
      by_cases hil : i < dst.length
      · rw [List.getElem?_append_left hil]; exact h i hil
      · rw [List.getElem?_append_right (by omega)]
        obtain ⟨q, hq⟩ := hd
        rw [List.length_append] at hi
        have : i % raw.length = i - dst.length := by
          have hi2 : i = raw.length * q + (i - dst.length) := by omega
          conv => lhs; rw [hi2]
          rw [Nat.mul_add_mod, Nat.mod_eq_of_lt (by omega)]
        rw [this]
    · rw [if_neg hlt]
      exact ⟨dst, rfl, by omega, h⟩

/-- C68: CompressibleString sets `*dst` to exactly `len` characters that repeat a drawn text whose length is the number of
characters asked for, at least one; for every rounding of the product. -/
theorem C68_compressible (round : Rat → Rat) (seed : UInt32) (fraction : Rat) (len : Nat) (hl : len < 2 ^ 63) (dst : Bytes)
    (hlo : -2 ^ 31 ≤ trunc (round (len * fraction))) (hhi : trunc (round (len * fraction)) < 2 ^ 31) :
    let n := (max 1 (trunc (round (len * fraction)))).toNat
    ∃ period s, CompressibleString round seed fraction len dst = .ok (some (draw seed n, s, Slice.ofBytes s)) ∧
      DrawnText seed n period ∧ Repeats period len s := by
  intro n
  have hn : 1 ≤ n := by simp only [n]; omega
  have hn2 : n < 2 ^ 31 := by simp only [n]; omega
  have hraw : (if trunc (round (len * fraction)) < 1 then 1 else trunc (round (len * fraction))) = (n : Int) := by
    simp only [n]; split <;> omega
  obtain ⟨period, h1, h2, -⟩ := C68_random_string seed n hn2 []
  obtain ⟨s, h3, h4, h5⟩ := fillLoop_eq period (by rw [h2.1]; omega) len len [] (by simp) ⟨0, rfl⟩ (fun i hi => absurd hi (Nat.not_lt_zero _))
  refine ⟨period, s.take len, ?_, h2, ?_, ?_⟩
  · unfold CompressibleString
    dsimp only []
    rw [if_neg (by omega)]
    simp only [hraw, bind, Except.bind, pure, Except.pure, h1, h3, resize]
    rw [if_neg (by omega)]
    simp only [Int.toNat_natCast]
    rw [show len - s.length = 0 by omega]
    simp
  · simp [h4]
  · intro i hi
    have hi2 : i < len := by rw [List.length_take] at hi; omega
    rw [List.getElem?_take, if_pos hi2]
    exact h5 i (by omega)

/-- Half of 7 is 3: three drawn characters, repeated. -/
example : (CompressibleString id 301 (1 / 2) 7 [9]).map (Option.map fun r => r.2.1) = .ok (some [94, 123, 86, 94, 123, 86, 94]) := by decide +kernel

example : trunc (id (((7 : Nat) : Rat) * (1 / 2))) = 3 := by decide +kernel

end TestUtil
end Lsmdb
