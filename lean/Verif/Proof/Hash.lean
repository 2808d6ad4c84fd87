import Verif.Model.Hash
import Verif.Spec.Hash
import Verif.Proof.Coding

namespace Lsmdb
namespace Hash
open Spec Coding

/-- `mix` on machine words. -/
def mix32 (s h w : UInt32) : UInt32 :=
  let x := (h + w) * m
  x ^^^ (x >>> s)

/-- `hashBytes` on machine words. -/
def hashBytes32 (h : UInt32) : Bytes → UInt32
  | a :: b :: c :: d :: rest => hashBytes32 (mix32 16 h (UInt32.ofNat (leValue [a, b, c, d]))) rest
  | [] => h
  | [a] => mix32 24 h (UInt32.ofNat (leValue [a]))
  | [a, b] => mix32 24 h (UInt32.ofNat (leValue [a, b]))
  | [a, b, c] => mix32 24 h (UInt32.ofNat (leValue [a, b, c]))

theorem mix32_toNat (s : Nat) (hs : s < 32) (h w : UInt32) :
    (mix32 (UInt32.ofNat s) h w).toNat = mix s h.toNat w.toNat := by
  have e : ((h + w) * m).toNat = ((h.toNat + w.toNat) * hashM) % 2 ^ 32 := by
    rw [UInt32.toNat_mul, UInt32.toNat_add]
    change (h.toNat + w.toNat) % 2 ^ 32 * hashM % 2 ^ 32 = _
    rw [Nat.mod_mul_mod]
  simp only [mix32, mix, UInt32.toNat_xor, shr32 _ _ hs, e]

theorem hashBytes32_toNat (h : UInt32) (bs : Bytes) :
    (hashBytes32 h bs).toNat = hashBytes h.toNat bs := by
  have tl (bs : Bytes) (hl : bs.length ≤ 4) : (UInt32.ofNat (leValue bs)).toNat = leValue bs := by
    have := leValue_lt bs
    have h2 : 256 ^ bs.length ≤ 256 ^ 4 := Nat.pow_le_pow_right (by omega) hl
    rw [UInt32.toNat_ofNat', Nat.mod_eq_of_lt (by omega)]
  induction h, bs using hashBytes32.induct with
  | case1 h a b c d rest ih =>
    rw [hashBytes32, hashBytes, ih]
    have := mix32_toNat 16 (by omega) h (UInt32.ofNat (leValue [a, b, c, d]))
    rw [tl _ (by simp)] at this
    rw [← this]; rfl
  | case2 h => rfl
  | case3 h a =>
    have := mix32_toNat 24 (by omega) h (UInt32.ofNat (leValue [a]))
    rw [tl _ (by simp)] at this
    exact this
  | case4 h a b =>
    have := mix32_toNat 24 (by omega) h (UInt32.ofNat (leValue [a, b]))
    rw [tl _ (by simp)] at this
    exact this
  | case5 h a b c =>
    have := mix32_toNat 24 (by omega) h (UInt32.ofNat (leValue [a, b, c]))
    rw [tl _ (by simp)] at this
    exact this

theorem rd_at (pre bs post : Bytes) (i : Nat) (hi : i < bs.length) :
    rd (pre ++ bs ++ post) (pre.length + i) = .ok bs[i] := by
  simp only [rd]
  rw [List.append_assoc, List.getElem?_append_right (by omega), Nat.add_sub_cancel_left,
    List.getElem?_append_left hi, List.getElem?_eq_getElem hi]

theorem shl_small (b : UInt8) (s : Nat) (hs : s ≤ 16) :
    (b.toUInt32 <<< UInt32.ofNat s) = UInt32.ofNat (b.toNat * 2 ^ s) := by
  apply UInt32.toNat_inj.mp
  have hb := b.toNat_lt
  have h2 : 2 ^ s ≤ 2 ^ 16 := Nat.pow_le_pow_right (by omega) hs
  rw [UInt32.toNat_shiftLeft, UInt32.toNat_ofNat', UInt32.toNat_ofNat', UInt8.toNat_toUInt32,
    Nat.mod_eq_of_lt (a := s) (by omega), Nat.mod_eq_of_lt (a := s) (by omega), Nat.shiftLeft_eq]

theorem hash_go (buf pre bs post : Bytes) (hb : buf = pre ++ bs ++ post) (h : UInt32) :
    (do let (d, h) ← hashLoop buf pre.length (pre.length + bs.length) h
        hashTail buf d (pre.length + bs.length) h) = .ok (hashBytes32 h bs) := by
  induction h, bs using hashBytes32.induct generalizing pre with
  | case1 h a b c d rest ih =>
    rw [hashLoop, if_pos (by simp)]
    have hd : DecodeFixed32 buf pre.length = .ok (UInt32.ofNat (leValue [a, b, c, d])) := by
      have := DecodeFixed32_eq pre [a, b, c, d] (rest ++ post) rfl
      rw [hb]; simpa using this
    have := ih (pre ++ [a, b, c, d]) (by rw [hb]; simp)
    rw [hd]
    simp only [bind, Except.bind, hashBytes32] at this ⊢
    rw [← this]
    simp only [List.length_append, List.length_cons, List.length_nil, mix32]
    have e : pre.length + (rest.length + 1 + 1 + 1 + 1) =
        pre.length + (0 + 1 + 1 + 1 + 1) + rest.length := by omega
    rw [e]
  | case2 h =>
    rw [hashLoop, if_neg (by simp)]
    simp [hashTail, hashBytes32, bind, Except.bind, pure, Except.pure]
  | case3 h a =>
    rw [hashLoop, if_neg (by simp)]
    have r0 : rd buf pre.length = .ok a := by
      rw [hb]; exact rd_at pre [a] post 0 (by simp)
    simp only [bind, Except.bind, pure, Except.pure, hashTail, List.length_cons, List.length_nil,
      Nat.add_sub_cancel_left, r0, hashBytes32, mix32, leValue]
    have e : a.toUInt32 = UInt32.ofNat (a.toNat + 256 * 0) := by
      apply UInt32.toNat_inj.mp; rw [UInt8.toNat_toUInt32, UInt32.toNat_ofNat']
      have := a.toNat_lt; omega
    rw [e]; rfl
  | case4 h a b =>
    rw [hashLoop, if_neg (by simp)]
    have r0 : rd buf pre.length = .ok a := by
      rw [hb]; exact rd_at pre [a, b] post 0 (by simp)
    have r1 : rd buf (pre.length + 1) = .ok b := by
      rw [hb]; exact rd_at pre [a, b] post 1 (by simp)
    simp only [bind, Except.bind, pure, Except.pure, hashTail, List.length_cons, List.length_nil,
      Nat.add_sub_cancel_left, r0, r1, hashBytes32, mix32, leValue]
    have e : h + (b.toUInt32 <<< 8) + a.toUInt32 =
        h + UInt32.ofNat (a.toNat + 256 * (b.toNat + 256 * 0)) := by
      have := shl_small b 8 (by omega)
      rw [show (8 : UInt32) = UInt32.ofNat 8 from rfl, this, UInt32.add_assoc]
      congr 1
      apply UInt32.toNat_inj.mp
      rw [UInt32.toNat_add, UInt8.toNat_toUInt32, UInt32.toNat_ofNat', UInt32.toNat_ofNat']
      have := a.toNat_lt; have := b.toNat_lt; omega
    simp only [← e]; rfl
  | case5 h a b c =>
    rw [hashLoop, if_neg (by simp)]
    have r0 : rd buf pre.length = .ok a := by
      rw [hb]; exact rd_at pre [a, b, c] post 0 (by simp)
    have r1 : rd buf (pre.length + 1) = .ok b := by
      rw [hb]; exact rd_at pre [a, b, c] post 1 (by simp)
    have r2 : rd buf (pre.length + 2) = .ok c := by
      rw [hb]; exact rd_at pre [a, b, c] post 2 (by simp)
    simp only [bind, Except.bind, pure, Except.pure, hashTail, List.length_cons, List.length_nil,
      Nat.add_sub_cancel_left, r0, r1, r2, hashBytes32, mix32, leValue]
    have e : h + (c.toUInt32 <<< 16) + (b.toUInt32 <<< 8) + a.toUInt32 =
        h + UInt32.ofNat (a.toNat + 256 * (b.toNat + 256 * (c.toNat + 256 * 0))) := by
      have h1 := shl_small b 8 (by omega)
      have h2 := shl_small c 16 (by omega)
      rw [show (8 : UInt32) = UInt32.ofNat 8 from rfl, show (16 : UInt32) = UInt32.ofNat 16 from rfl,
        h1, h2, UInt32.add_assoc, UInt32.add_assoc]
      congr 1
      apply UInt32.toNat_inj.mp
      rw [UInt32.toNat_add, UInt32.toNat_add, UInt8.toNat_toUInt32, UInt32.toNat_ofNat',
        UInt32.toNat_ofNat', UInt32.toNat_ofNat']
      have := a.toNat_lt; have := b.toNat_lt; have := c.toNat_lt; omega
    simp only [← e]; rfl

theorem Hash_eq32 (pre bs post : Bytes) (seed : UInt32) :
    Hash (pre ++ bs ++ post) pre.length bs.length seed =
      .ok (hashBytes32 (seed ^^^ (UInt32.ofNat bs.length * m)) bs) := by
  rw [Hash]; exact hash_go _ pre bs post rfl _

/-! ## Invertibility -/

theorem unfold_xor (s : Nat) (h1 : 16 ≤ s) (h2 : s < 32) (x : UInt32) :
    (x ^^^ (x >>> UInt32.ofNat s)) ^^^ ((x ^^^ (x >>> UInt32.ofNat s)) >>> UInt32.ofNat s) = x := by
  apply UInt32.toNat_inj.mp
  simp only [UInt32.toNat_xor, UInt32.toNat_shiftRight, UInt32.toNat_ofNat']
  have e : s % 2 ^ 32 % 32 = s := by omega
  rw [e]
  have hx := x.toNat_lt
  apply Nat.eq_of_testBit_eq
  intro i
  simp only [Nat.testBit_xor, Nat.testBit_shiftRight]
  have : x.toNat.testBit (s + (s + i)) = false := by
    apply Nat.testBit_lt_two_pow
    calc x.toNat < 2 ^ 32 := hx
      _ ≤ 2 ^ (s + (s + i)) := Nat.pow_le_pow_right (by omega) (by omega)
  rw [this]
  cases x.toNat.testBit i <;> cases x.toNat.testBit (s + i) <;> rfl

theorem fold_inj (s : Nat) (h1 : 16 ≤ s) (h2 : s < 32) {x y : UInt32}
    (h : x ^^^ (x >>> UInt32.ofNat s) = y ^^^ (y >>> UInt32.ofNat s)) : x = y := by
  have hx := unfold_xor s h1 h2 x
  rw [h, unfold_xor s h1 h2 y] at hx
  exact hx.symm

/-- The multiplicative inverse of `m` modulo 2^32, by Newton iteration. -/
def minv : UInt32 :=
  let x := m
  let x := x * (2 - m * x)
  let x := x * (2 - m * x)
  let x := x * (2 - m * x)
  let x := x * (2 - m * x)
  x * (2 - m * x)

theorem m_minv : m * minv = 1 := by decide +kernel

theorem mul_inj {x y : UInt32} (h : x * m = y * m) : x = y := by
  have := congrArg (· * minv) h
  simpa [UInt32.mul_assoc, m_minv] using this

theorem mix_inj_state (s : Nat) (h1 : 16 ≤ s) (h2 : s < 32) {h h' w : UInt32}
    (e : mix32 (UInt32.ofNat s) h w = mix32 (UInt32.ofNat s) h' w) : h = h' := by
  have := mul_inj (fold_inj s h1 h2 e)
  exact UInt32.add_left_inj w |>.mp this

theorem mix_inj_word (s : Nat) (h1 : 16 ≤ s) (h2 : s < 32) {h w w' : UInt32}
    (e : mix32 (UInt32.ofNat s) h w = mix32 (UInt32.ofNat s) h w') : w = w' := by
  have := mul_inj (fold_inj s h1 h2 e)
  exact UInt32.add_right_inj h |>.mp this

theorem hashBytes32_inj (bs : Bytes) {h h' : UInt32}
    (e : hashBytes32 h bs = hashBytes32 h' bs) : h = h' := by
  induction h, bs using hashBytes32.induct generalizing h' with
  | case1 h a b c d rest ih =>
    exact mix_inj_state 16 (by omega) (by omega) (ih e)
  | case2 h => exact e
  | case3 h a => exact mix_inj_state 24 (by omega) (by omega) e
  | case4 h a b => exact mix_inj_state 24 (by omega) (by omega) e
  | case5 h a b c => exact mix_inj_state 24 (by omega) (by omega) e

theorem mix_surj_state (s : Nat) (h1 : 16 ≤ s) (h2 : s < 32) (w y : UInt32) :
    ∃ h, mix32 (UInt32.ofNat s) h w = y := by
  refine ⟨(y ^^^ (y >>> UInt32.ofNat s)) * minv - w, ?_⟩
  have hm : minv * m = 1 := by rw [UInt32.mul_comm]; exact m_minv
  simp only [mix32, UInt32.sub_add_cancel, UInt32.mul_assoc, hm, UInt32.mul_one]
  exact unfold_xor s h1 h2 y

theorem hashBytes32_surj (bs : Bytes) (y : UInt32) : ∃ h, hashBytes32 h bs = y := by
  induction (0 : UInt32), bs using hashBytes32.induct with
  | case1 h a b c d rest ih =>
    obtain ⟨h', e⟩ := ih
    obtain ⟨h'', e'⟩ := mix_surj_state 16 (by omega) (by omega)
      (UInt32.ofNat (leValue [a, b, c, d])) h'
    exact ⟨h'', by rw [hashBytes32]; rw [← e, ← e']; rfl⟩
  | case2 h => exact ⟨y, rfl⟩
  | case3 h a => exact mix_surj_state 24 (by omega) (by omega) _ y
  | case4 h a b => exact mix_surj_state 24 (by omega) (by omega) _ y
  | case5 h a b c => exact mix_surj_state 24 (by omega) (by omega) _ y

theorem leValue_inj {a b : Bytes} (hl : a.length = b.length) (h : leValue a = leValue b) : a = b := by
  induction a generalizing b with
  | nil => cases b with
    | nil => rfl
    | cons y ys => simp at hl
  | cons x xs ih =>
    cases b with
    | nil => simp at hl
    | cons y ys =>
      simp only [leValue] at h
      have hx := x.toNat_lt
      have hy := y.toNat_lt
      have h1 : x.toNat = y.toNat := by omega
      have h2 : leValue xs = leValue ys := by omega
      rw [UInt8.toNat_inj.mp h1, ih (by simpa using hl) h2]

theorem ofNat_leValue_inj {a b : Bytes} (hl : a.length = b.length) (h4 : a.length ≤ 4)
    (h : UInt32.ofNat (leValue a) = UInt32.ofNat (leValue b)) : a = b := by
  apply leValue_inj hl
  have h' := congrArg UInt32.toNat h
  have ha := leValue_lt a
  have hb := leValue_lt b
  have h2 : 256 ^ a.length ≤ 256 ^ 4 := Nat.pow_le_pow_right (by omega) h4
  rw [← hl] at hb
  rw [UInt32.toNat_ofNat', UInt32.toNat_ofNat', Nat.mod_eq_of_lt (by omega),
    Nat.mod_eq_of_lt (by omega)] at h'
  exact h'

/-- Processing a prefix made of whole words. -/
theorem hashBytes32_append (h : UInt32) (pre rest : Bytes) (hp : pre.length % 4 = 0) :
    hashBytes32 h (pre ++ rest) = hashBytes32 (hashBytes32 h pre) rest := by
  induction h, pre using hashBytes32.induct with
  | case1 h a b c d xs ih =>
    simp only [List.cons_append, hashBytes32]
    exact ih (by simp only [List.length_cons] at hp; omega)
  | case2 h => rfl
  | case3 h a => simp at hp
  | case4 h a b => simp at hp
  | case5 h a b c => simp at hp

/-- Processing one final piece of 1 to 3 bytes, or one whole word. -/
theorem hashBytes32_piece_inj (h : UInt32) (w w' : Bytes) (hl : w.length = w'.length)
    (h4 : w.length ≤ 4) (e : hashBytes32 h w = hashBytes32 h w') : w = w' := by
  match w, w', hl, h4, e with
  | [], [], _, _, _ => rfl
  | [a], [a'], _, _, e => exact ofNat_leValue_inj rfl (by simp) (mix_inj_word 24 (by omega) (by omega) e)
  | [a, b], [a', b'], _, _, e =>
    exact ofNat_leValue_inj rfl (by simp) (mix_inj_word 24 (by omega) (by omega) e)
  | [a, b, c], [a', b', c'], _, _, e =>
    exact ofNat_leValue_inj rfl (by simp) (mix_inj_word 24 (by omega) (by omega) e)
  | [a, b, c, d], [a', b', c', d'], _, _, e =>
    exact ofNat_leValue_inj rfl (by simp) (mix_inj_word 16 (by omega) (by omega) e)

end Hash
end Lsmdb
