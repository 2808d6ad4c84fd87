import Verif.Model.Logging
import Verif.Spec.Text
import Verif.Proof.Slice

namespace Lsmdb
namespace Logging
open Spec

theorem decDigits_length (k n : Nat) (h : n < 10 ^ (k + 1)) : (decDigits n).length ≤ k + 1 := by
  induction k generalizing n with
  | zero => rw [decDigits, if_pos (by simpa using h)]; simp
  | succ k ih =>
    rw [decDigits]
    split
    · simp
    · have := ih (n / 10) (by rw [Nat.pow_succ] at h; omega)
      simp; omega

theorem decDigits_len20 (v : UInt64) : (decDigits v.toNat).length ≤ 20 :=
  decDigits_length 19 _ (by have := v.toNat_lt; omega)

theorem AppendNumberTo_eq (str : Bytes) (v : UInt64) :
    AppendNumberTo str v = str ++ decDigits v.toNat := by
  have := decDigits_len20 v
  rw [AppendNumberTo, snprintfText, List.take_of_length_le (by omega)]

theorem digit_toNat (d : Nat) (h : d < 10) : (UInt8.ofNat (48 + d)).toNat = 48 + d := by
  rw [UInt8.toNat_ofNat']; omega

theorem decDigits_isDigit (n : Nat) : ∀ c ∈ decDigits n, isDigit c = true := by
  induction n using decDigits.induct with
  | case1 n h =>
    rw [decDigits, if_pos h]
    intro c hc
    simp only [List.mem_singleton] at hc
    subst hc
    simp only [isDigit, digit_toNat n h]
    simp; omega
  | case2 n h ih =>
    rw [decDigits, if_neg h]
    intro c hc
    rcases List.mem_append.mp hc with hc | hc
    · exact ih c hc
    · simp only [List.mem_singleton] at hc
      subst hc
      simp only [isDigit, digit_toNat (n % 10) (by omega)]
      simp; omega

theorem decValue_append_one (ds : Bytes) (c : UInt8) :
    decValue (ds ++ [c]) = decValue ds * 10 + (c.toNat - 48) := by
  simp [decValue]

theorem decValue_decDigits (n : Nat) : decValue (decDigits n) = n := by
  induction n using decDigits.induct with
  | case1 n h =>
    rw [decDigits, if_pos h]
    simp only [decValue, List.foldl_cons, List.foldl_nil, digit_toNat n h]
    omega
  | case2 n h ih =>
    rw [decDigits, if_neg h, decValue_append_one, ih, digit_toNat (n % 10) (by omega)]
    omega

theorem decDigits_ne_nil (n : Nat) : decDigits n ≠ [] := by
  rw [decDigits]; split <;> simp

/-- No leading zero, except for the number 0 itself. -/
theorem decDigits_head (n : Nat) (h : 0 < n) : ∃ c cs, decDigits n = c :: cs ∧ c ≠ 48 := by
  induction n using decDigits.induct with
  | case1 n h' =>
    refine ⟨UInt8.ofNat (48 + n), [], by rw [decDigits, if_pos h'], ?_⟩
    intro e
    have := congrArg UInt8.toNat e
    rw [digit_toNat n h'] at this
    simp at this; omega
  | case2 n h' ih =>
    obtain ⟨c, cs, e, hne⟩ := ih (by omega)
    exact ⟨c, cs ++ [UInt8.ofNat (48 + n % 10)], by rw [decDigits, if_neg h', e]; rfl, hne⟩

/-! ## Escaping -/

theorem hexDigit_eq : ∀ d : Nat, d < 16 → hexDigit (UInt8.ofNat d) = hexChars.getD d 0 := by
  decide +kernel

theorem hexEscape_eq (c : UInt8) (h : ¬ printable c) :
    snprintfText 10 (hexEscape c) = escapeByte c := by
  have h1 : c / 16 = UInt8.ofNat (c.toNat / 16) := by
    apply UInt8.toNat_inj.mp
    rw [UInt8.toNat_div, UInt8.toNat_ofNat']
    have := c.toNat_lt
    change c.toNat / 16 = _
    omega
  have h2 : c % 16 = UInt8.ofNat (c.toNat % 16) := by
    apply UInt8.toNat_inj.mp
    rw [UInt8.toNat_mod, UInt8.toNat_ofNat']
    change c.toNat % 16 = _
    omega
  rw [escapeByte, if_neg h, hexEscape, h1, h2,
    hexDigit_eq _ (by have := c.toNat_lt; omega), hexDigit_eq _ (by omega)]
  rfl

theorem escape_step (c : UInt8) (str : Bytes) :
    (if 32 ≤ c ∧ c ≤ 126 then str ++ [c] else str ++ snprintfText 10 (hexEscape c)) =
      str ++ escapeByte c := by
  have h : (32 ≤ c ∧ c ≤ 126) ↔ printable c := by
    rw [UInt8.le_iff_toNat_le, UInt8.le_iff_toNat_le]; rfl
  by_cases hp : printable c
  · rw [if_pos (h.mpr hp), escapeByte, if_pos hp]
  · rw [if_neg (fun e => hp (h.mp e)), hexEscape_eq c hp]

theorem escapeLoop_eq (value : Slice) (hv : value.WF) (str : Bytes) (i : Nat) (hi : i ≤ value.len) :
    escapeLoop value str i = .ok (str ++ (value.bytes.drop i).flatMap escapeByte) := by
  have hv' : value.off + value.len ≤ value.buf.length := hv
  have hl := Slice.bytes_length hv
  induction hk : value.len - i generalizing i str with
  | zero =>
    rw [escapeLoop, if_neg (by omega), List.drop_of_length_le (by omega)]
    simp [pure, Except.pure]
  | succ k ih =>
    have hi' : i < value.bytes.length := by omega
    have hget : value.get i = .ok value.bytes[i] := by
      have h1 : value.off + i < value.buf.length := by omega
      have h3 : i < value.len := by omega
      have h2 : value.bytes[i] = value.buf[value.off + i] := by simp [Slice.bytes]
      rw [h2]
      simp [Slice.get, cassert, h3, rd, h1, bind, Except.bind]
    rw [escapeLoop, if_pos (by omega), hget]
    simp only [bind, Except.bind]
    rw [← apply_ite (fun s => escapeLoop value s (i + 1)), escape_step,
      ih _ (i + 1) (by omega) (by omega), List.drop_eq_getElem_cons hi',
      List.flatMap_cons, List.append_assoc]

/-! ## Parsing -/

theorem isDigit_iff (c : UInt8) : isDigit c = true ↔ ¬ (c < 48 ∨ c > 57) := by
  have e1 : (48 : UInt8).toNat = 48 := rfl
  have e2 : (57 : UInt8).toNat = 57 := rfl
  simp only [isDigit, gt_iff_lt, UInt8.lt_iff_toNat_lt, e1, e2, Bool.and_eq_true, decide_eq_true_eq]
  omega

/-- The value denoted by a digit string read after a prefix denoting `v`. -/
def decFrom (v : Nat) (ds : Bytes) : Nat := ds.foldl (fun acc c => acc * 10 + (c.toNat - 48)) v

theorem decFrom_ge (v : Nat) (ds : Bytes) : v ≤ decFrom v ds := by
  induction ds generalizing v with
  | nil => exact Nat.le_refl _
  | cons c cs ih =>
    rw [decFrom, List.foldl_cons]
    have := ih (v * 10 + (c.toNat - 48))
    rw [decFrom] at this
    omega

theorem overflow_iff (value : UInt64) (ch : UInt8) (h : isDigit ch = true) :
    (value > kMaxUint64 / 10 ∨ (value = kMaxUint64 / 10 ∧ ch > kLastDigit)) ↔
      2 ^ 64 ≤ value.toNat * 10 + (ch.toNat - 48) := by
  have e1 : (kMaxUint64 / 10).toNat = 1844674407370955161 := by decide
  have e2 : kLastDigit.toNat = 53 := by decide
  simp only [isDigit, Bool.and_eq_true, decide_eq_true_eq] at h
  rw [gt_iff_lt, UInt64.lt_iff_toNat_lt, gt_iff_lt, UInt8.lt_iff_toNat_lt, e1, e2,
    ← UInt64.toNat_inj, e1]
  omega

theorem step_value (value : UInt64) (ch : UInt8) (h : isDigit ch = true)
    (hlt : value.toNat * 10 + (ch.toNat - 48) < 2 ^ 64) :
    (value * 10 + (ch - 48).toUInt64).toNat = value.toNat * 10 + (ch.toNat - 48) := by
  simp only [isDigit, Bool.and_eq_true, decide_eq_true_eq] at h
  have e : (ch - 48).toNat = ch.toNat - 48 := by
    rw [UInt8.toNat_sub_of_le]
    · rfl
    · rw [UInt8.le_iff_toNat_le]; exact h.1
  rw [UInt64.toNat_add, UInt64.toNat_mul, UInt8.toNat_toUInt64, e]
  change (value.toNat * 10 % 2 ^ 64 + (ch.toNat - 48)) % 2 ^ 64 = _
  omega

theorem consumeLoop_eq (buf : Bytes) (stop cur : Nat) (value : UInt64) (hs : stop ≤ buf.length)
    (hc : cur ≤ stop) :
    consumeLoop buf stop cur value =
      .ok (let run := digitRun ((buf.drop cur).take (stop - cur))
        if decFrom value.toNat run < 2 ^ 64 then
          some (cur + run.length, UInt64.ofNat (decFrom value.toNat run))
        else none) := by
  induction hk : stop - cur generalizing cur value with
  | zero =>
    rw [consumeLoop, if_neg (by omega)]
    simp [digitRun, decFrom, pure, Except.pure, value.toNat_lt]
  | succ k ih =>
    have hcl : cur < buf.length := by omega
    have e1 : rd buf cur = .ok buf[cur] := by simp [rd, hcl]
    rw [consumeLoop, if_pos (by omega), e1, List.drop_eq_getElem_cons hcl, List.take_succ_cons]
    simp only [bind, Except.bind]
    by_cases hd : isDigit buf[cur] = true
    · rw [if_neg ((isDigit_iff _).mp hd)]
      have hrun (t : Bytes) : digitRun (buf[cur] :: t) = buf[cur] :: digitRun t := by
        rw [digitRun, List.takeWhile_cons_of_pos hd]; rfl
      have hfrom (t : Bytes) : decFrom value.toNat (buf[cur] :: t) =
          decFrom (value.toNat * 10 + (buf[cur].toNat - 48)) t := rfl
      simp only [hrun, hfrom]
      by_cases ho : value.toNat * 10 + (buf[cur].toNat - 48) < 2 ^ 64
      · rw [if_neg (fun e => absurd ((overflow_iff _ _ hd).mp e) (by omega)),
          ih (cur + 1) _ (by omega) (by omega), step_value _ _ hd ho]
        simp only [List.length_cons]
        have e : cur + 1 + (digitRun (List.take k (List.drop (cur + 1) buf))).length =
          cur + ((digitRun (List.take k (List.drop (cur + 1) buf))).length + 1) := by omega
        rw [e]
      · rw [if_pos ((overflow_iff _ _ hd).mpr (by omega))]
        have := decFrom_ge (value.toNat * 10 + (buf[cur].toNat - 48))
          (digitRun (List.take k (List.drop (cur + 1) buf)))
        rw [if_neg (by omega)]
        rfl
    · have hd' : buf[cur] < 48 ∨ buf[cur] > 57 := by
        apply Classical.byContradiction
        intro h
        exact hd ((isDigit_iff _).mpr h)
      rw [if_pos hd', digitRun, List.takeWhile_cons_of_neg hd]
      simp [decFrom, pure, Except.pure, value.toNat_lt]

theorem digitRun_prefix (bs : Bytes) : digitRun bs <+: bs := List.takeWhile_prefix _

theorem consume_eq (s : Slice) (val : UInt64) (hwf : s.WF) :
    ConsumeDecimalNumber s val = .ok (
      let run := digitRun s.bytes
      if decValue run < 2 ^ 64 then
        (run.length != 0, ⟨s.buf, s.off + run.length, s.len - run.length⟩,
          UInt64.ofNat (decValue run))
      else (false, s, val)) := by
  have hb : (s.buf.drop s.off).take (s.off + s.len - s.off) = s.bytes := by
    rw [Slice.bytes]; congr 1; omega
  have hle : (digitRun s.bytes).length ≤ s.len := by
    have := (digitRun_prefix s.bytes).length_le
    rwa [Slice.bytes_length hwf] at this
  have hdv : decFrom (0 : UInt64).toNat (digitRun s.bytes) = decValue (digitRun s.bytes) := rfl
  rw [ConsumeDecimalNumber, consumeLoop_eq _ _ _ _ hwf (by omega), hb]
  simp only [hdv]
  by_cases h : decValue (digitRun s.bytes) < 2 ^ 64
  · rw [if_pos h, if_pos h]
    simp only [bind, Except.bind, Nat.add_sub_cancel_left, Slice.removePrefix, cassert, hle,
      decide_true, if_true, pure, Except.pure]
  · rw [if_neg h, if_neg h]
    rfl

end Logging
end Lsmdb
