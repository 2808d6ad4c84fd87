import Verif.Proof.Logger
import Mathlib.Tactic.FinCases
import Mathlib.Data.List.Induction

/-!
# C61: log lines are written whole
-/

namespace Lsmdb
namespace Logger
open Spec

/-- The header is always the documented one. -/
theorem header_ok {t : Time} {tid : Bytes} (ht : t.Ordinary) (hy : t.tm_year + 1900 ≤ 9999) (hz : 0 ∉ tid) :
    ∃ h, headerText t (tid.take 32) = .ok h ∧ IsHeader t tid h := by
  obtain ⟨a1, a2, a3, a4, a5, a6, a7, a8, a9, a10, a11, a12, a13⟩ := ht
  refine ⟨_, headerText_ok (by unfold isInt; omega) (by unfold isInt; omega) fun h => hz (List.mem_of_mem_take h), ?_⟩
  refine ⟨_, _, _, _, _, _, _, padInt_digits 3 a1 (by omega), padInt_digits 1 (by omega) (by omega), padInt_digits 1 (by omega) (by omega),
    padInt_digits 1 (by omega) (by omega), padInt_digits 1 (by omega) (by omega), padInt_digits 1 (by omega) (by omega),
    padInt_digits 5 (by omega) (by omega), rfl⟩

/-- C61: in the years 0 to 9999, for every thread and every message of up to 2^31 - 63 characters (the library cannot count more than
2^31 - 1), `Logv` runs without undefined behaviour or failing assertion, hands exactly one text to the stream, namely the line with
the whole message and one newline, and leaves no buffer allocated. -/
theorem C61_line_partial (ndebug : Bool) (t : Time) (tid message : Bytes) (ht : t.Ordinary) (hy : t.tm_year + 1900 ≤ 9999)
    (hz : 0 ∉ tid) (hm : message.length ≤ 2 ^ 31 - 63) :
    ∃ line, Logv ndebug t tid (some message) = .ok { writes := [line], leaked := 0 } ∧ IsLine t tid message line := by
  obtain ⟨h, hh, H⟩ := header_ok ht hy hz
  have hl := H.length
  exact ⟨_, Logv_ok hh H.last.1 H.last.2 (.inr (by omega)) (by omega) (by omega), h, H, rfl⟩

/-- C61: a line is determined by what is logged: there is only one way to write the header. -/
theorem C61_line_unique (t : Time) (tid message l l' : Bytes) (h : IsLine t tid message l) (h' : IsLine t tid message l') : l = l' := by
  have inj : ∀ (a b : Bytes) (w : Nat) (v : Int), Digits a w v → Digits b w v → a = b := by
    intro a b w v ha hb
    obtain ⟨hl, hd, hv⟩ := ha
    obtain ⟨hl', hd', hv'⟩ := hb
    have hv2 : decValue a = decValue b := by omega
    clear hv hv' v
    induction w generalizing a b with
    | zero => rw [List.length_eq_zero_iff.mp hl, List.length_eq_zero_iff.mp hl']
    | succ w ih =>
      obtain ⟨a', c, rfl⟩ : ∃ a' c, a = a' ++ [c] := ⟨a.dropLast, a.getLast (by intro e; rw [e] at hl; exact absurd hl (by simp)), (List.dropLast_concat_getLast _).symm⟩
      obtain ⟨b', d, rfl⟩ : ∃ b' d, b = b' ++ [d] := ⟨b.dropLast, b.getLast (by intro e; rw [e] at hl'; exact absurd hl' (by simp)), (List.dropLast_concat_getLast _).symm⟩
      rw [Logging.decValue_append_one, Logging.decValue_append_one] at hv2
      have hc := hd c (by simp)
      have hd2 := hd' d (by simp)
      unfold isDigit at hc hd2
      simp only [Bool.and_eq_true, decide_eq_true_eq] at hc hd2
      have hcd : c.toNat = d.toNat := by omega
      rw [ih a' b' (by simpa using hl) (fun x hx => hd x (by simp [hx])) (by simpa using hl') (fun x hx => hd' x (by simp [hx]))
        (by omega), UInt8.toNat_inj.mp hcd]
  obtain ⟨h, ⟨Y, M, D, hh, mm, ss, us, h1, h2, h3, h4, h5, h6, h7, rfl⟩, rfl⟩ := h
  obtain ⟨h', ⟨Y', M', D', hh', mm', ss', us', h1', h2', h3', h4', h5', h6', h7', rfl⟩, rfl⟩ := h'
  rw [inj _ _ _ _ h1 h1', inj _ _ _ _ h2 h2', inj _ _ _ _ h3 h3', inj _ _ _ _ h4 h4', inj _ _ _ _ h5 h5', inj _ _ _ _ h6 h6',
    inj _ _ _ _ h7 h7']

/-- Lines of a sequence of calls, one after another. -/
inductive AreLines : List Call → Bytes → Prop where
  | nil : AreLines [] []
  | cons {c cs m line rest} : c.message = some m → IsLine c.time c.thread_id m line → AreLines cs rest →
      AreLines (c :: cs) (line ++ rest)

/-- C61: the calls of every sequence, from whatever threads, leave their lines in the file one after another, in order, after what was
there. -/
theorem C61_sequence (ndebug : Bool) (calls : List Call) (file : Bytes)
    (hc : ∀ c ∈ calls, c.time.Ordinary ∧ c.time.tm_year + 1900 ≤ 9999 ∧ 0 ∉ c.thread_id ∧
      ∃ m, c.message = some m ∧ m.length ≤ 2 ^ 31 - 63) :
    ∃ lines, logAll ndebug calls file = .ok (file ++ lines) ∧ AreLines calls lines := by
  induction calls generalizing file with
  | nil => exact ⟨[], by rw [List.append_nil]; rfl, .nil⟩
  | cons c cs ih =>
    obtain ⟨h1, h2, h3, m, h4, h5⟩ := hc c List.mem_cons_self
    obtain ⟨line, e, H⟩ := C61_line_partial ndebug c.time c.thread_id m h1 h2 h3 h5
    obtain ⟨rest, e', H'⟩ := ih (file ++ line) fun c hc' => hc c (List.mem_cons_of_mem _ hc')
    refine ⟨line ++ rest, ?_, .cons h4 H H'⟩
    unfold logAll
    rw [h4, e, ok_bind]
    simpa using e'

theorem decDigits_lower (n k : Nat) (h : 10 ^ k ≤ n) : k < (Logging.decDigits n).length := by
  rcases Nat.lt_or_ge k (Logging.decDigits n).length with h' | hlt
  · exact h'
  · exfalso
    have hb : decValue (Logging.decDigits n) < 10 ^ (Logging.decDigits n).length := by
      have hdig := Logging.decDigits_isDigit n
      generalize Logging.decDigits n = ds at hdig
      clear hlt h
      induction ds using List.reverseRecOn with
      | nil => decide
      | append_singleton ds c ih =>
        have ih := ih fun c hc => hdig c (by simp [hc])
        have hc := hdig c (by simp)
        unfold isDigit at hc
        simp only [Bool.and_eq_true, decide_eq_true_eq] at hc
        rw [Logging.decValue_append_one, List.length_append, List.length_singleton, Nat.pow_succ]
        omega
    rw [Logging.decValue_decDigits] at hb
    have := Nat.pow_le_pow_right (n := 10) (by decide) hlt
    omega

/-- `Y` and `rest` are the year and the rest of the header in a year with more than four digits. -/
def LateHeader (t : Time) (tid Y rest : Bytes) : Prop :=
  (decValue Y : Int) = t.tm_year + 1900 ∧ (∀ c ∈ Y, isDigit c = true) ∧ Y.head? ≠ some 48 ∧
    ∃ Y0, Digits Y0 4 1900 ∧ IsHeader { t with tm_year := 0 } tid (Y0 ++ rest)

theorem late_header {t : Time} {tid : Bytes} (ht : t.Ordinary) (hy : 9999 < t.tm_year + 1900)
    (hy' : t.tm_year + 1900 < 2 ^ 31) (hz : 0 ∉ tid) :
    ∃ Y rest, LateHeader t tid Y rest ∧ headerText t (tid.take 32) = .ok (Y ++ rest) ∧ 5 ≤ Y.length ∧ Y.length ≤ 10 ∧
      rest.length = 24 + min 32 tid.length ∧ rest.getLast? = some 32 := by
  obtain ⟨a1, a2, a3, a4, a5, a6, a7, a8, a9, a10, a11, a12, a13⟩ := ht
  obtain ⟨h0, hh0, H0⟩ := header_ok (t := { t with tm_year := 0 }) (tid := tid)
    ⟨by simp, a2, a3, a4, a5, a6, a7, a8, a9, a10, a11, a12, a13⟩ (by simp) hz
  have hz' : (0 : UInt8) ∉ tid.take 32 := fun h => hz (List.mem_of_mem_take h)
  have hh := headerText_ok (t := t) (tid := tid.take 32) (by unfold isInt; omega) (by unfold isInt; omega) hz'
  rw [headerText_ok (by dsimp only; decide) (by dsimp only; unfold isInt; omega) hz'] at hh0
  injection hh0 with hh0
  obtain ⟨n, hn⟩ := Int.eq_ofNat_of_zero_le a1
  have hlow : 4 < (Logging.decDigits n).length := decDigits_lower n 4 (by omega)
  have hY : padInt 4 (t.tm_year + 1900) = Logging.decDigits n := by
    rw [hn]
    show padInt 4 ((n : Nat) : Int) = _
    rw [padInt_nat, show 4 - (Logging.decDigits n).length = 0 by omega]
    rfl
  have hYl : (Logging.decDigits n).length ≤ 10 := Logging.decDigits_length 9 n (by omega)
  rw [hY] at hh
  have hp4 := padInt_digits 3 (v := 1900) (by decide) (by decide)
  have hl0 := H0.length
  rw [← hh0] at H0 hl0
  simp only [List.append_assoc] at hh H0 hl0
  rw [List.length_append, show (0 : Int) + 1900 = 1900 from rfl, hp4.1] at hl0
  refine ⟨Logging.decDigits n, _, ⟨by rw [Logging.decValue_decDigits]; omega, Logging.decDigits_isDigit n, ?_, padInt 4 1900, hp4, H0⟩,
    hh, by omega, hYl, by omega, ?_⟩
  · obtain ⟨c, cs, e, hc⟩ := Logging.decDigits_head n (by omega)
    rw [e]
    simpa using hc
  · simp only [← List.append_assoc]
    rw [List.getLast?_append]
    rfl

/-- C61: later years. A year with more than four digits is written out in full; the rest of the line is as always. In a debug build
this needs a thread id of at most 26 characters. -/
theorem C61_late_years (ndebug : Bool) (t : Time) (tid message : Bytes) (ht : t.Ordinary) (hy : 9999 < t.tm_year + 1900)
    (hy' : t.tm_year + 1900 < 2 ^ 31) (hz : 0 ∉ tid) (hd : ndebug = true ∨ tid.length ≤ 26) (hm : message.length ≤ 2 ^ 31 - 69) :
    ∃ Y rest, LateHeader t tid Y rest ∧
      Logv ndebug t tid (some message) = .ok { writes := [Y ++ rest ++ terminated message], leaked := 0 } := by
  obtain ⟨Y, rest, H, hh, h1, h2, h3, h4⟩ := late_header ht hy hy' hz
  refine ⟨Y, rest, H, Logv_ok hh ?_ ?_ ?_ ?_ ?_⟩
  · intro e
    have := congrArg List.length e
    rw [List.length_append, List.length_nil] at this
    omega
  · rw [List.getLast?_append, h4]
    exact fun e => absurd (Option.some.inj e) (by decide)
  · refine hd.imp_right fun hd => ?_
    rw [List.length_append]
    omega
  · rw [List.length_append]
    omega
  · rw [List.length_append]
    omega

theorem cut (tid : Bytes) : (if tid.length > kMaxThreadIdSize then tid.take kMaxThreadIdSize else tid) = tid.take 32 := by
  unfold kMaxThreadIdSize
  split
  · rfl
  · rw [List.take_of_length_le (by omega)]

/-- C61 fails in a debug build from the year 10000 on if the thread id is long: the assertion about the header's length. -/
theorem C61_year_violated (t : Time) (tid : Bytes) (message : Option Bytes) (ht : t.Ordinary) (hy : 9999 < t.tm_year + 1900)
    (hy' : t.tm_year + 1900 < 2 ^ 31) (hz : 0 ∉ tid) (hl : 32 ≤ tid.length) :
    Logv false t tid message = .error .assertFail := by
  obtain ⟨Y, rest, H, hh, h1, h2, h3, h4⟩ := late_header ht hy hy' hz
  have : pass false t (tid.take 32) message 0 kStackBufferSize = .error .assertFail := by
    unfold pass
    rw [if_neg (by decide)]
    simp only [hh, ok_bind]
    obtain ⟨b1, e1, H1, L1⟩ := snprintf_holds (buf := List.replicate kStackBufferSize.toNat none) (text := []) (bs := Y ++ rest)
      (off := 0) (n := kStackBufferSize) ⟨_, rfl⟩ rfl (by rw [List.length_replicate]; rfl) (by rw [List.length_append]; omega)
      (by unfold kStackBufferSize; rw [List.length_append]; omega)
    rw [e1, ok_bind]
    have : assert false (decide (((Y ++ rest).length : Int) ≤ 28 + kMaxThreadIdSize)) = .error .assertFail := by
      unfold assert
      rw [if_neg]
      simp [kMaxThreadIdSize]
      omega
    dsimp only
    rw [this]
    rfl
  unfold Logv
  rw [cut]
  dsimp only
  rw [this]
  rfl

/-- C61 fails for messages the library cannot format (a conversion error, or 2^31 characters and more): the message is lost, and the
line is the header without its last space. -/
theorem C61_format_error (ndebug : Bool) (t : Time) (tid : Bytes) (message : Option Bytes) (ht : t.Ordinary)
    (hy : t.tm_year + 1900 ≤ 9999) (hz : 0 ∉ tid) (hn : 10 ∉ tid) (hm : ∀ m, message = some m → 2 ^ 31 ≤ m.length) :
    ∃ h, IsHeader t tid (h ++ [32]) ∧ Logv ndebug t tid message = .ok { writes := [h ++ [10]], leaked := 0 } := by
  obtain ⟨h, hh, H⟩ := header_ok ht hy hz
  have hl := H.length
  have hdl : h = h.dropLast ++ [32] ∧ h.dropLast.getLast? ≠ some 10 := by
    obtain ⟨Y, M, D, hh, mm, ss, us, h1, h2, h3, h4, h5, h6, h7, rfl⟩ := H
    simp only [chr]
    rw [List.dropLast_concat]
    refine ⟨rfl, ?_⟩
    rw [List.getLast?_append]
    cases ht : (tid.take 32).getLast? with
    | none => rw [Option.none_or, List.getLast?_append]; exact fun e => absurd (Option.some.inj e) (by decide)
    | some c =>
      intro e
      have : c = 10 := Option.some.inj e
      subst this
      exact hn (List.mem_of_mem_take (List.mem_of_getLast? ht))
  refine ⟨h.dropLast, hdl.1 ▸ H, ?_⟩
  unfold Logv
  rw [cut]
  dsimp only
  rw [pass_fails hh (by omega) hdl.2 (.inr (by omega)) (by unfold kStackBufferSize; omega) (by decide) hm, ok_bind]
  rfl

/-- C61 fails for a message of nearly 2^31 characters: the length of the line overflows `int`. -/
theorem C61_length_overflow (ndebug : Bool) (t : Time) (tid m : Bytes) (ht : t.Ordinary) (hy : t.tm_year + 1900 ≤ 9999) (hz : 0 ∉ tid)
    (hm : m.length < 2 ^ 31) (hm' : 2 ^ 31 ≤ 28 + min 32 tid.length + m.length + 2) :
    Logv ndebug t tid (some m) = .error .arith := by
  obtain ⟨h, hh, H⟩ := header_ok ht hy hz
  have hl := H.length
  have : pass ndebug t (tid.take 32) (some m) 0 kStackBufferSize = .error .arith := by
    unfold pass
    rw [if_neg (by decide)]
    simp only [hh, ok_bind]
    obtain ⟨b1, e1, H1, L1⟩ := snprintf_holds (buf := List.replicate kStackBufferSize.toNat none) (text := []) (bs := h) (off := 0)
      (n := kStackBufferSize) ⟨_, rfl⟩ rfl (by rw [List.length_replicate]; rfl) (by omega) (by unfold kStackBufferSize; omega)
    rw [List.nil_append] at H1
    rw [List.length_replicate] at L1
    rw [e1, ok_bind]
    rw [assert_ok (.inr (decide_eq_true (by unfold kMaxThreadIdSize; dsimp only; omega))), ok_bind,
      assert_ok (.inr (decide_eq_true (by unfold kStackBufferSize; dsimp only; omega))), ok_bind]
    have hb : (h.length : Int) + (kStackBufferSize - h.length) = b1.length := by rw [L1]; unfold kStackBufferSize; simp; omega
    obtain ⟨b2, e2, -, -⟩ := snprintf_long (bs := m) H1 (off := h.length) (n := kStackBufferSize - h.length) rfl hb
      (by omega) (by unfold kStackBufferSize; omega) (by unfold kStackBufferSize; omega)
    rw [e2, ok_bind]
    dsimp only
    by_cases ho : isInt ((h.length : Int) + m.length)
    · rw [addInt_ok ho, ok_bind, if_pos ⟨by unfold kStackBufferSize; omega, trivial⟩]
      unfold addInt
      rw [if_neg (by unfold isInt; omega)]
      rfl
    · unfold addInt
      rw [if_neg ho]
      rfl
  unfold Logv
  rw [cut]
  dsimp only
  rw [this]
  rfl

/-! ## Instances -/

/-- Noon of the eighteenth of November 2026. -/
def noon : Time := ⟨126, 10, 18, 12, 0, 0, 123⟩

example : noon.Ordinary ∧ noon.tm_year + 1900 ≤ 9999 := by unfold noon Time.Ordinary; decide

example : Logv false noon [55] (some [104, 105]) =
    .ok { writes := ["2026/11/18-12:00:00.000123 7 hi\n".toUTF8.data.toList], leaked := 0 } := by decide +kernel

/-- The boundary: this header has 29 characters; a message of 481 fits the stack buffer, one of 482 needs another. -/
example : (pass false noon [55] (some (List.replicate 481 97)) 0 512).toOption.map (fun r => r.1.isRight) = some true ∧
    (pass false noon [55] (some (List.replicate 482 97)) 0 512).toOption.map (fun r => r.1.isRight) = some false := by decide +kernel

example : ∃ line, Logv false noon [55] (some (List.replicate 482 97)) = .ok { writes := [line], leaked := 0 } ∧
    IsLine noon [55] (List.replicate 482 97) line :=
  C61_line_partial false noon [55] _ (by unfold noon Time.Ordinary; decide) (by decide) (by decide)
    (by rw [List.length_replicate]; decide)

/-- The year 10000 with a thread id of 32 characters. -/
example : Logv false { noon with tm_year := 8100 } (List.replicate 32 55) (some []) = .error .assertFail :=
  C61_year_violated _ _ _ (by unfold noon Time.Ordinary; decide) (by decide) (by decide) (by decide) (by decide)

example : Logv true noon [55] (some (List.replicate (2 ^ 31 - 1) 97)) = .error .arith :=
  C61_length_overflow _ _ _ _ (by unfold noon Time.Ordinary; decide) (by decide) (by decide)
    (by rw [List.length_replicate]; decide) (by rw [List.length_replicate]; decide)

example : Logv false noon [55] none =
    .ok { writes := ["2026/11/18-12:00:00.000123 7\n".toUTF8.data.toList], leaked := 0 } := by decide +kernel

end Logger
end Lsmdb
