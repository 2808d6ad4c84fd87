import Verif.Proof.Logging

/-!
# C12–C14: numbers and escaped strings
-/

namespace Lsmdb
namespace Props
open Spec Logging

/-- C12: `ConsumeDecimalNumber` on `NumberToString(n)` followed by anything that does not start with a
digit succeeds, yields `n` and leaves exactly what followed. -/
theorem C12_round_trip (n old : UInt64) (rest : Bytes) (hrest : ∀ c cs, rest = c :: cs → isDigit c = false)
    (s : Slice) (hwf : s.WF) (hb : s.bytes = NumberToString n ++ rest) :
    ∃ s', ConsumeDecimalNumber s old = .ok (true, s', n) ∧ s'.WF ∧ s'.bytes = rest := by
  have hn : NumberToString n = decDigits n.toNat := by rw [NumberToString, AppendNumberTo_eq]; rfl
  have hrun : digitRun s.bytes = decDigits n.toNat := by
    rw [hb, hn, digitRun, List.takeWhile_append_of_pos (decDigits_isDigit _)]
    have : rest.takeWhile isDigit = [] := by
      cases rest with
      | nil => rfl
      | cons c cs => rw [List.takeWhile_cons_of_neg (by rw [hrest c cs rfl]; decide)]
    rw [this, List.append_nil]
  have hlen : s.len = (decDigits n.toNat).length + rest.length := by
    rw [← Slice.bytes_length hwf, hb, hn, List.length_append]
  have hwf' : s.off + s.len ≤ s.buf.length := hwf
  rw [consume_eq _ _ hwf, hrun]
  simp only [decValue_decDigits, n.toNat_lt, if_true]
  refine ⟨⟨s.buf, s.off + (decDigits n.toNat).length, s.len - (decDigits n.toNat).length⟩, ?_, ?_⟩
  · have : (decDigits n.toNat).length ≠ 0 := by
      intro h; exact decDigits_ne_nil _ (List.length_eq_zero_iff.mp h)
    simp [this]
  · constructor
    · simp only [Slice.WF]; omega
    · have e := Coding.keepLast_bytes hwf (pre := decDigits n.toNat) (rest := rest) (by rw [hb, hn])
      rw [← e]
      simp only [Coding.keepLast, Slice.bytes]
      congr 1
      · omega
      · congr 1; omega

/-- C12: `AppendNumberTo` appends; the text consists of at most 20 digits (so the 30-byte buffer is
never too small), denotes the number, and has no leading zero unless the number is 0, whose text is
"0". -/
theorem C12_text (str : Bytes) (n : UInt64) :
    AppendNumberTo str n = str ++ NumberToString n ∧
    (∀ c ∈ NumberToString n, isDigit c = true) ∧
    decValue (NumberToString n) = n.toNat ∧
    (NumberToString n).length ≤ 20 ∧
    (n ≠ 0 → (NumberToString n).head? ≠ some 48) ∧ NumberToString 0 = [48] := by
  have hn (n : UInt64) : NumberToString n = decDigits n.toNat := by
    rw [NumberToString, AppendNumberTo_eq]; rfl
  refine ⟨by rw [hn, AppendNumberTo_eq], ?_, ?_, ?_, ?_, ?_⟩
  · rw [hn]; exact decDigits_isDigit _
  · rw [hn]; exact decValue_decDigits _
  · rw [hn]; exact decDigits_len20 n
  · intro h0
    have : 0 < n.toNat := by
      rcases Nat.eq_zero_or_pos n.toNat with h | h
      · exact absurd (UInt64.toNat_inj.mp (h.trans rfl)) h0
      · exact h
    obtain ⟨c, cs, e, hne⟩ := decDigits_head n.toNat this
    rw [hn, e]; simpa using hne
  · rw [hn, show (0 : UInt64).toNat = 0 from rfl, decDigits]; rfl

/-- C13: parsing is exact on every input.  With `run` the maximal run of digits at the front of the
input: if it denotes a number below 2^64 the call stores that number (0 for an empty run), drops
exactly the run, and reports success exactly when the run is not empty; otherwise it fails and leaves
input and output untouched. -/
theorem C13_exact (s : Slice) (old : UInt64) (hwf : s.WF) :
    let run := digitRun s.bytes
    (decValue run < 2 ^ 64 → ∃ s' v, ConsumeDecimalNumber s old = .ok (decide (run ≠ []), s', v) ∧
      v.toNat = decValue run ∧ s'.WF ∧ s'.bytes = s.bytes.drop run.length ∧
      (run = [] → s' = s)) ∧
    (2 ^ 64 ≤ decValue run → ConsumeDecimalNumber s old = .ok (false, s, old)) := by
  intro run
  have hwf' : s.off + s.len ≤ s.buf.length := hwf
  have hle : run.length ≤ s.len := by
    have := (digitRun_prefix s.bytes).length_le
    rwa [Slice.bytes_length hwf] at this
  constructor
  · intro h
    refine ⟨⟨s.buf, s.off + run.length, s.len - run.length⟩, UInt64.ofNat (decValue run), ?_, ?_,
      ?_, ?_, ?_⟩
    · rw [consume_eq _ _ hwf]
      simp only [run] at h ⊢
      rw [if_pos h]
      congr 2
      rw [Bool.eq_iff_iff]
      simp
    · rw [UInt64.toNat_ofNat', Nat.mod_eq_of_lt h]
    · simp only [Slice.WF]; omega
    · simp only [Slice.bytes, List.drop_take, List.drop_drop]
    · intro e; rw [e]; simp
  · intro h
    rw [consume_eq _ _ hwf]
    simp only [run] at h ⊢
    rw [if_neg (by omega)]

/-- C13: the run really is the maximal digit prefix. -/
theorem C13_run_is_maximal (bs : Bytes) :
    ∃ rest, bs = digitRun bs ++ rest ∧ (∀ c ∈ digitRun bs, isDigit c = true) ∧
      (∀ c cs, rest = c :: cs → isDigit c = false) := by
  induction bs with
  | nil => exact ⟨[], rfl, by simp [digitRun], by simp⟩
  | cons b bs ih =>
    by_cases hb : isDigit b = true
    · obtain ⟨rest, e, h1, h2⟩ := ih
      have er : digitRun (b :: bs) = b :: digitRun bs := by
        rw [digitRun, List.takeWhile_cons_of_pos hb]; rfl
      refine ⟨rest, ?_, ?_, h2⟩
      · rw [er, List.cons_append, ← e]
      · intro c hc
        rw [er] at hc
        rcases List.mem_cons.mp hc with rfl | hc
        · exact hb
        · exact h1 c hc
    · have er : digitRun (b :: bs) = [] := by
        rw [digitRun, List.takeWhile_cons_of_neg hb]
      refine ⟨b :: bs, by rw [er]; rfl, by rw [er]; simp, ?_⟩
      intro c cs h
      simp only [List.cons.injEq] at h
      rw [← h.1]; simpa using hb

/-- C14: `EscapeString` shows each byte as specified and concatenates; it appends to the destination;
the output is all printable; a printable string is unchanged; concatenation is respected. -/
theorem C14_escape (str : Bytes) (s : Slice) (hwf : s.WF) :
    EscapeString s = .ok (s.bytes.flatMap escapeByte) ∧
    AppendEscapedStringTo str s = .ok (str ++ s.bytes.flatMap escapeByte) ∧
    (∀ c ∈ s.bytes.flatMap escapeByte, printable c) ∧
    ((∀ c ∈ s.bytes, printable c) → EscapeString s = .ok s.bytes) := by
  have hpr : ∀ d : Nat, d < 16 → printable (hexChars.getD d 0) := by decide
  have h (str : Bytes) : AppendEscapedStringTo str s = .ok (str ++ s.bytes.flatMap escapeByte) := by
    rw [AppendEscapedStringTo, escapeLoop_eq s hwf str 0 (by omega), List.drop_zero]
  refine ⟨by rw [EscapeString, h]; rfl, h str, ?_, ?_⟩
  · intro c hc
    obtain ⟨b, _, hb⟩ := List.mem_flatMap.mp hc
    rw [escapeByte] at hb
    split at hb
    · rename_i hp; simp only [List.mem_singleton] at hb; rwa [hb]
    · simp only [List.mem_cons, List.not_mem_nil, or_false] at hb
      have hlt := b.toNat_lt
      rcases hb with rfl | rfl | rfl | rfl
      · decide
      · decide
      · exact hpr _ (by omega)
      · exact hpr _ (by omega)
  · intro hp
    rw [EscapeString, h, List.nil_append]
    congr 1
    generalize s.bytes = bs at hp
    induction bs with
    | nil => rfl
    | cons b bs ih =>
      rw [List.flatMap_cons, ih (fun c hc => hp c (by simp [hc])), escapeByte,
        if_pos (hp b (by simp))]
      rfl

theorem C14_compositional (a b : Bytes) :
    ∃ ea eb, EscapeString (Slice.ofBytes a) = .ok ea ∧ EscapeString (Slice.ofBytes b) = .ok eb ∧
      EscapeString (Slice.ofBytes (a ++ b)) = .ok (ea ++ eb) := by
  have h (x : Bytes) : EscapeString (Slice.ofBytes x) = .ok (x.flatMap escapeByte) := by
    have hw : (Slice.ofBytes x).WF := by simp [Slice.WF, Slice.ofBytes]
    have hb : (Slice.ofBytes x).bytes = x := by simp [Slice.bytes, Slice.ofBytes]
    rw [(C14_escape [] _ hw).1, hb]
  exact ⟨_, _, h a, h b, by rw [h]; simp⟩

/-- C14: the original can be recovered when it contains no backslash: equal outputs mean equal
inputs. -/
theorem C14_faithful (a b : Slice) (ha : a.WF) (hb : b.WF)
    (na : ∀ c ∈ a.bytes, c ≠ 0x5c) (nb : ∀ c ∈ b.bytes, c ≠ 0x5c)
    (h : EscapeString a = EscapeString b) : a.bytes = b.bytes := by
  rw [(C14_escape [] a ha).1, (C14_escape [] b hb).1] at h
  have h := Except.ok.inj h
  generalize a.bytes = x at h na
  generalize b.bytes = y at h nb
  have hinj : ∀ p : Nat, p < 256 → ∀ q : Nat, q < 256 →
      hexChars.getD (p / 16) 0 = hexChars.getD (q / 16) 0 →
      hexChars.getD (p % 16) 0 = hexChars.getD (q % 16) 0 → p = q := by
    have key : ∀ i : Nat, i < 16 → ∀ j : Nat, j < 16 → hexChars.getD i 0 = hexChars.getD j 0 →
        i = j := by decide
    intro p hp q hq h1 h2
    have := key _ (by omega) _ (by omega) h1
    have := key _ (by omega) _ (by omega) h2
    omega
  have hlenpos (c : UInt8) : escapeByte c ≠ [] := by rw [escapeByte]; split <;> simp
  induction x generalizing y with
  | nil =>
    cases y with
    | nil => rfl
    | cons d ds =>
      rw [List.flatMap_nil, List.flatMap_cons] at h
      exact absurd (List.append_eq_nil_iff.mp h.symm).1 (hlenpos d)
  | cons c cs ih =>
    cases y with
    | nil =>
      rw [List.flatMap_nil, List.flatMap_cons] at h
      exact absurd (List.append_eq_nil_iff.mp h).1 (hlenpos c)
    | cons d ds =>
      have nc := na c (by simp)
      have nd := nb d (by simp)
      rw [List.flatMap_cons, List.flatMap_cons] at h
      have main : c = d ∧ cs.flatMap escapeByte = ds.flatMap escapeByte := by
        by_cases hc : printable c <;> by_cases hd : printable d
        · simpa [escapeByte, hc, hd] using h
        · simp [escapeByte, hc, hd] at h
          exact absurd h.1 nc
        · simp [escapeByte, hc, hd] at h
          exact absurd h.1.symm nd
        · simp only [escapeByte, hc, hd, if_false, List.cons_append, List.nil_append,
            List.cons.injEq, true_and] at h
          exact ⟨UInt8.toNat_inj.mp (hinj _ c.toNat_lt _ d.toNat_lt h.1 h.2.1), h.2.2⟩
      rw [main.1, ih (fun z hz => na z (by simp [hz])) ds main.2 (fun z hz => nb z (by simp [hz]))]

/-- C14, the remark that the backslash is not escaped: in general different strings may be shown
alike, so the output does not determine the input. -/
theorem C14_not_injective : ∃ a b : Bytes, a ≠ b ∧
    EscapeString (Slice.ofBytes a) = EscapeString (Slice.ofBytes b) := by
  refine ⟨[0x00], [0x5c, 0x78, 0x30, 0x30], by decide, ?_⟩
  have h (x : Bytes) : EscapeString (Slice.ofBytes x) = .ok (x.flatMap escapeByte) := by
    have hw : (Slice.ofBytes x).WF := by simp [Slice.WF, Slice.ofBytes]
    have hb : (Slice.ofBytes x).bytes = x := by simp [Slice.bytes, Slice.ofBytes]
    rw [(C14_escape [] _ hw).1, hb]
  rw [h, h]; decide

example : (Slice.mk [49, 50, 44, 55] 0 4).WF ∧ digitRun (Slice.mk [49, 50, 44, 55] 0 4).bytes = [49, 50] ∧
    decValue [49, 50] < 2 ^ 64 := by decide
example : (Slice.mk [65, 0, 255] 0 3).WF ∧ (∀ c ∈ (Slice.mk [65, 0, 255] 0 3).bytes, c ≠ 0x5c) ∧
    (Slice.mk [65, 0, 255] 0 3).bytes.flatMap escapeByte =
      [65, 0x5c, 0x78, 48, 48, 0x5c, 0x78, 102, 102] := by decide
example : 2 ^ 64 ≤ decValue [49, 56, 52, 52, 54, 55, 52, 52, 48, 55, 51, 55, 48, 57, 53, 53, 49, 54, 49, 54] := by
  decide

end Props
end Lsmdb
