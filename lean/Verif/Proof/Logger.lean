import Verif.Spec.Logger
import Verif.Proof.Logging

namespace Lsmdb
namespace Logger
open Spec

theorem ok_bind {α β : Type} (a : α) (f : α → M β) : ((Except.ok a : M α) >>= f) = f a := rfl

theorem addInt_ok {a b : Int} (h : isInt (a + b)) : addInt a b = .ok (a + b) := by
  unfold addInt; rw [if_pos h]; rfl

theorem assert_ok {ndebug c : Bool} (h : ndebug = true ∨ c = true) : assert ndebug c = .ok () := by
  unfold assert; rw [if_pos (by simpa using h)]; rfl

/-- The buffer holds `text` from its beginning. -/
def Holds (buf : Buf) (text : Bytes) : Prop := ∃ rest, buf = text.map some ++ rest

theorem Holds.length {buf text} (h : Holds buf text) : text.length ≤ buf.length := by
  obtain ⟨r, rfl⟩ := h; simp

theorem poke_holds {buf : Buf} {text bs : Bytes} {off : Nat} (h : Holds buf text) (ho : off = text.length)
    (hb : off + bs.length ≤ buf.length) :
    ∃ buf', poke buf off bs = .ok buf' ∧ Holds buf' (text ++ bs) ∧ buf'.length = buf.length := by
  obtain ⟨r, rfl⟩ := h
  subst ho
  unfold poke
  rw [if_pos hb]
  refine ⟨_, rfl, ⟨(List.map some text ++ r).drop (text.length + bs.length), ?_⟩, ?_⟩
  · simp
  · simp only [List.length_append, List.length_map] at hb
    simp
    omega

theorem Holds.left {buf a b} (h : Holds buf (a ++ b)) : Holds buf a := by
  obtain ⟨r, rfl⟩ := h; exact ⟨b.map some ++ r, by simp⟩

theorem snprintf_holds {buf : Buf} {text bs : Bytes} {off n : Int} (h : Holds buf text) (ho : off = text.length)
    (hn : off + n = buf.length) (hbs : (bs.length : Int) < 2 ^ 31) (hfit : (bs.length : Int) < n) :
    ∃ buf', snprintf buf off n (some bs) = .ok (buf', bs.length) ∧ Holds buf' (text ++ bs) ∧ buf'.length = buf.length := by
  unfold snprintf
  have hl := h.length
  rw [if_neg (by omega)]
  simp only [show ¬ ((bs.length : Int) ≥ 2 ^ 31) by omega, show n ≠ 0 by omega, if_false]
  rw [List.take_of_length_le (by omega)]
  obtain ⟨buf', h1, h2, h3⟩ := poke_holds (bs := bs ++ [0]) h (off := off.toNat) (by omega) (by simp; omega)
  rw [h1]
  refine ⟨buf', rfl, ?_, h3⟩
  rw [← List.append_assoc] at h2
  exact h2.left

/-- Too small a buffer: nothing outside is written, what was before stays, and the length of the whole text is returned. -/
theorem snprintf_long {buf : Buf} {text bs : Bytes} {off n : Int} (h : Holds buf text) (ho : off = text.length)
    (hn : off + n = buf.length) (hbs : (bs.length : Int) < 2 ^ 31) (hfit : n ≤ (bs.length : Int)) (hpos : 0 < n) :
    ∃ buf', snprintf buf off n (some bs) = .ok (buf', bs.length) ∧ Holds buf' text ∧ buf'.length = buf.length := by
  unfold snprintf
  rw [if_neg (by omega)]
  simp only [show ¬ ((bs.length : Int) ≥ 2 ^ 31) by omega, show n ≠ 0 by omega, if_false]
  obtain ⟨buf', h1, h2, h3⟩ := poke_holds (bs := bs.take (n.toNat - 1) ++ [0]) h (off := off.toNat) (by omega)
    (by simp; omega)
  rw [h1]
  exact ⟨buf', rfl, h2.left, h3⟩

theorem peek_holds {buf : Buf} {text : Bytes} {i : Int} {c : UInt8} (h : Holds buf text) (hi : 0 ≤ i) (hc : text[i.toNat]? = some c) :
    peek buf i = .ok c := by
  obtain ⟨r, rfl⟩ := h
  unfold peek
  rw [if_neg (by omega)]
  have : (List.map some text ++ r)[i.toNat]? = some (some c) := by
    have hlt : i.toNat < text.length := (List.getElem?_eq_some_iff.mp hc).1
    rw [List.getElem?_append_left (by simpa using hlt), List.getElem?_map, hc]; rfl
  rw [this]
  rfl

theorem mapM_some (bs : Bytes) : ((bs.map some).mapM fun c => match c with
    | none => (.error .uninit : M UInt8)
    | some c => pure c) = .ok bs := by
  induction bs with
  | nil => rfl
  | cons b bs ih => rw [List.map_cons, List.mapM_cons, ih]; rfl

theorem fwrite_holds {buf : Buf} {text : Bytes} {n : Int} (h : Holds buf text) (hn : n = text.length) : fwrite buf n = .ok text := by
  have hl := h.length
  obtain ⟨r, rfl⟩ := h
  unfold fwrite
  rw [if_neg (by omega)]
  have : (List.map some text ++ r).take n.toNat = text.map some := by
    rw [List.take_append_of_le_length (by simp; omega), List.take_of_length_le (by simp; omega)]
  rw [this]
  exact mapM_some text

theorem addNewline_holds {buf : Buf} {text : Bytes} {off : Int} (h : Holds buf text) (ho : off = text.length) (hne : text ≠ [])
    (hroom : text.length + 1 ≤ buf.length) :
    ∃ buf' : Buf, ∃ off' : Int, addNewline buf off = .ok (buf', off') ∧ off' = (terminated text).length ∧ Holds buf' (terminated text) ∧
      buf'.length = buf.length := by
  have hpos : 0 < text.length := List.length_pos_iff.mpr hne
  have hlast : text[(off - 1).toNat]? = text.getLast? := by
    rw [List.getLast?_eq_getElem?]; congr 1; omega
  obtain ⟨c, hc⟩ : ∃ c, text.getLast? = some c := by
    cases hg : text.getLast? with
    | none => exact absurd (List.getLast?_eq_none_iff.mp hg) hne
    | some c => exact ⟨c, rfl⟩
  unfold addNewline
  rw [peek_holds h (by omega) (hlast.trans hc), ok_bind]
  unfold terminated
  rw [hc]
  by_cases h10 : c = 10
  · subst h10
    exact ⟨buf, off, rfl, ho, h, rfl⟩
  · have : ¬ (some c = some (UInt8.ofNat '\n'.toNat)) := fun h => h10 (Option.some.inj h)
    simp only [this, if_false, ne_eq, h10, not_false_eq_true, if_true]
    obtain ⟨buf', h1, h2, h3⟩ := poke_holds (bs := [10]) h (off := off.toNat) (by omega) (by simpa using (by omega : off.toNat + 1 ≤ buf.length))
    rw [h1, ok_bind]
    refine ⟨buf', off + 1, rfl, ?_, h2, h3⟩
    simp [ho, chr]

theorem terminated_append {h m : Bytes} (hh : h.getLast? ≠ some 10) : terminated (h ++ m) = h ++ terminated m := by
  unfold terminated
  have e : (UInt8.ofNat '\n'.toNat) = 10 := rfl
  rw [e]
  cases hm : m.getLast? with
  | none =>
    have : m = [] := List.getLast?_eq_none_iff.mp hm
    subst this
    simp [hh]
  | some c =>
    have : (h ++ m).getLast? = some c := by rw [List.getLast?_append, hm]; rfl
    rw [this]
    by_cases hc : c = 10 <;> simp [hc]

variable {ndebug : Bool} {t : Time} {tid h m : Bytes}

/-- A pass whose buffer is large enough. -/
theorem pass_fits {it : Nat} {size : Int} (hh : headerText t tid = .ok h) (hne : h ≠ []) (h10 : h.getLast? ≠ some 10)
    (hd : ndebug = true ∨ h.length ≤ 60) (hs : (h.length : Int) + m.length + 1 < size) (hsz : size < 2 ^ 31) :
    pass ndebug t tid (some m) it size = .ok (.inr (h ++ terminated m), 0) := by
  unfold pass
  rw [if_neg (by omega)]
  simp only [hh, ok_bind]
  obtain ⟨b1, e1, H1, L1⟩ := snprintf_holds (buf := List.replicate size.toNat none) (text := []) (bs := h) (off := 0) (n := size)
    ⟨_, rfl⟩ rfl (by simp; omega) (by omega) (by omega)
  rw [List.nil_append] at H1
  rw [List.length_replicate] at L1
  rw [e1, ok_bind]
  rw [assert_ok (hd.imp_right fun hx => decide_eq_true (by unfold kMaxThreadIdSize; dsimp only; omega)), ok_bind,
    assert_ok (.inr (decide_eq_true (by dsimp only; omega))), ok_bind]
  obtain ⟨b2, e2, H2, L2⟩ := snprintf_holds (bs := m) H1 (off := h.length) (n := size - h.length) rfl (by omega) (by omega) (by omega)
  rw [e2, ok_bind]
  dsimp only
  rw [addInt_ok (by unfold isInt; omega), ok_bind, if_neg (by omega)]
  rw [show truncate ndebug ((h.length : Int) + m.length) size = .ok ((h.length : Int) + m.length) by
    unfold truncate; rw [if_neg (by omega)]; rfl, ok_bind]
  obtain ⟨b3, off', e3, O3, H3, L3⟩ := addNewline_holds (off := (h.length : Int) + m.length) H2 (by simp) (by simp [hne])
    (by simp; omega)
  rw [e3, ok_bind]
  have hl3 := H3.length
  dsimp only
  rw [assert_ok (.inr (by simp; omega)), ok_bind, fwrite_holds H3 O3, ok_bind, terminated_append h10]
  by_cases hit : it = 0 <;> simp [hit] <;> rfl

/-- The first pass, for a message that does not fit. -/
theorem pass_first {size : Int} (hh : headerText t tid = .ok h)
    (hd : ndebug = true ∨ h.length ≤ 60) (hs : (h.length : Int) < size) (hfit : ¬ ((h.length : Int) + m.length + 1 < size))
    (hsz : size < 2 ^ 31) (hm : h.length + m.length + 2 < 2 ^ 31) :
    pass ndebug t tid (some m) 0 size = .ok (.inl ((h.length : Int) + m.length + 2), 0) := by
  unfold pass
  rw [if_neg (by omega)]
  simp only [hh, ok_bind]
  obtain ⟨b1, e1, H1, L1⟩ := snprintf_holds (buf := List.replicate size.toNat none) (text := []) (bs := h) (off := 0) (n := size)
    ⟨_, rfl⟩ rfl (by simp; omega) (by omega) (by omega)
  rw [List.nil_append] at H1
  rw [List.length_replicate] at L1
  rw [e1, ok_bind]
  rw [assert_ok (hd.imp_right fun hx => decide_eq_true (by unfold kMaxThreadIdSize; dsimp only; omega)), ok_bind,
    assert_ok (.inr (decide_eq_true (by dsimp only; omega))), ok_bind]
  have : ∃ b2, snprintf b1 h.length (size - h.length) (some m) = .ok (b2, m.length) := by
    by_cases hc : (m.length : Int) < size - h.length
    · obtain ⟨b2, e2, -, -⟩ := snprintf_holds (bs := m) H1 (off := h.length) (n := size - h.length) rfl (by omega) (by omega) hc
      exact ⟨b2, e2⟩
    · obtain ⟨b2, e2, -, -⟩ := snprintf_long (bs := m) H1 (off := h.length) (n := size - h.length) rfl (by omega) (by omega)
        (by omega) (by omega)
      exact ⟨b2, e2⟩
  obtain ⟨b2, e2⟩ := this
  rw [e2, ok_bind]
  dsimp only
  rw [addInt_ok (by unfold isInt; omega), ok_bind, if_pos ⟨by omega, trivial⟩, addInt_ok (by unfold isInt; omega)]
  rfl

/-- A pass whose conversion fails. -/
theorem pass_fails {msg : Option Bytes} {size : Int} (hh : headerText t tid = .ok h) (hne : 2 ≤ h.length)
    (h10 : h.dropLast.getLast? ≠ some 10)
    (hd : ndebug = true ∨ h.length ≤ 60) (hs : (h.length : Int) < size) (hsz : size < 2 ^ 31)
    (hmsg : ∀ m, msg = some m → 2 ^ 31 ≤ m.length) :
    pass ndebug t tid msg 0 size = .ok (.inr (h.dropLast ++ [10]), 0) := by
  unfold pass
  rw [if_neg (by omega)]
  simp only [hh, ok_bind]
  obtain ⟨b1, e1, H1, L1⟩ := snprintf_holds (buf := List.replicate size.toNat none) (text := []) (bs := h) (off := 0) (n := size)
    ⟨_, rfl⟩ rfl (by simp; omega) (by omega) (by omega)
  rw [List.nil_append] at H1
  rw [List.length_replicate] at L1
  rw [e1, ok_bind]
  rw [assert_ok (hd.imp_right fun hx => decide_eq_true (by unfold kMaxThreadIdSize; dsimp only; omega)), ok_bind,
    assert_ok (.inr (decide_eq_true (by dsimp only; omega))), ok_bind]
  have e2 : snprintf b1 h.length (size - h.length) msg = .ok (scramble b1 h.length, -1) := by
    unfold snprintf
    rw [if_neg (by omega)]
    cases msg with
    | none => rfl
    | some m =>
      have := hmsg m rfl
      dsimp only
      rw [if_pos (by omega)]
      rfl
  have H2 : Holds (scramble b1 h.length) h := by
    obtain ⟨r, rfl⟩ := H1
    refine ⟨List.replicate ((List.map some h ++ r).length - h.length) none, ?_⟩
    unfold scramble
    rw [List.take_append_of_le_length (by simp), List.take_of_length_le (by simp)]
  have L2 : (scramble b1 h.length).length = b1.length := by
    unfold scramble
    simp
    omega
  rw [e2, ok_bind]
  dsimp only
  rw [addInt_ok (by unfold isInt; omega), ok_bind, if_neg (by omega)]
  rw [show truncate ndebug ((h.length : Int) + -1) size = .ok ((h.length : Int) + -1) by
    unfold truncate; rw [if_neg (by omega)]; rfl, ok_bind]
  have H3 : Holds (scramble b1 h.length) h.dropLast := by
    have hx : h = h.dropLast ++ [h.getLast (by intro e; simp [e] at hne)] := (List.dropLast_concat_getLast _).symm
    generalize scramble b1 h.length = b at H2 ⊢
    rw [hx] at H2
    exact H2.left
  obtain ⟨b3, off', e3, O3, H4, L3⟩ := addNewline_holds (off := (h.length : Int) + -1) H3 (by simp; omega)
    (by intro e; have := congrArg List.length e; simp at this; omega)
    (by simp; omega)
  rw [e3, ok_bind]
  have hl3 := H4.length
  dsimp only
  have e4 : terminated h.dropLast = h.dropLast ++ [10] := by
    unfold terminated; exact if_neg h10
  rw [assert_ok (.inr (by simp; omega)), ok_bind, fwrite_holds H4 O3, ok_bind, e4]
  rfl

/-- The whole of `Logv` for a header that can be printed. -/
theorem Logv_ok (hh : headerText t (tid.take 32) = .ok h) (hne : h ≠ []) (h10 : h.getLast? ≠ some 10)
    (hd : ndebug = true ∨ h.length ≤ 60) (hl : h.length < 512) (hm : h.length + m.length + 2 < 2 ^ 31) :
    Logv ndebug t tid (some m) = .ok { writes := [h ++ terminated m], leaked := 0 } := by
  unfold Logv
  have : (if tid.length > kMaxThreadIdSize then tid.take kMaxThreadIdSize else tid) = tid.take 32 := by
    unfold kMaxThreadIdSize
    split
    · rfl
    · rw [List.take_of_length_le (by omega)]
  rw [this]
  dsimp only
  by_cases hfit : (h.length : Int) + m.length + 1 < kStackBufferSize
  · rw [pass_fits hh hne h10 hd hfit (by decide), ok_bind]
    rfl
  · rw [pass_first hh hd (by unfold kStackBufferSize; omega) hfit (by decide) hm, ok_bind]
    dsimp only
    rw [pass_fits hh hne h10 hd (by omega) (by omega), ok_bind]
    rfl

/-! ## The header -/

theorem decValue_zeros (k : Nat) (ds : Bytes) : decValue (List.replicate k 48 ++ ds) = decValue ds := by
  induction k with
  | zero => rfl
  | succ k ih => rw [List.replicate_succ, List.cons_append]; unfold decValue; rw [List.foldl_cons]; exact ih

theorem padInt_nat (w : Nat) (v : Nat) :
    padInt w (v : Int) = List.replicate (w - (Logging.decDigits v).length) 48 ++ Logging.decDigits v := by
  unfold padInt
  simp only [show ¬ ((v : Int) < 0) by omega, if_false, Int.natAbs_natCast]
  simp

theorem padInt_digits (w : Nat) {v : Int} (h0 : 0 ≤ v) (h1 : v < 10 ^ (w + 1)) : Digits (padInt (w + 1) v) (w + 1) v := by
  obtain ⟨n, rfl⟩ := Int.eq_ofNat_of_zero_le h0
  have hn : n < 10 ^ (w + 1) := by exact_mod_cast h1
  rw [padInt_nat]
  have hlen := Logging.decDigits_length w n hn
  refine ⟨?_, ?_, ?_⟩
  · simp; omega
  · intro c hc
    rcases List.mem_append.mp hc with h | h
    · rw [List.eq_of_mem_replicate h]; rfl
    · exact Logging.decDigits_isDigit n c h
  · rw [decValue_zeros, Logging.decValue_decDigits]

theorem takeWhile_ne_zero {bs : Bytes} (h : 0 ∉ bs) : bs.takeWhile (· ≠ 0) = bs := by
  induction bs with
  | nil => rfl
  | cons b bs ih =>
    have hb : b ≠ 0 := fun e => h (e ▸ List.mem_cons_self)
    rw [List.takeWhile_cons_of_pos (by simpa using hb), ih fun hc => h (List.mem_cons_of_mem _ hc)]

theorem headerText_ok {t : Time} {tid : Bytes} (h : isInt (t.tm_year + 1900)) (h' : isInt (t.tm_mon + 1)) (hz : 0 ∉ tid) :
    headerText t tid = .ok (padInt 4 (t.tm_year + 1900) ++ [47] ++ padInt 2 (t.tm_mon + 1) ++ [47] ++ padInt 2 t.tm_mday ++ [45] ++
      padInt 2 t.tm_hour ++ [58] ++ padInt 2 t.tm_min ++ [58] ++ padInt 2 t.tm_sec ++ [46] ++ padInt 6 t.tv_usec ++ [32] ++ tid ++ [32]) := by
  unfold headerText
  rw [addInt_ok h, ok_bind, addInt_ok h', ok_bind, takeWhile_ne_zero hz]
  rfl

theorem IsHeader.length {t : Time} {tid h : Bytes} (H : IsHeader t tid h) : h.length = 28 + min 32 tid.length := by
  obtain ⟨Y, M, D, hh, mm, ss, us, h1, h2, h3, h4, h5, h6, h7, rfl⟩ := H
  simp only [List.length_append, h1.1, h2.1, h3.1, h4.1, h5.1, h6.1, h7.1, chr, List.length_singleton, List.length_take]
  omega

theorem IsHeader.last {t : Time} {tid h : Bytes} (H : IsHeader t tid h) : h ≠ [] ∧ h.getLast? ≠ some 10 := by
  obtain ⟨Y, M, D, hh, mm, ss, us, h1, h2, h3, h4, h5, h6, h7, rfl⟩ := H
  constructor
  · simp [chr]
  · rw [List.getLast?_append]
    show ¬ (some (UInt8.ofNat ' '.toNat) = some 10)
    decide

end Logger
end Lsmdb
