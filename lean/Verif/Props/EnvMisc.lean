import Verif.Proof.PosixReadOnly
import Verif.Model.EnvMem
import Verif.Model.EnvPosix
import Verif.Spec.PosixNs
import Verif.Spec.EnvI
import Verif.Spec.Text
import Verif.Proof.Logging

/-!
# Smaller promises of the Envs: test directory (C73), clock (C74) and reading (C75)
-/

namespace Lsmdb
namespace Iface

open MemEnv (St lit)
open Posix (P PEnv Strerror World)

/-! ## C73: the test directory -/

/-- What the directory for tests is to be: the value of `TEST_TMPDIR` if that is set and not empty, otherwise `/tmp/lsmdbtest-` and
the number of the user in decimal. -/
def IsTestDir (pr : Process) (d : Bytes) : Prop :=
  (∃ p, p ≠ [] ∧ pr.TEST_TMPDIR = some p ∧ d = p) ∨
  ((pr.TEST_TMPDIR = none ∨ pr.TEST_TMPDIR = some []) ∧ ∃ n, d = lit "/tmp/lsmdbtest-" ++ n ∧
    (∀ c ∈ n, Spec.isDigit c = true) ∧ Spec.decValue n = pr.euid ∧ (n.head? = some 48 → n = [48]))

theorem GetTestDirectory_run (strerror : Strerror) (pr : Process) (e e' : PEnv) (w w' : World) (old d : Bytes) (st : St)
    (h : ((PosixEnv strerror pr).GetTestDirectory old).run e w = .done ((st, d), e') w') :
    st = .ok ∧ d = testDir pr ∧ e' = e ∧ ∃ s, Posix.CreateDir strerror (testDir pr) w = .done s w' := by
  change (GetTestDirectory strerror pr >>= fun a => pure (a, e) : P _) w = _ at h
  unfold GetTestDirectory at h
  dsimp only at h
  rw [Posix.bind_eq, Posix.bind_eq] at h
  cases h1 : Posix.CreateDir strerror (testDir pr) w with
  | crash w1 => rw [h1] at h; exact nomatch h
  | fault f => rw [h1] at h; exact nomatch h
  | done s w1 =>
    rw [h1] at h
    injection h with h2 h3
    injection h2 with h4 h5
    injection h4 with h6 h7
    exact ⟨h6.symm, h7.symm, h5.symm, s, by rw [h3]⟩

theorem decDigits_head0 (n : Nat) (h : (Logging.decDigits n).head? = some 48) : Logging.decDigits n = [48] := by
  rcases Nat.eq_zero_or_pos n with rfl | hn
  · decide +kernel
  · obtain ⟨c, cs, e, hc⟩ := Logging.decDigits_head n hn
    rw [e] at h
    exact absurd (Option.some.inj h) hc

theorem defaultTestDir_eq (n : Nat) (h : n < 2 ^ 32) :
    defaultTestDir n = lit "/tmp/lsmdbtest-" ++ (if n < 2 ^ 31 then Logging.decDigits n else 45 :: Logging.decDigits (2 ^ 32 - n)) := by
  unfold defaultTestDir
  by_cases hn : n < 2 ^ 31
  · rw [if_pos hn]
    have : Posix.wrap32 n = n := by unfold Posix.wrap32; omega
    simp only [this, show ¬ ((n : Int) < 0) by omega, if_false, Int.natAbs_natCast, List.append_nil]
    have hl : (Logging.decDigits n).length ≤ 10 := Logging.decDigits_length 9 n (by omega)
    unfold Logging.snprintfText
    rw [List.take_of_length_le]
    rw [List.length_append, show (lit "/tmp/lsmdbtest-").length = 15 by decide +kernel]
    omega
  · rw [if_neg hn]
    have : Posix.wrap32 n = -((2 ^ 32 - n : Nat) : Int) := by unfold Posix.wrap32; omega
    simp only [this, show (-((2 ^ 32 - n : Nat) : Int) < 0) by omega, if_true, Int.natAbs_neg, Int.natAbs_natCast]
    have hl : (Logging.decDigits (2 ^ 32 - n)).length ≤ 10 := Logging.decDigits_length 9 _ (by omega)
    unfold Logging.snprintfText
    rw [List.take_of_length_le]
    · simp
    · simp only [List.length_append, List.length_singleton, show (lit "/tmp/lsmdbtest-").length = 15 by decide +kernel]
      omega

/-- C73: whatever the system does, GetTestDirectory of the POSIX Env returns OK and the right directory (for user numbers below 2^31;
larger ones are printed as negative numbers, see C73_large_uid). -/
theorem C73_path (strerror : Strerror) (pr : Process) (e e' : PEnv) (w w' : World) (old d : Bytes) (st : St) (hu : pr.euid < 2 ^ 31)
    (h : ((PosixEnv strerror pr).GetTestDirectory old).run e w = .done ((st, d), e') w') : st = .ok ∧ IsTestDir pr d ∧ e' = e := by
  obtain ⟨h1, h2, h3, -⟩ := GetTestDirectory_run strerror pr e e' w w' old d st h
  refine ⟨h1, ?_, h3⟩
  subst h2
  unfold testDir
  have hdef : (pr.TEST_TMPDIR = none ∨ pr.TEST_TMPDIR = some []) → IsTestDir pr (defaultTestDir pr.euid) := by
    intro hh
    refine .inr ⟨hh, Logging.decDigits pr.euid, ?_, Logging.decDigits_isDigit _, Logging.decValue_decDigits _, decDigits_head0 _⟩
    rw [defaultTestDir_eq _ (by omega), if_pos hu]
  split
  · rename_i c s hc
    exact .inl ⟨_, List.cons_ne_nil _ _, hc, rfl⟩
  · rename_i hc
    cases hv : pr.TEST_TMPDIR with
    | none => exact hdef (.inl hv)
    | some p =>
      cases p with
      | nil => exact hdef (.inr hv)
      | cons c s => exact absurd hv (hc c s)

/-- C73: different users have different default directories. -/
theorem C73_users_apart (n m : Nat) (hn : n < 2 ^ 32) (hm : m < 2 ^ 32) (h : defaultTestDir n = defaultTestDir m) : n = m := by
  rw [defaultTestDir_eq n hn, defaultTestDir_eq m hm] at h
  have h := List.append_cancel_left h
  have minus : ∀ a b : Nat, Logging.decDigits a ≠ 45 :: Logging.decDigits b := by
    intro a b he
    have := Logging.decDigits_isDigit a 45 (he ▸ List.mem_cons_self)
    exact absurd this (by decide)
  have inj : ∀ a b : Nat, Logging.decDigits a = Logging.decDigits b → a = b := by
    intro a b he
    rw [← Logging.decValue_decDigits a, he, Logging.decValue_decDigits]
  split at h <;> split at h
  · exact inj _ _ h
  · exact absurd h (minus _ _)
  · exact absurd h.symm (minus _ _)
  · have := inj _ _ (List.cons.inj h).2
    omega

/-- C73: the same directory in every call. -/
theorem C73_same (strerror : Strerror) (pr : Process) (e e1 e' e1' : PEnv) (w w1 w' w1' : World) (old old1 d d1 : Bytes) (st st1 : St)
    (h : ((PosixEnv strerror pr).GetTestDirectory old).run e w = .done ((st, d), e') w')
    (h1 : ((PosixEnv strerror pr).GetTestDirectory old1).run e1 w1 = .done ((st1, d1), e1') w1') : d = d1 := by
  rw [(GetTestDirectory_run strerror pr e e' w w' old d st h).2.1,
    (GetTestDirectory_run strerror pr e1 e1' w1 w1' old1 d1 st1 h1).2.1]

/-- C73: if mkdir does not fail for a reason of its own, then afterwards the path (if it is not empty) names something; the directory
was made if nothing was there, and what was there stays. -/
theorem C73_exists_partial (strerror : Strerror) (pr : Process) (e e' : PEnv) (w w' : World) (old d : Bytes) (st : St)
    (c : Posix.Choice) (cs : List Posix.Choice) (hc : w.choices = c :: cs) (hf : c.fail = none) (hne : Posix.cstr d ≠ [])
    (h : ((PosixEnv strerror pr).GetTestDirectory old).run e w = .done ((st, d), e') w') :
    (Posix.fsOf (c.other w.k) (Posix.cstr d) = none → (c.other w.k).lookup (Posix.cstr d) = none →
      Posix.fsOf w'.k (Posix.cstr d) = some .dir) ∧
    ((c.other w.k).lookup (Posix.cstr d) ≠ none → w'.k = c.other w.k) := by
  obtain ⟨-, h2, -, s, h4⟩ := GetTestDirectory_run strerror pr e e' w w' old d st h
  subst h2
  unfold Posix.CreateDir Posix.sysMkdir at h4
  rw [Posix.bind_eq] at h4
  unfold Posix.sys at h4
  rw [hc] at h4
  dsimp only at h4
  rw [hf] at h4
  dsimp only at h4
  rw [if_neg hne] at h4
  cases hl : (c.other w.k).lookup (Posix.cstr (testDir pr)) with
  | none =>
    rw [hl] at h4
    injection h4 with _ h5
    subst h5
    refine ⟨fun _ _ => ?_, fun hx => absurd rfl hx⟩
    unfold Posix.fsOf Posix.Kernel.setName Posix.Kernel.lookup
    simp [Posix.aFind]
  | some i =>
    rw [hl] at h4
    injection h4 with _ h5
    subst h5
    exact ⟨fun _ hx => (nomatch hx), fun _ => rfl⟩

/-- A process without `TEST_TMPDIR`, of user 7. -/
def user7 : Process := ⟨none, 7, pure (5, 6), fun _ => pure (), fun _ => pure (), fun _ => pure ()⟩

/-- C73, false in general: it returns OK for a directory that does not exist, because it does not look at what mkdir says. -/
theorem C73_no_directory :
    ∃ w', ((PosixEnv (fun _ => []) user7).GetTestDirectory []).run (PEnv.init 1 1)
      ⟨⟨[], [], [], [], []⟩, [{ fail := some Posix.EIO }], []⟩ = .done ((.ok, lit "/tmp/lsmdbtest-7"), PEnv.init 1 1) w' ∧
      Posix.fsOf w'.k (lit "/tmp/lsmdbtest-7") = none :=
  ⟨⟨⟨[], [], [], [], []⟩, [], []⟩, by
    have : testDir user7 = lit "/tmp/lsmdbtest-7" := by decide +kernel
    rw [← this]; rfl, rfl⟩

/-- C73: a user number of 2^31 and more becomes negative. -/
theorem C73_large_uid : defaultTestDir (2 ^ 32 - 2) = lit "/tmp/lsmdbtest--2" := by decide +kernel

/-- C73: GetTestDirectory of the in-memory Env. -/
theorem C73_memenv {m : Type → Type} [Monad m] [LawfulMonad m] [Faults m] (base : Env m) (old : Bytes) (s : MemState) :
    ((InMemoryEnv base).GetTestDirectory old).run s = pure ((.ok, lit "/test"), s) := rfl

example : IsTestDir user7 (lit "/tmp/lsmdbtest-7") ∧ user7.euid < 2 ^ 31 ∧ Posix.cstr (lit "/tmp/lsmdbtest-7") ≠ [] :=
  ⟨.inr ⟨.inl rfl, [55], by decide +kernel, by decide, by decide, by decide⟩, by decide, by decide +kernel⟩

/-! ## C74: the clock -/

/-- C74: NowMicros counts the microseconds of the clock. -/
theorem C74_value (strerror : Strerror) (pr : Process) (e e' : PEnv) (w w' w1 : World) (t s u : Nat)
    (hc : pr.gettimeofday w = .done (s, u) w1) (hs : s < 2 ^ 44) (hu : u < 1000000)
    (h : (PosixEnv strerror pr).NowMicros.run e w = .done (t, e') w') : t = s * 1000000 + u ∧ w' = w1 ∧ e' = e := by
  change (NowMicros pr >>= fun a => pure (a, e) : P _) w = _ at h
  unfold NowMicros at h
  rw [Posix.bind_eq, Posix.bind_eq, hc] at h
  injection h with h1 h2
  injection h1 with h3 h4
  refine ⟨?_, h2.symm, h4.symm⟩
  rw [← h3]
  omega

/-- C74: values of NowMicros are ordered as the times of the clock are. -/
theorem C74_order (strerror : Strerror) (pr : Process) (e1 e1' e2 e2' : PEnv) (w1 w1' w1c w2 w2' w2c : World) (t1 t2 s1 s2 u1 u2 : Nat)
    (hc1 : pr.gettimeofday w1 = .done (s1, u1) w1c) (hc2 : pr.gettimeofday w2 = .done (s2, u2) w2c)
    (hs1 : s1 < 2 ^ 44) (hs2 : s2 < 2 ^ 44) (hu1 : u1 < 1000000) (hu2 : u2 < 1000000)
    (h1 : (PosixEnv strerror pr).NowMicros.run e1 w1 = .done (t1, e1') w1')
    (h2 : (PosixEnv strerror pr).NowMicros.run e2 w2 = .done (t2, e2') w2') :
    t1 < t2 ↔ s1 < s2 ∨ (s1 = s2 ∧ u1 < u2) := by
  rw [(C74_value strerror pr e1 e1' w1 w1' w1c t1 s1 u1 hc1 hs1 hu1 h1).1, (C74_value strerror pr e2 e2' w2 w2' w2c t2 s2 u2 hc2 hs2 hu2 h2).1]
  omega

example (w : World) : (PosixEnv (fun _ => []) user7).NowMicros.run (PEnv.init 1 1) w = .done (5000006, PEnv.init 1 1) w := rfl

end Iface

namespace Posix

/-! ## C75: reading changes nothing -/

/-- C75: a history of opening files for reading, reading, skipping, listing, querying and closing leaves every file, directory and name
as they were, also for a crash afterwards; whatever system calls fail, and also when the machine crashes in the middle. -/
theorem C75_reads_change_nothing (strerror : Strerror) (full : Bool) (e : PEnv) (os : List POp) (w : World)
    (he : Readers e) (hos : ∀ o ∈ os, o.Reads) (hw : ∀ c ∈ w.choices, NoOther c) :
    (∀ r w', e.run strerror full os w = .done r w' → disk w'.k = disk w.k) ∧
    (∀ w', e.run strerror full os w = .crash w' → disk w'.k = disk w.k) := by
  have h := runKeeps strerror full os e he hos w hw
  constructor
  · intro r w' hr
    rw [hr] at h
    exact h.2.1
  · intro w' hr
    rw [hr] at h
    exact h

example : Readers (PEnv.init 3 4) := fun h f => by simp [PEnv.init]

example : (POp.newRandomAccess [97]).Reads ∧ (POp.randRead 0 1 2).Reads ∧ (POp.delete 0).Reads := ⟨.newRandomAccess _, .randRead _ _ _, .delete _⟩

end Posix
end Lsmdb
