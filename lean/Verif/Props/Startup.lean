import Verif.Spec.Startup

/-!
# Limits and creation of the default Env (C64, C72)
-/

namespace Lsmdb
namespace Posix

theorem wrap32_nat {n : Nat} (h : n < 2 ^ 31) : wrap32 (n : Int) = n := by unfold wrap32; omega

/-! ## C64: the open-file limit -/

/-- C64: MaxOpenFiles returns the documented limit, for every system limit below 5 * 2^31 and for an unlimited system. -/
theorem C64_limit_partial (g : Globals) (rlim : Option Nat) (hr : ∀ l, rlim = some l → l < 5 * 2 ^ 31 ∨ l = 2 ^ 64 - 1) :
    (g.MaxOpenFiles rlim).1 = openFileLimit g.g_open_read_only_file_limit rlim ∧ 0 ≤ (g.MaxOpenFiles rlim).1 := by
  unfold Globals.MaxOpenFiles openFileLimit
  by_cases hc : g.g_open_read_only_file_limit ≥ 0
  · rw [if_pos hc]
    cases rlim <;> simp [hc]
  · rw [if_neg hc]
    cases rlim with
    | none => simp [hc]
    | some l =>
      rcases hr l rfl with h | h
      · have h1 : l ≠ RLIM_INFINITY := by unfold RLIM_INFINITY; omega
        have h2 : l ≠ 2 ^ 64 - 1 := h1
        simp only [hc, if_false, h1, h2]
        rw [wrap32_nat (by omega)]
        exact ⟨rfl, by omega⟩
      · subst h
        simp [hc, RLIM_INFINITY, INT_MAX]

/-- C64: what it returns for every system limit: a fifth, modulo 2^32, as a signed number. -/
theorem C64_limit_wraps (g : Globals) (l : Nat) (hg : g.g_open_read_only_file_limit < 0) (hl : l ≠ 2 ^ 64 - 1) :
    (g.MaxOpenFiles (some l)).1 = wrap32 ((l / 5 : Nat) : Int) := by
  unfold Globals.MaxOpenFiles
  rw [if_neg (by omega)]
  have : l ≠ RLIM_INFINITY := hl
  simp [this]

/-- C64 is violated: a system limit of 5 * 2^31 yields a negative limit. -/
theorem C64_negative_violated : (Globals.init.MaxOpenFiles (some (5 * 2 ^ 31))).1 = -2 ^ 31 := by decide

/-- C64: with a negative limit no descriptor is ever kept open: Acquire fails. -/
theorem C64_negative_grants_nothing (n : Int) (h : n ≤ 0) (h' : -2 ^ 31 ≤ n) : Limiter.Acquire n = (false, n) := by
  unfold Limiter.Acquire
  simp only [show ¬ n > 0 by omega, if_false, Prod.mk.injEq, true_and]
  unfold wrap32
  omega

/-- C64: once known the limit does not change, whatever the system limit becomes; unless it is the negative one. -/
theorem C64_stable (g : Globals) (r r' : Option Nat) (h : 0 ≤ (g.MaxOpenFiles r).1) :
    ((g.MaxOpenFiles r).2.MaxOpenFiles r').1 = (g.MaxOpenFiles r).1 := by
  have hsame : (g.MaxOpenFiles r).1 = (g.MaxOpenFiles r).2.g_open_read_only_file_limit := by
    unfold Globals.MaxOpenFiles
    split <;> rfl
  rw [hsame] at h ⊢
  generalize (g.MaxOpenFiles r).2 = g' at h ⊢
  unfold Globals.MaxOpenFiles
  rw [if_pos h]

example : (Globals.init.MaxOpenFiles (some 1024)).1 = 204 ∧ (Globals.init.MaxOpenFiles none).1 = 50 ∧
    (Globals.init.MaxOpenFiles (some (2 ^ 64 - 1))).1 = 2147483647 ∧
    (({ Globals.init with g_open_read_only_file_limit := 7 } : Globals).MaxOpenFiles (some 1024)).1 = 7 := by decide

/-! ## C72: the default Env -/

theorem run_known (ndebug : Bool) : ∀ (os : List GOp) (g : Globals) (e : Int × Int), g.env_container = some e →
    (ndebug = true ∨ ∀ o ∈ os, ∃ r, o = .default r) → g.run ndebug os = .ok (List.replicate (defaults os) e) := by
  intro os
  induction os with
  | nil => intro g e _ _; rfl
  | cons o os ih =>
    intro g e hg h
    have ht : ndebug = true ∨ ∀ o ∈ os, ∃ r, o = .default r := h.imp_right fun h o ho => h o (List.mem_cons_of_mem _ ho)
    cases o with
    | default r =>
      simp only [Globals.run, Globals.Default, hg, defaults, bind, Except.bind, ih g e hg ht, List.replicate_succ]
      rfl
    | setFd n =>
      rcases h with h | h
      · subst h
        simp only [Globals.run, Globals.SetReadOnlyFDLimit, Globals.AssertEnvNotInitialized, if_true, bind, Except.bind, pure, Except.pure, defaults]
        exact ih _ e hg ht
      · obtain ⟨r, h⟩ := h _ List.mem_cons_self
        exact nomatch h
    | setMmap n =>
      rcases h with h | h
      · subst h
        simp only [Globals.run, Globals.SetReadOnlyMMapLimit, Globals.AssertEnvNotInitialized, if_true, bind, Except.bind, pure, Except.pure, defaults]
        exact ih _ e hg ht
      · obtain ⟨r, h⟩ := h _ List.mem_cons_self
        exact nomatch h

theorem MaxOpen_congr {g g' : Globals} (h : g.g_open_read_only_file_limit = g'.g_open_read_only_file_limit) (r : Option Nat) :
    (g.MaxOpenFiles r).1 = (g'.MaxOpenFiles r).1 := by
  unfold Globals.MaxOpenFiles
  rw [h]
  split
  · rfl
  · cases r with
    | none => rfl
    | some l => by_cases hl : l = RLIM_INFINITY <;> simp [hl]

theorem run_fresh (ndebug : Bool) : ∀ (os : List GOp) (g : Globals), g.env_container = none → g.env_initialized_ = false →
    (ndebug = true ∨ SetBefore os) →
    g.run ndebug os = .ok (List.replicate (defaults os) (lastMmap g.g_mmap_limit os,
      ({ Globals.init with g_open_read_only_file_limit := lastFd g.g_open_read_only_file_limit os }.MaxOpenFiles (firstRlim os)).1)) := by
  intro os
  induction os with
  | nil => intro g _ _ _; rfl
  | cons o os ih =>
    intro g hg hi h
    cases o with
    | default r =>
      have hk : ∀ g' : Globals, g'.env_container = some (g.g_mmap_limit, (g.MaxOpenFiles r).1) →
          g'.run ndebug os = .ok (List.replicate (defaults os) (g.g_mmap_limit, (g.MaxOpenFiles r).1)) :=
        fun g' hg' => run_known ndebug os g' _ hg' (h.imp_right fun h => h)
      have hc : (g.construct ndebug r).env_container = some (g.g_mmap_limit, (g.MaxOpenFiles r).1) := by
        unfold Globals.construct
        cases ndebug
        · simp only [Bool.false_eq_true, if_false, Globals.MaxMmaps]
          unfold Globals.MaxOpenFiles
          dsimp only []
          split <;> (try rfl)
          cases r with
          | none => rfl
          | some l => by_cases hl : l = RLIM_INFINITY <;> simp [hl]
        · rfl
      simp only [Globals.run, Globals.Default, hg, defaults, bind, Except.bind, hk _ hc, hc, List.replicate_succ, Option.getD_some,
        lastMmap, lastFd, firstRlim]
      rw [MaxOpen_congr (g := g) (g' := { Globals.init with g_open_read_only_file_limit := g.g_open_read_only_file_limit }) rfl r]
      rfl
    | setFd n =>
      have : g.AssertEnvNotInitialized ndebug = .ok () := by
        unfold Globals.AssertEnvNotInitialized; cases ndebug <;> simp [hi, cassert]
      simp only [Globals.run, Globals.SetReadOnlyFDLimit, this, bind, Except.bind, pure, Except.pure, defaults, lastMmap, lastFd, firstRlim]
      exact ih { g with g_open_read_only_file_limit := n } hg hi (h.imp_right fun h => h)
    | setMmap n =>
      have : g.AssertEnvNotInitialized ndebug = .ok () := by
        unfold Globals.AssertEnvNotInitialized; cases ndebug <;> simp [hi, cassert]
      simp only [Globals.run, Globals.SetReadOnlyMMapLimit, this, bind, Except.bind, pure, Except.pure, defaults, lastMmap, lastFd, firstRlim]
      exact ih { g with g_mmap_limit := n } hg hi (h.imp_right fun h => h)

/-- C72: all calls of Env::Default return the same Env.  Its limits are the last ones set before the first call (1000 mappings and
a fifth of the system limit if none were set); in a build without assertions setting limits later has no effect on it. -/
theorem C72_default (ndebug : Bool) (os : List GOp) (h : ndebug = true ∨ SetBefore os) :
    ∃ fds, Globals.init.run ndebug os = .ok (List.replicate (defaults os) (lastMmap 1000 os, fds)) ∧
      ((∀ l, firstRlim os = some l → l < 5 * 2 ^ 31 ∨ l = 2 ^ 64 - 1) → fds = openFileLimit (lastFd (-1) os) (firstRlim os)) :=
  ⟨_, run_fresh ndebug os Globals.init rfl rfl h, fun hr => (C64_limit_partial _ _ hr).1⟩

theorem run_assert : ∀ (os : List GOp) (g : Globals), ¬ SetBefore os → g.env_container = none → g.env_initialized_ = false →
    g.run false os = .error .assertFail := by
  have late : ∀ (os : List GOp) (g : Globals), g.env_container.isSome → g.env_initialized_ = true → (¬ ∀ o ∈ os, ∃ r, o = .default r) →
      g.run false os = .error .assertFail := by
    intro os
    induction os with
    | nil => intro g _ _ h; exact absurd (by simp) h
    | cons o os ih =>
      intro g hg hi h
      cases o with
      | setFd n => simp [Globals.run, Globals.SetReadOnlyFDLimit, Globals.AssertEnvNotInitialized, hi, cassert, bind, Except.bind]
      | setMmap n => simp [Globals.run, Globals.SetReadOnlyMMapLimit, Globals.AssertEnvNotInitialized, hi, cassert, bind, Except.bind]
      | default r =>
        obtain ⟨e, he⟩ := Option.isSome_iff_exists.1 hg
        have := ih g hg hi (by
          intro hall
          apply h
          intro o ho
          rcases List.mem_cons.1 ho with rfl | ho
          · exact ⟨r, rfl⟩
          · exact hall o ho)
        simp only [Globals.run, Globals.Default, he, this, bind, Except.bind]
  intro os
  induction os with
  | nil => intro g h; exact absurd trivial h
  | cons o os ih =>
    intro g h hg hi
    cases o with
    | setFd n =>
      simp only [Globals.run, Globals.SetReadOnlyFDLimit, Globals.AssertEnvNotInitialized, hi, cassert, bind, Except.bind, Bool.false_eq_true, if_false,
        Bool.not_false, if_true, pure, Except.pure]
      exact ih _ h hg rfl
    | setMmap n =>
      simp only [Globals.run, Globals.SetReadOnlyMMapLimit, Globals.AssertEnvNotInitialized, hi, cassert, bind, Except.bind, Bool.false_eq_true, if_false,
        Bool.not_false, if_true, pure, Except.pure]
      exact ih _ h hg rfl
    | default r =>
      have := late os (g.construct false r) (by simp [Globals.construct]) ?_ h
      · simp only [Globals.run, Globals.Default, hg, this, bind, Except.bind]
      · unfold Globals.construct Globals.MaxOpenFiles
        simp only [Bool.false_eq_true, if_false]
        split <;> (try rfl)
        cases r with
        | none => rfl
        | some l => by_cases hl : l = RLIM_INFINITY <;> simp [hl]

/-- C72: in a build with assertions, setting a limit after Env::Default was called stops the program. -/
theorem C72_set_late (os : List GOp) (h : ¬ SetBefore os) : Globals.init.run false os = .error .assertFail :=
  run_assert os _ h rfl rfl

example : Globals.init.run false [.setFd 3, .setMmap 2, .setFd 4, .default (some 100), .default (some 7)] = .ok [(2, 4), (2, 4)] ∧
    Globals.init.run false [.default (some 100), .setFd 5] = .error .assertFail ∧
    Globals.init.run true [.default (some 100), .setFd 5, .default none] = .ok [(1000, 20), (1000, 20)] := by decide

example : SetBefore [.setFd 3, .setMmap 2, .default (some 100), .default none] ∧ ¬ SetBefore [.default (some 100), .setFd 5] := by
  constructor
  · intro o ho
    rw [List.mem_singleton] at ho
    exact ⟨none, ho⟩
  · intro h
    obtain ⟨r, h⟩ := h (.setFd 5) (List.mem_singleton.2 rfl)
    exact nomatch h

end Posix
end Lsmdb
