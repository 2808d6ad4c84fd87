import Verif.Proof.LoggerConc

/-!
# C86: several threads log at once
-/

namespace Lsmdb
namespace LoggerConc
open Logger

/-- C86: however the calls of the threads interleave, at every moment there are whole lines `L`, each the line of one call, the lines of
each thread in the order of its calls and all of them except perhaps that of its last call (which it has then not yet written), such that
the file is a beginning of the old contents followed by these lines; and the lines of all calls that have returned are already in the
file (`L0`), so that they stay if the process is killed now. -/
theorem C86_whole_lines {ndebug : Bool} {f0 : Bytes} {w : World} (h : Reach ndebug f0 w) (hg : ∀ t, ∀ c ∈ w.calls t, GoodCall c) :
    ∃ L L0 : List Entry, (∀ e ∈ L, e.OK) ∧
      (∀ t, callsOf L t = w.calls t ∨ ∃ c, w.calls t = callsOf L t ++ [c]) ∧
      w.file <+: f0 ++ text L ∧
      L0 <+: L ∧ f0 ++ text L0 <+: w.file ∧ ∀ t, w.returned t ≤ (callsOf L0 t).length := by
  obtain ⟨L, hi⟩ := reach_inv h hg
  obtain ⟨L0, a, b, c⟩ := hi.flushed
  refine ⟨L, L0, hi.ok, ?_, ?_, a, b, c⟩
  · intro t
    have := hi.thread t
    unfold ThreadOK at this
    cases hp : w.pc t <;> rw [hp] at this
    · exact .inl this.1
    · obtain ⟨⟨c, hc, _⟩, _⟩ := this
      exact .inr ⟨c, hc⟩
    · exact .inl this.1
    · exact .inl this.1
    · exact .inl this.1
  · rw [← hi.all, List.append_assoc]
    exact List.prefix_append _ _

/-- C86: when no call is under way the file is the old contents and the whole lines of all the calls, those of each thread in the order of
its calls, and nothing else. -/
theorem C86_quiet {ndebug : Bool} {f0 : Bytes} {w : World} (h : Reach ndebug f0 w) (hg : ∀ t, ∀ c ∈ w.calls t, GoodCall c)
    (hq : ∀ t, w.returned t = (w.calls t).length) :
    ∃ L : List Entry, (∀ e ∈ L, e.OK) ∧ (∀ t, callsOf L t = w.calls t) ∧ w.file = f0 ++ text L := by
  obtain ⟨L, hi⟩ := reach_inv h hg
  obtain ⟨L0, ⟨ex, a⟩, b, c⟩ := hi.flushed
  have hcalls : ∀ t, callsOf L t = w.calls t := by
    intro t
    have := hi.thread t
    unfold ThreadOK at this
    cases hp : w.pc t <;> rw [hp] at this
    · exact this.1
    all_goals exact absurd this.2.1 (by rw [hq t]; omega)
  have hex : ex = [] := by
    cases ex with
    | nil => rfl
    | cons e ex =>
      exfalso
      have h1 := c e.thread
      rw [hq, ← hcalls e.thread, ← a] at h1
      unfold callsOf at h1
      simp at h1
      omega
  subst hex
  rw [List.append_nil] at a
  subst a
  refine ⟨L0, hi.ok, hcalls, ?_⟩
  have h1 : w.file <+: f0 ++ text L0 := by rw [← hi.all, List.append_assoc]; exact List.prefix_append _ _
  exact h1.eq_of_length_le b.length_le

/-- C86: nobody waits for ever: from every state each thread can get its call done (without anybody making new calls). -/
theorem C86_no_deadlock {ndebug : Bool} {f0 : Bytes} {w : World} (h : Reach ndebug f0 w) (hg : ∀ t, ∀ c ∈ w.calls t, GoodCall c) (t : Nat) :
    ∃ w', Steps ndebug w w' ∧ w'.pc t = .idle := by
  obtain ⟨L, hi⟩ := reach_inv h hg
  obtain ⟨w', a, b⟩ := can_return (ndebug := ndebug) hi t
  exact ⟨w', a, b⟩

/-! ## A concrete run: two threads log at once; the file is seen (or the process killed) in the middle of the second line -/

def hi : Call := ⟨noon, [55], some [104, 105]⟩
def yo : Call := ⟨noon, [56], some [121, 111]⟩
def hiLine : Bytes := "2026/11/18-12:00:00.000123 7 hi\n".toUTF8.data.toList
def yoLine : Bytes := "2026/11/18-12:00:00.000123 8 yo\n".toUTF8.data.toList

theorem good_hi : GoodCall hi := ⟨by unfold hi noon Time.Ordinary; decide, by decide, by decide, [104, 105], rfl, by decide⟩
theorem good_yo : GoodCall yo := ⟨by unfold yo noon Time.Ordinary; decide, by decide, by decide, [121, 111], rfl, by decide⟩

/-- A thread does its `fwrite` and `fflush`. -/
theorem log_one {f0 a : Bytes} {w : World} {t : Nat} (r : Reach false f0 w) (hp : w.pc t = .fwrite a) (ho : w.owner = none)
    (hb : w.buffer = []) : ∃ w', Reach false f0 w' ∧ w'.file = w.file ++ a ∧ w'.buffer = [] ∧ w'.owner = none ∧ w'.calls = w.calls ∧
      w'.returned = set w.returned t (w.returned t + 1) ∧ ∀ u, u ≠ t → w'.pc u = w.pc u := by
  have r3 := r.step t (.lock hp ho)
  have r4 := r3.step t (.put (now := a) (rest := []) (by simp only [set_same, List.append_nil]))
  have r5 := r4.step t (.written (by simp only [set_same]))
  have r6 := r5.step t (.lockFlush (by simp only [set_same]) rfl)
  have r7 := r6.step t (.drain (now := a) (rest := []) rfl (by simp only [hb, List.append_nil, List.nil_append]))
  have r8 := r7.step t (.flushed (by simp only [set_same]) rfl)
  refine ⟨_, r8, rfl, rfl, rfl, rfl, rfl, fun u hu => ?_⟩
  simp only [set_other _ _ hu]

/-- Threads 1 and 2 are both past formatting; thread 2 writes its line and returns; thread 1 has put its line into the buffer and the
library has handed 5 characters of it to the operating system. -/
theorem ex_reach : ∃ w, Reach false [111, 108, 100] w ∧ (∀ t, ∀ c ∈ w.calls t, GoodCall c) ∧
    w.file = [111, 108, 100] ++ yoLine ++ hiLine.take 5 ∧ w.returned 2 = 1 ∧ w.returned 1 = 0 ∧ w.calls 1 = [hi] ∧ w.calls 2 = [yo] := by
  have fhi : Logv false hi.time hi.thread_id hi.message = .ok ⟨[hiLine], 0⟩ := by decide +kernel
  have fyo : Logv false yo.time yo.thread_id yo.message = .ok ⟨[yoLine], 0⟩ := by decide +kernel
  generalize hiLine = a at fhi ⊢
  generalize yoLine = b at fyo ⊢
  have r0 : Reach false [111, 108, 100] (.init [111, 108, 100]) := .init
  have r1 := r0.step 1 (.format hi rfl fhi)
  have r2 := r1.step 2 (.format yo (by simp [set, World.init]) fyo)
  obtain ⟨w8, r8, hf, hb, ho, hc, hr, hp⟩ := log_one (t := 2) (a := b) r2 (by simp [set]) rfl rfl
  have p1 : w8.pc 1 = .fwrite a := by rw [hp 1 (by decide)]; simp [set]
  have r9 := r8.step 1 (.lock p1 ho)
  have r10 := r9.step 1 (.put (now := a) (rest := []) (by simp only [set_same, List.append_nil]))
  have r11 := r10.step 1 (.drain (now := a.take 5) (rest := a.drop 5) rfl (by simp only [hb, List.nil_append, List.take_append_drop]))
  have c1 : w8.calls 1 = [hi] := by rw [hc]; simp [set, World.init]
  have c2 : w8.calls 2 = [yo] := by rw [hc]; simp [set, World.init]
  refine ⟨_, r11, ?_, by simp only [hf]; rfl, by simp only [hr]; rfl, by simp only [hr]; rfl, c1, c2⟩
  intro t c hm
  replace hm : c ∈ w8.calls t := hm
  by_cases h1 : t = 1
  · subst h1; rw [c1] at hm
    rw [List.mem_singleton.mp hm]; exact good_hi
  · by_cases h2 : t = 2
    · subst h2; rw [c2] at hm
      rw [List.mem_singleton.mp hm]; exact good_yo
    · rw [hc] at hm
      simp [set, World.init, h1, h2] at hm

end LoggerConc
end Lsmdb
