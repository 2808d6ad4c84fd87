import Verif.Proof.Schedule2
import Mathlib.Data.Nat.Init
import Mathlib.Tactic.ByContra

/-! Progress of the background queue. -/

namespace Lsmdb
namespace Sched

variable {Job : Type}

/-- What the clients have seen before moment `i`. -/
def Exec.events (x : Exec Job) : Nat → List (Ev Job)
  | 0 => []
  | i + 1 => x.events i ++ (x.ev i).toList

theorem exec_run (x : Exec Job) (i : Nat) : Run (x.events i) (x.state i) := by
  induction i with
  | zero => rw [x.start]; exact .nil
  | succ i ih =>
    rcases x.next i with ⟨_, h1, _, h2⟩ | ⟨_, h1⟩
    · rw [h1]
      show Run (x.events i ++ (x.ev i).toList) _
      rw [h2]; simpa using ih
    · exact ih.step h1

theorem exec_ctl (x : Exec Job) (i : Nat) : Ctl (x.state i) := run_ctl (exec_run x i)

theorem mem_events (x : Exec Job) {e : Ev Job} : ∀ {i : Nat}, e ∈ x.events i → ∃ j, j < i ∧ x.ev j = some e := by
  intro i
  induction i with
  | zero => exact fun h => (nomatch h)
  | succ i ih =>
    intro h
    rcases List.mem_append.1 h with h | h
    · obtain ⟨j, h1, h2⟩ := ih h; exact ⟨j, by omega, h2⟩
    · exact ⟨i, by omega, by simpa using h⟩

theorem events_mem (x : Exec Job) {e : Ev Job} {j : Nat} (h : x.ev j = some e) : ∀ {i : Nat}, j < i → e ∈ x.events i := by
  intro i
  induction i with
  | zero => intro h; omega
  | succ i ih =>
    intro hj
    rw [show x.events (i + 1) = x.events i ++ (x.ev i).toList from rfl, List.mem_append]
    by_cases hji : j = i
    · subst hji; right; simp [h]
    · left; exact ih (by omega)

/-- One step forward with the history of the queue. -/
theorem exec_ord (x : Exec Job) {i : Nat} {σ ran : List (Item Job)} (h : Ord (x.events i) (x.state i) σ ran) (j : Nat) (hij : i ≤ j) :
    ∃ a b, Ord (x.events j) (x.state j) (σ ++ a) (ran ++ b) := by
  induction j, hij using Nat.le_induction with
  | base => exact ⟨[], [], by simpa using h⟩
  | succ j hj ih =>
    obtain ⟨a, b, hi⟩ := ih
    rcases x.next j with ⟨_, h1, _, h2⟩ | ⟨_, h1⟩
    · refine ⟨a, b, ?_⟩
      rw [h1]
      show Ord (x.events j ++ (x.ev j).toList) _ _ _
      rw [h2]; simpa using hi
    · obtain ⟨a', b', h'⟩ := ord_step (exec_ctl x j) hi h1
      exact ⟨a ++ a', b ++ b', by rw [← List.append_assoc, ← List.append_assoc]; exact h'⟩

/-! Single steps -/

def Cpc.next : Cpc Job → Cpc Job
  | .out => .out
  | .lock w => .start w
  | .start w => .signal w
  | .signal w => .push w
  | .push w => .unlock w
  | .unlock w => .leave w
  | .leave _ => .out

theorem not_running_of_crit {b : Bpc Job} (h : b.isRunning = true) : ∃ w, b = .running w := by
  cases b <;> simp [Bpc.isRunning] at h
  exact ⟨_, rfl⟩

theorem pc_step {s s' : Sys Job} {who : Option Nat} {e : Option (Ev Job)} (hc : Ctl s) (h : Step s who e s') (t : Nat) (hp : s.pc t ≠ .out) :
    (who ≠ some t ∧ s'.pc t = s.pc t) ∨
    (who = some t ∧ Own e ∧ s'.pc t = (s.pc t).next ∧ (∀ w, s.pc t = .leave w → e = some (.ret t w.id)) ∧
      (∀ w, s.pc t = .lock w → s.mutex = none) ∧ (∀ w, s.pc t = .unlock w → s'.mutex = none)) := by
  have hbg : ∀ b : Bpc Job, s.bg = b → b.isRunning = false → t ≠ 0 := by
    intro b hb hr ht
    subst ht
    have := hc.inner hp
    rw [hb, hr] at this
    exact nomatch this
  have other : ∀ (u : Nat) (p : Cpc Job) (s1 : Sys Job), s1.pc = s.pc → u ≠ t → (some u ≠ some t ∧ (s1.at u p).pc t = s.pc t) := by
    intro u p s1 h1 hu
    exact ⟨fun h => hu (by injection h), by rw [at_ne _ (Ne.symm hu), h1]⟩
  cases h with
  | callClient u job ht hu =>
    by_cases hut : u = t
    · subst hut; exact absurd hu hp
    · exact .inl (other u _ _ rfl hut)
  | callRunning w job hb hu =>
    by_cases hut : 0 = t
    · subst hut; exact absurd hu hp
    · exact .inl (other 0 _ _ rfl hut)
  | lock u w hu hm =>
    by_cases hut : u = t
    · subst hut
      exact .inr ⟨rfl, trivial, by rw [at_self, hu]; rfl, fun w h => by rw [hu] at h; exact (nomatch h), fun _ _ => hm, fun w h => by rw [hu] at h; exact (nomatch h)⟩
    · exact .inl (other u _ _ rfl hut)
  | start u w hu =>
    by_cases hut : u = t
    · subst hut
      exact .inr ⟨rfl, trivial, by rw [at_self, hu]; rfl, fun w h => by rw [hu] at h; exact (nomatch h), fun w h => by rw [hu] at h; exact (nomatch h), fun w h => by rw [hu] at h; exact (nomatch h)⟩
    · exact .inl (other u _ _ (by split <;> rfl) hut)
  | signal u w hu =>
    by_cases hut : u = t
    · subst hut
      exact .inr ⟨rfl, trivial, by rw [at_self, hu]; rfl, fun w h => by rw [hu] at h; exact (nomatch h), fun w h => by rw [hu] at h; exact (nomatch h), fun w h => by rw [hu] at h; exact (nomatch h)⟩
    · exact .inl (other u _ _ (by split <;> rfl) hut)
  | push u w hu =>
    by_cases hut : u = t
    · subst hut
      exact .inr ⟨rfl, trivial, by rw [at_self, hu]; rfl, fun w h => by rw [hu] at h; exact (nomatch h), fun w h => by rw [hu] at h; exact (nomatch h), fun w h => by rw [hu] at h; exact (nomatch h)⟩
    · exact .inl (other u _ _ rfl hut)
  | unlock u w hu =>
    by_cases hut : u = t
    · subst hut
      exact .inr ⟨rfl, trivial, by rw [at_self, hu]; rfl, fun w h => by rw [hu] at h; exact (nomatch h), fun w h => by rw [hu] at h; exact (nomatch h), fun w h => rfl⟩
    · exact .inl (other u _ _ rfl hut)
  | leave u w hu =>
    by_cases hut : u = t
    · subst hut
      exact .inr ⟨rfl, trivial, by rw [at_self, hu]; rfl, fun w' h => by rw [hu] at h; injection h with h; rw [h], fun w h => by rw [hu] at h; exact (nomatch h), fun w h => by rw [hu] at h; exact (nomatch h)⟩
    · exact .inl (other u _ _ rfl hut)
  | bgLock hb hm => exact .inl ⟨fun h => hbg _ hb rfl (by injection h with h; exact h.symm), rfl⟩
  | bgCheck hb => exact .inl ⟨fun h => hbg _ hb rfl (by injection h with h; exact h.symm), rfl⟩
  | bgWait hb => exact .inl ⟨fun h => hbg _ hb rfl (by injection h with h; exact h.symm), rfl⟩
  | bgWake hb => exact .inl ⟨fun h => (nomatch h), rfl⟩
  | bgWoken hb hm => exact .inl ⟨fun h => hbg _ hb rfl (by injection h with h; exact h.symm), rfl⟩
  | bgPop w q hb hq => exact .inl ⟨fun h => hbg _ hb rfl (by injection h with h; exact h.symm), rfl⟩
  | bgPopEmpty hb hq => exact .inl ⟨fun h => hbg _ hb rfl (by injection h with h; exact h.symm), rfl⟩
  | bgUnlock w hb => exact .inl ⟨fun h => hbg _ hb rfl (by injection h with h; exact h.symm), rfl⟩
  | bgCall w hb => exact .inl ⟨fun h => hbg _ hb rfl (by injection h with h; exact h.symm), rfl⟩
  | bgDone w hb h0 =>
    refine .inl ⟨fun h => ?_, rfl⟩
    injection h with h
    subst h
    exact hp h0

theorem pc_can {s : Sys Job} (t : Nat) (hp : s.pc t ≠ .out) (hl : ∀ w, s.pc t = .lock w → s.mutex = none) : CanStep s t := by
  cases h : s.pc t with
  | out => exact absurd h hp
  | lock w => exact ⟨_, _, .lock s t w h (hl w h), trivial⟩
  | start w => exact ⟨_, _, .start s t w h, trivial⟩
  | signal w => exact ⟨_, _, .signal s t w h, trivial⟩
  | push w => exact ⟨_, _, .push s t w h, trivial⟩
  | unlock w => exact ⟨_, _, .unlock s t w h, trivial⟩
  | leave w => exact ⟨_, _, .leave s t w h, trivial⟩

/-- The states of the background thread in which it goes on by itself. -/
def Bpc.busy : Bpc Job → Bool
  | .lock | .check | .wait | .woken | .pop | .unlock _ | .call _ => true
  | _ => false

/-- Its next state. -/
def Bpc.Next (q : List (Item Job)) : Bpc Job → Bpc Job → Prop
  | .lock, b => b = .check
  | .woken, b => b = .check
  | .check, b => (q = [] ∧ b = .wait) ∨ (q ≠ [] ∧ b = .pop)
  | .wait, b => b = .asleep
  | .pop, b => ∃ w q', q = w :: q' ∧ b = .unlock w
  | .unlock w, b => b = .call w
  | .call w, b => b = .running w
  | _, _ => False

theorem bg_step {s s' : Sys Job} {who : Option Nat} {e : Option (Ev Job)} (hc : Ctl s) (h : Step s who e s') (hb : s.bg.busy = true) :
    (who ≠ some 0 ∧ s'.bg = s.bg ∧ ∃ l, s'.queue = s.queue ++ l) ∨
    (who = some 0 ∧ Own e ∧ s.bg.Next s.queue s'.bg ∧ (∀ w, s.bg = .call w → e = some (.run w.id w.job)) ∧
      (s.bg = .wait ∨ (∃ w, s.bg = .unlock w) → s'.mutex = none) ∧ (s.bg ≠ .pop → s'.queue = s.queue)) := by
  have hz : s.pc 0 = .out := by
    by_contra hp
    have := hc.inner hp
    obtain ⟨w, hw⟩ := not_running_of_crit this
    rw [hw] at hb; exact nomatch hb
  have ne : ∀ {t : Nat} {p : Cpc Job}, s.pc t = p → p ≠ .out → some t ≠ some 0 := by
    intro t p hp hne h
    injection h with h
    subst h
    exact hne (hp.symm.trans hz)
  have no : ∀ {b : Bpc Job}, s.bg = b → b.busy = false → False := by
    intro b h1 h2; rw [h1, h2] at hb; exact nomatch hb
  cases h with
  | callClient u job ht hu => exact .inl ⟨fun h => ht (by injection h), rfl, [], by simp⟩
  | callRunning w job hbg hu => exact (no hbg rfl).elim
  | lock u w hu hm => exact .inl ⟨ne hu (fun h => (nomatch h)), rfl, [], by simp⟩
  | start u w hu =>
    refine .inl ⟨ne hu (fun h => (nomatch h)), ?_, [], ?_⟩
    · cases hst : s.started with
      | true => simp
      | false => exact (no (hc.fresh hst).1 rfl).elim
    · rw [at_queue, List.append_nil]; split <;> rfl
  | signal u w hu =>
    refine .inl ⟨ne hu (fun h => (nomatch h)), ?_, [], ?_⟩
    · rw [at_bg]
      split
      · show s.bg.signal = s.bg
        cases hbg : s.bg with
        | asleep => exact (no hbg rfl).elim
        | _ => rfl
      · rfl
    · rw [at_queue, List.append_nil]; split <;> rfl
  | push u w hu => exact .inl ⟨ne hu (fun h => (nomatch h)), rfl, [w], rfl⟩
  | unlock u w hu => exact .inl ⟨ne hu (fun h => (nomatch h)), rfl, [], by simp⟩
  | leave u w hu => exact .inl ⟨ne hu (fun h => (nomatch h)), rfl, [], by simp⟩
  | bgLock h hm =>
    refine .inr ⟨rfl, trivial, by rw [h]; rfl, fun w hw => by rw [h] at hw; exact (nomatch hw), ?_, fun _ => rfl⟩
    rintro (h1 | ⟨w, h1⟩) <;> (rw [h] at h1; exact nomatch h1)
  | bgCheck h =>
    refine .inr ⟨rfl, trivial, ?_, fun w hw => by rw [h] at hw; exact (nomatch hw), ?_, fun _ => rfl⟩
    · rw [h]
      show (s.queue = [] ∧ _) ∨ _
      cases hq : s.queue with
      | nil => left; simp
      | cons a l => right; simp
    · rintro (h1 | ⟨w, h1⟩) <;> (rw [h] at h1; exact nomatch h1)
  | bgWait h => exact .inr ⟨rfl, trivial, by rw [h]; rfl, fun w hw => by rw [h] at hw; exact (nomatch hw), fun _ => rfl, fun _ => rfl⟩
  | bgWake h => exact (no h rfl).elim
  | bgWoken h hm =>
    refine .inr ⟨rfl, trivial, by rw [h]; rfl, fun w hw => by rw [h] at hw; exact (nomatch hw), ?_, fun _ => rfl⟩
    rintro (h1 | ⟨w, h1⟩) <;> (rw [h] at h1; exact nomatch h1)
  | bgPop w q h hq =>
    refine .inr ⟨rfl, trivial, by rw [h]; exact ⟨w, q, hq, rfl⟩, fun w hw => by rw [h] at hw; exact (nomatch hw), ?_, fun hn => absurd h hn⟩
    rintro (h1 | ⟨w, h1⟩) <;> (rw [h] at h1; exact nomatch h1)
  | bgPopEmpty h hq => exact absurd hq (hc.pop h)
  | bgUnlock w h => exact .inr ⟨rfl, trivial, by rw [h]; rfl, fun w hw => by rw [h] at hw; exact (nomatch hw), fun _ => rfl, fun _ => rfl⟩
  | bgCall w h =>
    refine .inr ⟨rfl, trivial, by rw [h]; rfl, fun w' hw => by rw [h] at hw; injection hw with hw; rw [hw], ?_, fun _ => rfl⟩
    rintro (h1 | ⟨w, h1⟩) <;> (rw [h] at h1; exact nomatch h1)
  | bgDone w h h0 => exact (no h rfl).elim

theorem bg_can {s : Sys Job} (hc : Ctl s) (hb : s.bg.busy = true) (hl : s.bg = .lock ∨ s.bg = .woken → s.mutex = none) : CanStep s 0 := by
  cases h : s.bg with
  | lock => exact ⟨_, _, .bgLock s h (hl (.inl h)), trivial⟩
  | check => exact ⟨_, _, .bgCheck s h, trivial⟩
  | wait => exact ⟨_, _, .bgWait s h, trivial⟩
  | woken => exact ⟨_, _, .bgWoken s h (hl (.inr h)), trivial⟩
  | pop =>
    cases hq : s.queue with
    | nil => exact absurd hq (hc.pop h)
    | cons w q => exact ⟨_, _, .bgPop s w q h hq, trivial⟩
  | unlock w => exact ⟨_, _, .bgUnlock s w h, trivial⟩
  | call w => exact ⟨_, _, .bgCall s w h, trivial⟩
  | none => rw [h] at hb; exact nomatch hb
  | asleep => rw [h] at hb; exact nomatch hb
  | running w => rw [h] at hb; exact nomatch hb
  | undefined => rw [h] at hb; exact nomatch hb

/-! Fair executions -/

theorem leads (x : Exec Job) (hf : FairThreads x) (t i : Nat) (P : Sys Job → Prop) (Q : Nat → Prop) (h0 : P (x.state i))
    (hstep : ∀ j, i ≤ j → P (x.state j) → P (x.state (j + 1)) ∨ Q j)
    (hcan : (∀ j, i ≤ j → P (x.state j)) → ∀ j, i ≤ j → ∃ k, j ≤ k ∧ CanStep (x.state k) t)
    (hmove : ∀ j, i ≤ j → P (x.state j) → x.who j = some t → Own (x.ev j) → Q j) : ∃ j, i ≤ j ∧ Q j := by
  by_contra hno
  have hall : ∀ j, i ≤ j → P (x.state j) := by
    intro j hj
    induction j, hj using Nat.le_induction with
    | base => exact h0
    | succ j hj ih =>
      rcases hstep j hj ih with h | h
      · exact h
      · exact absurd ⟨j, hj, h⟩ hno
  obtain ⟨j, hj, h1, h2⟩ := hf t i (hcan hall)
  exact hno ⟨j, hj, hmove j hj (hall j hj) h1 h2⟩

/-- A thread in `Schedule` that need not wait goes on. -/
theorem pc_leads (x : Exec Job) (hf : FairThreads x) (t i : Nat) (p : Cpc Job) (hp : (x.state i).pc t = p) (hne : p ≠ .out)
    (hcan : (∀ w, p ≠ .lock w) ∨ ∀ j, ∃ k, j ≤ k ∧ (x.state k).mutex = none) :
    ∃ j, i ≤ j ∧ (x.state j).pc t = p ∧ (x.state (j + 1)).pc t = p.next ∧ (∀ w, p = .leave w → x.ev j = some (.ret t w.id)) ∧
      (∀ w, p = .unlock w → (x.state (j + 1)).mutex = none) := by
  have key : ∀ j, (x.state j).pc t = p → (x.state (j + 1)).pc t = p ∧ x.who j ≠ some t ∨
      ((x.state (j + 1)).pc t = p.next ∧ (∀ w, p = .leave w → x.ev j = some (.ret t w.id)) ∧
        (∀ w, p = .unlock w → (x.state (j + 1)).mutex = none)) := by
    intro j hj
    rcases x.next j with ⟨_, h1, h2, _⟩ | ⟨_, h1⟩
    · left; rw [h1, h2]; exact ⟨hj, fun h => (nomatch h)⟩
    · rcases pc_step (exec_ctl x j) h1 t (by rw [hj]; exact hne) with ⟨g1, g2⟩ | ⟨g1, g2, g3, g4, g5, g6⟩
      · left; exact ⟨g2.trans hj, g1⟩
      · right
        rw [hj] at g3 g4 g6
        exact ⟨g3, g4, g6⟩
  obtain ⟨j, h1, h2, h3⟩ := leads x hf t i (fun s => s.pc t = p)
    (fun j => (x.state j).pc t = p ∧ (x.state (j + 1)).pc t = p.next ∧ (∀ w, p = .leave w → x.ev j = some (.ret t w.id)) ∧
      (∀ w, p = .unlock w → (x.state (j + 1)).mutex = none)) hp
    (fun j _ hj => by
      rcases key j hj with h | h
      · exact .inl h.1
      · exact .inr ⟨hj, h⟩)
    (fun hall j hj => by
      rcases hcan with hcan | hcan
      · exact ⟨j, Nat.le_refl _, pc_can t (by rw [hall j hj]; exact hne) (fun w hw => absurd ((hall j hj).symm.trans hw) (hcan w))⟩
      · obtain ⟨k, hk, hm⟩ := hcan j
        exact ⟨k, hk, pc_can t (by rw [hall k (by omega)]; exact hne) (fun w hw => hm)⟩)
    (fun j _ hj hw _ => by
      rcases key j hj with h | h
      · exact absurd hw h.2
      · exact ⟨hj, h⟩)
  exact ⟨j, h1, h2, h3⟩

/-- The background thread, when it need not wait, goes on; the queue only grows meanwhile. -/
theorem bg_leads (x : Exec Job) (hf : FairThreads x) (i : Nat) (b : Bpc Job) (hb : (x.state i).bg = b) (hbusy : b.busy = true)
    (hcan : (b ≠ .lock ∧ b ≠ .woken) ∨ ∀ j, ∃ k, j ≤ k ∧ (x.state k).mutex = none) :
    ∃ j l, i ≤ j ∧ (x.state j).bg = b ∧ (x.state j).queue = (x.state i).queue ++ l ∧ b.Next (x.state j).queue (x.state (j + 1)).bg ∧
      (∀ w, b = .call w → x.ev j = some (.run w.id w.job)) ∧ (b = .wait ∨ (∃ w, b = .unlock w) → (x.state (j + 1)).mutex = none) ∧
      (b ≠ .pop → (x.state (j + 1)).queue = (x.state j).queue) := by
  have key : ∀ j, (x.state j).bg = b → (x.state (j + 1)).bg = b ∧ x.who j ≠ some 0 ∧ (∃ l, (x.state (j + 1)).queue = (x.state j).queue ++ l) ∨
      (b.Next (x.state j).queue (x.state (j + 1)).bg ∧ (∀ w, b = .call w → x.ev j = some (.run w.id w.job)) ∧
        (b = .wait ∨ (∃ w, b = .unlock w) → (x.state (j + 1)).mutex = none) ∧ (b ≠ .pop → (x.state (j + 1)).queue = (x.state j).queue)) := by
    intro j hj
    rcases x.next j with ⟨_, h1, h2, _⟩ | ⟨_, h1⟩
    · left; rw [h1, h2]; exact ⟨hj, fun h => (nomatch h), [], by simp⟩
    · rcases bg_step (exec_ctl x j) h1 (by rw [hj]; exact hbusy) with ⟨g1, g2, g3⟩ | ⟨g1, g2, g3, g4, g5, g6⟩
      · left; exact ⟨g2.trans hj, g1, g3⟩
      · right
        rw [hj] at g3 g4 g5 g6
        exact ⟨g3, g4, g5, g6⟩
  obtain ⟨j, h1, h2, ⟨l, hl⟩, h3⟩ := leads x hf 0 i (fun s => s.bg = b ∧ ∃ l, s.queue = (x.state i).queue ++ l)
    (fun j => (x.state j).bg = b ∧ (∃ l, (x.state j).queue = (x.state i).queue ++ l) ∧ b.Next (x.state j).queue (x.state (j + 1)).bg ∧
      (∀ w, b = .call w → x.ev j = some (.run w.id w.job)) ∧ (b = .wait ∨ (∃ w, b = .unlock w) → (x.state (j + 1)).mutex = none) ∧
      (b ≠ .pop → (x.state (j + 1)).queue = (x.state j).queue)) ⟨hb, [], by simp⟩
    (fun j _ hj => by
      obtain ⟨hj, l, hl⟩ := hj
      rcases key j hj with ⟨h, _, l', hl'⟩ | h
      · exact .inl ⟨h, l ++ l', by rw [hl', hl]; simp⟩
      · exact .inr ⟨hj, ⟨l, hl⟩, h⟩)
    (fun hall j hj => by
      rcases hcan with hcan | hcan
      · refine ⟨j, Nat.le_refl _, bg_can (exec_ctl x j) (by rw [(hall j hj).1]; exact hbusy) ?_⟩
        rw [(hall j hj).1]
        rintro (h | h)
        · exact absurd h hcan.1
        · exact absurd h hcan.2
      · obtain ⟨k, hk, hm⟩ := hcan j
        exact ⟨k, hk, bg_can (exec_ctl x k) (by rw [(hall k (by omega)).1]; exact hbusy) (fun _ => hm)⟩)
    (fun j _ hj hw _ => by
      rcases key j hj.1 with h | h
      · exact absurd hw h.2.1
      · exact ⟨hj.1, hj.2, h⟩)
  exact ⟨j, l, h1, h2, hl, h3⟩

/-- The mutex is free again and again. -/
theorem free (x : Exec Job) (hf : FairThreads x) (i : Nat) : ∃ j, i ≤ j ∧ (x.state j).mutex = none := by
  have hu : ∀ i t w, (x.state i).pc t = .unlock w → ∃ j, i ≤ j ∧ (x.state j).mutex = none := by
    intro i t w h
    obtain ⟨j, h1, _, _, _, h2⟩ := pc_leads x hf t i _ h (fun h => (nomatch h)) (.inl fun w h => nomatch h)
    exact ⟨j + 1, by omega, h2 w rfl⟩
  have hpu : ∀ i t w, (x.state i).pc t = .push w → ∃ j, i ≤ j ∧ (x.state j).mutex = none := by
    intro i t w h
    obtain ⟨j, h1, _, h2, _⟩ := pc_leads x hf t i _ h (fun h => (nomatch h)) (.inl fun w h => nomatch h)
    obtain ⟨k, h3, h4⟩ := hu _ _ _ h2
    exact ⟨k, by omega, h4⟩
  have hsi : ∀ i t w, (x.state i).pc t = .signal w → ∃ j, i ≤ j ∧ (x.state j).mutex = none := by
    intro i t w h
    obtain ⟨j, h1, _, h2, _⟩ := pc_leads x hf t i _ h (fun h => (nomatch h)) (.inl fun w h => nomatch h)
    obtain ⟨k, h3, h4⟩ := hpu _ _ _ h2
    exact ⟨k, by omega, h4⟩
  have hst : ∀ i t w, (x.state i).pc t = .start w → ∃ j, i ≤ j ∧ (x.state j).mutex = none := by
    intro i t w h
    obtain ⟨j, h1, _, h2, _⟩ := pc_leads x hf t i _ h (fun h => (nomatch h)) (.inl fun w h => nomatch h)
    obtain ⟨k, h3, h4⟩ := hsi _ _ _ h2
    exact ⟨k, by omega, h4⟩
  have hbu : ∀ i w, (x.state i).bg = .unlock w → ∃ j, i ≤ j ∧ (x.state j).mutex = none := by
    intro i w h
    obtain ⟨j, _, h1, _, _, _, _, h2, _⟩ := bg_leads x hf i _ h rfl (.inl ⟨fun h => (nomatch h), fun h => (nomatch h)⟩)
    exact ⟨j + 1, by omega, h2 (.inr ⟨w, rfl⟩)⟩
  have hbp : ∀ i, (x.state i).bg = .pop → ∃ j, i ≤ j ∧ (x.state j).mutex = none := by
    intro i h
    obtain ⟨j, _, h1, _, _, ⟨w, q, _, h2⟩, _⟩ := bg_leads x hf i _ h rfl (.inl ⟨fun h => (nomatch h), fun h => (nomatch h)⟩)
    obtain ⟨k, h3, h4⟩ := hbu _ _ h2
    exact ⟨k, by omega, h4⟩
  have hbw : ∀ i, (x.state i).bg = .wait → ∃ j, i ≤ j ∧ (x.state j).mutex = none := by
    intro i h
    obtain ⟨j, _, h1, _, _, _, _, h2, _⟩ := bg_leads x hf i _ h rfl (.inl ⟨fun h => (nomatch h), fun h => (nomatch h)⟩)
    exact ⟨j + 1, by omega, h2 (.inl rfl)⟩
  have hbc : ∀ i, (x.state i).bg = .check → ∃ j, i ≤ j ∧ (x.state j).mutex = none := by
    intro i h
    obtain ⟨j, _, h1, _, _, h2, _⟩ := bg_leads x hf i _ h rfl (.inl ⟨fun h => (nomatch h), fun h => (nomatch h)⟩)
    rcases h2 with ⟨_, h2⟩ | ⟨_, h2⟩
    · obtain ⟨k, h3, h4⟩ := hbw _ h2
      exact ⟨k, by omega, h4⟩
    · obtain ⟨k, h3, h4⟩ := hbp _ h2
      exact ⟨k, by omega, h4⟩
  cases hm : (x.state i).mutex with
  | none => exact ⟨i, Nat.le_refl _, hm⟩
  | some t =>
    rcases (exec_ctl x i).held t hm with h | ⟨_, h⟩
    · cases hp : (x.state i).pc t with
      | start w => exact hst i t w hp
      | signal w => exact hsi i t w hp
      | push w => exact hpu i t w hp
      | unlock w => exact hu i t w hp
      | out => rw [hp] at h; exact nomatch h
      | lock w => rw [hp] at h; exact nomatch h
      | leave w => rw [hp] at h; exact nomatch h
    · cases hb : (x.state i).bg with
      | check => exact hbc i hb
      | wait => exact hbw i hb
      | pop => exact hbp i hb
      | unlock w => exact hbu i w hb
      | none => rw [hb] at h; exact nomatch h
      | lock => rw [hb] at h; exact nomatch h
      | asleep => rw [hb] at h; exact nomatch h
      | woken => rw [hb] at h; exact nomatch h
      | call w => rw [hb] at h; exact nomatch h
      | running w => rw [hb] at h; exact nomatch h
      | undefined => rw [hb] at h; exact nomatch h

/-- Every call of `Schedule` returns. -/
theorem returns (x : Exec Job) (hf : FairThreads x) (i t : Nat) (w : Item Job) (h : (x.state i).pc t = .lock w) :
    ∃ j, i ≤ j ∧ x.ev j = some (.ret t w.id) := by
  obtain ⟨j1, a1, _, b1, _⟩ := pc_leads x hf t i _ h (fun h => (nomatch h)) (.inr (free x hf))
  obtain ⟨j2, a2, _, b2, _⟩ := pc_leads x hf t _ _ b1 (fun h => (nomatch h)) (.inr (free x hf))
  obtain ⟨j3, a3, _, b3, _⟩ := pc_leads x hf t _ _ b2 (fun h => (nomatch h)) (.inr (free x hf))
  obtain ⟨j4, a4, _, b4, _⟩ := pc_leads x hf t _ _ b3 (fun h => (nomatch h)) (.inr (free x hf))
  obtain ⟨j5, a5, _, b5, _⟩ := pc_leads x hf t _ _ b4 (fun h => (nomatch h)) (.inr (free x hf))
  obtain ⟨j6, a6, _, _, b6, _⟩ := pc_leads x hf t _ _ b5 (fun h => (nomatch h)) (.inr (free x hf))
  exact ⟨j6, by omega, b6 w rfl⟩

theorem called_lock (x : Exec Job) {i t id : Nat} {job : Job} (h : x.ev i = some (.call t id job)) :
    (x.state (i + 1)).pc t = .lock ⟨id, job⟩ := by
  rcases x.next i with ⟨_, _, _, h1⟩ | ⟨_, h1⟩
  · rw [h1] at h; exact nomatch h
  · rw [h] at h1
    generalize x.state (i + 1) = s' at h1
    generalize x.state i = s at h1
    generalize x.who i = u at h1
    cases h1 with
    | callClient _ _ ht hu => rw [at_self]
    | callRunning w _ hb hu => rw [at_self]

theorem step_running {s s' : Sys Job} {who : Option Nat} {e : Option (Ev Job)} (hc : Ctl s) (h : Step s who e s') {w : Item Job}
    (hb : s.bg = .running w) :
    (s'.bg = .running w ∧ (∀ id, e ≠ some (.done id)) ∧ ∃ l, s'.queue = s.queue ++ l) ∨
    (s'.bg = .lock ∧ e = some (.done w.id) ∧ s'.queue = s.queue) := by
  have no : ∀ {b : Bpc Job}, s.bg = b → b ≠ .running w → False := fun h1 h2 => h2 (h1.symm.trans hb)
  cases h with
  | callClient u job ht hu => exact .inl ⟨hb, fun _ h => (nomatch h), [], by simp⟩
  | callRunning w job hbg hu => exact .inl ⟨hb, fun _ h => (nomatch h), [], by simp⟩
  | lock u w hu hm => exact .inl ⟨hb, fun _ h => (nomatch h), [], by simp⟩
  | start u w hu =>
    refine .inl ⟨?_, fun _ h => (nomatch h), [], ?_⟩
    · cases hst : s.started with
      | true => simp [hb]
      | false => exact (no (hc.fresh hst).1 (fun h => nomatch h)).elim
    · rw [at_queue, List.append_nil]; split <;> rfl
  | signal u w hu =>
    refine .inl ⟨?_, fun _ h => (nomatch h), [], ?_⟩
    · rw [at_bg]
      split
      · show s.bg.signal = _
        rw [hb]; rfl
      · exact hb
    · rw [at_queue, List.append_nil]; split <;> rfl
  | push u w hu => exact .inl ⟨hb, fun _ h => (nomatch h), [w], rfl⟩
  | unlock u w hu => exact .inl ⟨hb, fun _ h => (nomatch h), [], by simp⟩
  | leave u w hu => exact .inl ⟨hb, fun _ h => (nomatch h), [], by simp⟩
  | bgLock h hm => exact (no h (fun h => nomatch h)).elim
  | bgCheck h => exact (no h (fun h => nomatch h)).elim
  | bgWait h => exact (no h (fun h => nomatch h)).elim
  | bgWake h => exact (no h (fun h => nomatch h)).elim
  | bgWoken h hm => exact (no h (fun h => nomatch h)).elim
  | bgPop w q h hq => exact (no h (fun h => nomatch h)).elim
  | bgPopEmpty h hq => exact (no h (fun h => nomatch h)).elim
  | bgUnlock w h => exact (no h (fun h => nomatch h)).elim
  | bgCall w h => exact (no h (fun h => nomatch h)).elim
  | bgDone w h h0 =>
    rw [hb] at h; injection h with h; subst h
    exact .inr ⟨rfl, rfl, rfl⟩

theorem step_begin {s s' : Sys Job} {who : Option Nat} {e : Option (Ev Job)} (h : Step s who e s') {w : Item Job}
    (hb : s'.bg = .running w) : s.bg = .running w ∨ e = some (.run w.id w.job) := by
  cases h with
  | callClient u job ht hu => exact .inl hb
  | callRunning w job hbg hu => exact .inl hb
  | lock u w hu hm => exact .inl hb
  | start u w hu =>
    rw [at_bg] at hb
    split at hb
    · exact nomatch hb
    · exact .inl hb
  | signal u w hu =>
    rw [at_bg] at hb
    split at hb
    · left
      cases hs : s.bg <;> simp only [hs, Bpc.signal] at hb <;> first | exact hb | (cases hb; done)
    · exact .inl hb
  | push u w hu => exact .inl hb
  | unlock u w hu => exact .inl hb
  | leave u w hu => exact .inl hb
  | bgLock h hm => exact nomatch hb
  | bgCheck h =>
    simp only [] at hb
    split at hb <;> exact nomatch hb
  | bgWait h => exact nomatch hb
  | bgWake h => exact nomatch hb
  | bgWoken h hm => exact nomatch hb
  | bgPop w q h hq => exact nomatch hb
  | bgPopEmpty h hq => exact nomatch hb
  | bgUnlock w h => exact nomatch hb
  | bgCall w h => injection hb with hb; subst hb; exact .inr rfl
  | bgDone w h h0 => exact nomatch hb

/-- When a function runs, it was begun. -/
theorem begun (x : Exec Job) (w : Item Job) : ∀ i, (x.state i).bg = .running w →
    ∃ k, k < i ∧ x.ev k = some (.run w.id w.job) ∧ ∀ j, k < j → j ≤ i → (x.state j).bg = .running w := by
  intro i
  induction i with
  | zero => intro h; rw [x.start] at h; exact nomatch h
  | succ i ih =>
    intro h
    have old : (x.state i).bg = .running w → ∃ k, k < i + 1 ∧ x.ev k = some (.run w.id w.job) ∧
        ∀ j, k < j → j ≤ i + 1 → (x.state j).bg = .running w := by
      intro h1
      obtain ⟨k, h2, h3, h4⟩ := ih h1
      refine ⟨k, by omega, h3, fun j hj hj' => ?_⟩
      by_cases hji : j = i + 1
      · rw [hji]; exact h
      · exact h4 j hj (by omega)
    rcases x.next i with ⟨_, h1, _, _⟩ | ⟨_, h1⟩
    · rw [h1] at h; exact old h
    · rcases step_begin h1 h with h2 | h2
      · exact old h2
      · exact ⟨i, by omega, h2, fun j hj hj' => by rw [show j = i + 1 by omega]; exact h⟩

/-- While there is work, a function begins to run sooner or later. -/
theorem work (x : Exec Job) (hf : FairThreads x) (hr : FunctionsReturn x) (i : Nat)
    (h : (x.state i).queue ≠ [] ∨ (x.state i).bg.flight ≠ []) : ∃ j id job, i ≤ j ∧ x.ev j = some (.run id job) := by
  have hca : ∀ i w, (x.state i).bg = .call w → ∃ j id job, i ≤ j ∧ x.ev j = some (.run id job) := by
    intro i w h
    obtain ⟨j, _, h1, _, _, _, h2, _⟩ := bg_leads x hf i _ h rfl (.inr (free x hf))
    exact ⟨j, w.id, w.job, h1, h2 w rfl⟩
  have hun : ∀ i w, (x.state i).bg = .unlock w → ∃ j id job, i ≤ j ∧ x.ev j = some (.run id job) := by
    intro i w h
    obtain ⟨j, _, h1, _, _, h2, _⟩ := bg_leads x hf i _ h rfl (.inr (free x hf))
    obtain ⟨k, id, job, h3, h4⟩ := hca _ _ h2
    exact ⟨k, id, job, by omega, h4⟩
  have hpo : ∀ i, (x.state i).bg = .pop → ∃ j id job, i ≤ j ∧ x.ev j = some (.run id job) := by
    intro i h
    obtain ⟨j, _, h1, _, _, ⟨w, q, _, h2⟩, _⟩ := bg_leads x hf i _ h rfl (.inr (free x hf))
    obtain ⟨k, id, job, h3, h4⟩ := hun _ _ h2
    exact ⟨k, id, job, by omega, h4⟩
  have hch : ∀ i, (x.state i).bg = .check → (x.state i).queue ≠ [] → ∃ j id job, i ≤ j ∧ x.ev j = some (.run id job) := by
    intro i h hq
    obtain ⟨j, l, h1, _, hl, h2, _⟩ := bg_leads x hf i _ h rfl (.inr (free x hf))
    rcases h2 with ⟨h2, _⟩ | ⟨_, h2⟩
    · rw [hl, List.append_eq_nil_iff] at h2; exact absurd h2.1 hq
    · obtain ⟨k, id, job, h3, h4⟩ := hpo _ h2
      exact ⟨k, id, job, by omega, h4⟩
  have hlo : ∀ i, (x.state i).bg = .lock → (x.state i).queue ≠ [] → ∃ j id job, i ≤ j ∧ x.ev j = some (.run id job) := by
    intro i h hq
    obtain ⟨j, l, h1, _, hl, h2, _, _, h5⟩ := bg_leads x hf i _ h rfl (.inr (free x hf))
    have h5 := h5 (fun h => nomatch h)
    obtain ⟨k, id, job, h3, h4⟩ := hch _ h2 (by rw [h5, hl]; simp [hq])
    exact ⟨k, id, job, by omega, h4⟩
  have hwo : ∀ i, (x.state i).bg = .woken → (x.state i).queue ≠ [] → ∃ j id job, i ≤ j ∧ x.ev j = some (.run id job) := by
    intro i h hq
    obtain ⟨j, l, h1, _, hl, h2, _, _, h5⟩ := bg_leads x hf i _ h rfl (.inr (free x hf))
    have h5 := h5 (fun h => nomatch h)
    obtain ⟨k, id, job, h3, h4⟩ := hch _ h2 (by rw [h5, hl]; simp [hq])
    exact ⟨k, id, job, by omega, h4⟩
  have hc := exec_ctl x i
  cases hb : (x.state i).bg with
  | unlock w => exact hun i w hb
  | call w => exact hca i w hb
  | none =>
    rw [hb] at h
    rcases h with h | h
    · cases hst : (x.state i).started with
      | false => exact absurd (hc.fresh hst).2.1 h
      | true => exact absurd hb (hc.begun hst)
    · exact absurd rfl h
  | undefined => exact absurd hb hc.ok
  | asleep =>
    rw [hb] at h
    rcases h with h | h
    · exact absurd (hc.asleep hb) h
    · exact absurd rfl h
  | wait =>
    rw [hb] at h
    rcases h with h | h
    · exact absurd (hc.waits hb) h
    · exact absurd rfl h
  | pop => exact hpo i hb
  | check =>
    rw [hb] at h
    rcases h with h | h
    · exact hch i hb h
    · exact absurd rfl h
  | lock =>
    rw [hb] at h
    rcases h with h | h
    · exact hlo i hb h
    · exact absurd rfl h
  | woken =>
    rw [hb] at h
    rcases h with h | h
    · exact hwo i hb h
    · exact absurd rfl h
  | running w =>
    rw [hb] at h
    have hq : (x.state i).queue ≠ [] := h.resolve_right (fun h => h rfl)
    obtain ⟨k, hk, hrun, hkeep⟩ := begun x w i hb
    obtain ⟨d, hd, hdone⟩ := hr k w.id ⟨_, hrun⟩ (by
      intro j id hj hcall
      obtain ⟨job, hcall⟩ := hcall
      obtain ⟨l, h1, h2⟩ := returns x hf _ _ _ (called_lock x hcall)
      exact ⟨l, by omega, h2⟩)
    have hdi : i ≤ d := by
      by_contra hlt
      by_cases hdk : d = k
      · subst hdk; rw [hrun] at hdone; exact nomatch hdone
      · have h1 := hkeep d (by omega) (by omega)
        have h2 := hkeep (d + 1) (by omega) (by omega)
        rcases x.next d with ⟨_, _, _, h3⟩ | ⟨_, h3⟩
        · rw [h3] at hdone; exact nomatch hdone
        · rcases step_running (exec_ctl x d) h3 h1 with ⟨_, h4, _⟩ | ⟨h4, _⟩
          · exact h4 _ hdone
          · rw [h2] at h4; exact nomatch h4
    have hfin : ∀ j, i ≤ j → ((x.state j).bg = .running w ∧ (x.state j).queue ≠ []) ∨
        ∃ m, i ≤ m ∧ m < j ∧ (x.state (m + 1)).bg = .lock ∧ (x.state (m + 1)).queue ≠ [] := by
      intro j hj
      induction j, hj using Nat.le_induction with
      | base => exact .inl ⟨hb, hq⟩
      | succ j hj ih =>
        rcases ih with ⟨h1, h2⟩ | ⟨m, h1, h2, h3⟩
        · rcases x.next j with ⟨_, h3, _, _⟩ | ⟨_, h3⟩
          · left; rw [h3]; exact ⟨h1, h2⟩
          · rcases step_running (exec_ctl x j) h3 h1 with ⟨h4, _, l, hl⟩ | ⟨h4, _, hl⟩
            · left; exact ⟨h4, by rw [hl]; simp [h2]⟩
            · right; exact ⟨j, hj, by omega, h4, by rw [hl]; exact h2⟩
        · right; exact ⟨m, h1, by omega, h3⟩
    rcases hfin (d + 1) (by omega) with ⟨h1, h2⟩ | ⟨m, h1, h2, h3, h4⟩
    · rcases hfin d hdi with ⟨h3, _⟩ | ⟨m, h5, h6, h7, h8⟩
      · rcases x.next d with ⟨_, _, _, h4⟩ | ⟨_, h4⟩
        · rw [h4] at hdone; exact nomatch hdone
        · rcases step_running (exec_ctl x d) h4 h3 with ⟨_, h5, _⟩ | ⟨h5, _⟩
          · exact absurd hdone (h5 _)
          · rw [h1] at h5; exact nomatch h5
      · obtain ⟨j, id, job, h9, h10⟩ := hlo _ h7 h8
        exact ⟨j, id, job, by omega, h10⟩
    · obtain ⟨j, id, job, h9, h10⟩ := hlo _ h3 h4
      exact ⟨j, id, job, by omega, h10⟩

/-- Everything that was put into the queue is run. -/
theorem all_run (x : Exec Job) (hf : FairThreads x) (hr : FunctionsReturn x) (m : Nat) : ∀ (n i : Nat) (σ ran : List (Item Job)),
    m + 1 - ran.length ≤ n → Ord (x.events i) (x.state i) σ ran → (hm : m < σ.length) →
    ∃ j, ∃ σ' ran', Ord (x.events j) (x.state j) σ' ran' ∧ σ <+: σ' ∧ m < ran'.length := by
  intro n
  induction n with
  | zero => intro i σ ran hn h hm; exact ⟨i, σ, ran, h, List.prefix_refl _, by omega⟩
  | succ n ih =>
    intro i σ ran hn h hm
    by_cases hlt : m < ran.length
    · exact ⟨i, σ, ran, h, List.prefix_refl _, hlt⟩
    have hne : (x.state i).queue ≠ [] ∨ (x.state i).bg.flight ≠ [] := by
      by_contra hno
      simp only [not_or, not_not] at hno
      have := h.split
      rw [hno.1, hno.2, List.append_nil, List.append_nil] at this
      rw [this] at hm
      exact hlt hm
    obtain ⟨j, id, job, hj, hev⟩ := work x hf hr i hne
    obtain ⟨a, b, h1⟩ := exec_ord x h j hj
    obtain ⟨a', b', h2⟩ := exec_ord x h1 (j + 1) (by omega)
    have hlen : ((ran ++ b) ++ b').length = (ran ++ b).length + 1 := by
      have e1 := congrArg List.length h1.runs
      have e2 := congrArg List.length h2.runs
      rw [show x.events (j + 1) = x.events j ++ (x.ev j).toList from rfl, hev] at e2
      unfold Sched.runs at e1 e2
      rw [List.filterMap_append] at e2
      simp only [List.length_append, List.length_map] at e1 e2 ⊢
      simp at e2
      omega
    obtain ⟨j2, σ2, ran2, g1, g2, g3⟩ := ih (j + 1) _ _ (by rw [hlen]; simp; omega) h2 (by simp; omega)
    refine ⟨j2, σ2, ran2, g1, ?_, g3⟩
    refine List.IsPrefix.trans ?_ g2
    rw [List.append_assoc]
    exact List.prefix_append _ _

end Sched
end Lsmdb
