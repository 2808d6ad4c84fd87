import Verif.Spec.SchedSync
import Verif.Proof.Schedule3
import Verif.Proof.HappensBefore

/-!
# Happens before in `Schedule`
-/

namespace Lsmdb
namespace Sched
variable {Job : Type}

/-- Thread `t` is between taking and releasing the mutex. -/
def Crit (s : Sys Job) (t : Nat) : Prop := (s.pc t).crit = true ∨ (t = 0 ∧ s.bg.crit = true)

theorem Ctl.crit_mutex {s : Sys Job} (c : Ctl s) {t : Nat} (h : Crit s t) : s.mutex = some t := by
  rcases h with h | ⟨rfl, h⟩
  · exact c.crit t h
  · exact c.bcrit h

theorem OnlyIn.crit {v : Var} {s s1 : Sys Job} (h : OnlyIn v s s1) {t : Nat} (hc : Crit s1 t) : Crit s t := by
  cases v <;> (unfold OnlyIn at h; rw [h] at hc; exact hc)

theorem OnlyIn.symm {v : Var} {s s1 : Sys Job} (h : OnlyIn v s s1) : OnlyIn v s1 s := by
  cases v <;> (unfold OnlyIn at h ⊢; rw [h])

theorem write_crit {v : Var} {s : Sys Job} {t : Nat} (h : WritesVar v s t) : Crit s t := by
  obtain ⟨s1, e, s2, h1, h2, h3⟩ := h
  refine h1.crit ?_
  cases h2 <;> cases v <;> simp_all [Crit, Cpc.crit, Bpc.crit]
  all_goals (split at h3 <;> simp_all)

theorem step_alike {v : Var} {s s1 s' : Sys Job} {t : Nat} {e : Option (Ev Job)} (h : OnlyIn v s s1) (hs : Step s (some t) e s') :
    Crit s t ∨ ∃ s1', Step s1 (some t) e s1' ∧ OnlyIn v s' s1' := by
  have hc : s1.calls = s.calls ∧ s1.pc = s.pc ∧ s1.mutex = s.mutex ∧ s1.bg = s.bg := by
    cases v <;> (unfold OnlyIn at h; rw [h]; exact ⟨rfl, rfl, rfl, rfl⟩)
  obtain ⟨c1, c2, c3, c4⟩ := hc
  cases hs with
  | callClient _ job ht hp =>
    have hn := Step.callClient s1 t job ht (by rw [c2]; exact hp)
    rw [c1] at hn
    refine .inr ⟨_, hn, ?_⟩
    cases v <;> (unfold OnlyIn at h ⊢; rw [h]; rfl)
  | callRunning w job hb hp =>
    have hn := Step.callRunning s1 w job (by rw [c4]; exact hb) (by rw [c2]; exact hp)
    rw [c1] at hn
    refine .inr ⟨_, hn, ?_⟩
    cases v <;> (unfold OnlyIn at h ⊢; rw [h]; rfl)
  | lock _ w hp hm =>
    refine .inr ⟨_, .lock s1 t w (by rw [c2]; exact hp) (by rw [c3]; exact hm), ?_⟩
    cases v <;> (unfold OnlyIn at h ⊢; rw [h]; rfl)
  | start _ w hp => exact .inl (.inl (by rw [hp]; rfl))
  | signal _ w hp => exact .inl (.inl (by rw [hp]; rfl))
  | push _ w hp => exact .inl (.inl (by rw [hp]; rfl))
  | unlock _ w hp => exact .inl (.inl (by rw [hp]; rfl))
  | leave _ w hp =>
    refine .inr ⟨_, .leave s1 t w (by rw [c2]; exact hp), ?_⟩
    cases v <;> (unfold OnlyIn at h ⊢; rw [h]; rfl)
  | bgLock hb hm =>
    refine .inr ⟨_, .bgLock s1 (by rw [c4]; exact hb) (by rw [c3]; exact hm), ?_⟩
    cases v <;> (unfold OnlyIn at h ⊢; rw [h])
  | bgCheck hb => exact .inl (.inr ⟨rfl, by rw [hb]; rfl⟩)
  | bgWait hb => exact .inl (.inr ⟨rfl, by rw [hb]; rfl⟩)
  | bgWoken hb hm =>
    refine .inr ⟨_, .bgWoken s1 (by rw [c4]; exact hb) (by rw [c3]; exact hm), ?_⟩
    cases v <;> (unfold OnlyIn at h ⊢; rw [h])
  | bgPop w q hb hq => exact .inl (.inr ⟨rfl, by rw [hb]; rfl⟩)
  | bgPopEmpty hb hq => exact .inl (.inr ⟨rfl, by rw [hb]; rfl⟩)
  | bgUnlock w hb => exact .inl (.inr ⟨rfl, by rw [hb]; rfl⟩)
  | bgCall w hb =>
    refine .inr ⟨_, .bgCall s1 w (by rw [c4]; exact hb), ?_⟩
    cases v <;> (unfold OnlyIn at h ⊢; rw [h])
  | bgDone w hb h0 =>
    refine .inr ⟨_, .bgDone s1 w (by rw [c4]; exact hb) (by rw [c2]; exact h0), ?_⟩
    cases v <;> (unfold OnlyIn at h ⊢; rw [h])

theorem read_crit {v : Var} {s : Sys Job} {t : Nat} (h : ReadsVar v s t) : Crit s t := by
  obtain ⟨s1, e, s', h1, h2⟩ := h
  rcases h2 with ⟨h2, h3⟩ | ⟨h2, h3⟩
  · exact (step_alike h1 h2).resolve_right h3
  · exact h1.crit ((step_alike h1.symm h2).resolve_right h3)

/-- What a step does to the mutex. -/
theorem turn (x : Exec Job) (n : Nat) : Turn x.sync n () (x.state n).mutex (x.state (n + 1)).mutex := by
  have c := exec_ctl x n
  rcases x.next n with ⟨-, h, -, -⟩ | ⟨-, h⟩
  · rw [h]
    exact .keep fun hu => hu.1 (by rw [← h]; exact hu.2)
  · have key : (x.state (n + 1)).mutex = (x.state n).mutex ∨
        (∃ t, x.who n = some t ∧ (x.state n).mutex = none ∧ (x.state (n + 1)).mutex = some t) ∨
        (∃ t, x.who n = some t ∧ (x.state n).mutex = some t ∧ (x.state (n + 1)).mutex = none) := by
      generalize x.state n = s at *
      generalize x.state (n + 1) = s' at *
      generalize x.who n = who at *
      generalize x.ev n = e at *
      cases h with
      | callClient t job ht h => exact .inl rfl
      | callRunning w job hb h => exact .inl rfl
      | lock t w h hm => exact .inr (.inl ⟨t, rfl, hm, rfl⟩)
      | start t w h => left; simp only [at_mutex]; split <;> rfl
      | signal t w h => left; simp only [at_mutex]; split <;> rfl
      | push t w h => exact .inl rfl
      | unlock t w h => exact .inr (.inr ⟨t, rfl, c.crit t (by rw [h]; rfl), rfl⟩)
      | leave t w h => exact .inl rfl
      | bgLock h hm => exact .inr (.inl ⟨0, rfl, hm, rfl⟩)
      | bgCheck h => exact .inl rfl
      | bgWait h => exact .inr (.inr ⟨0, rfl, c.bcrit (by rw [h]; rfl), rfl⟩)
      | bgWake h => exact .inl rfl
      | bgWoken h hm => exact .inr (.inl ⟨0, rfl, hm, rfl⟩)
      | bgPop w q h hq => exact .inl rfl
      | bgPopEmpty h hq => exact .inl rfl
      | bgUnlock w h => exact .inr (.inr ⟨0, rfl, c.bcrit (by rw [h]; rfl), rfl⟩)
      | bgCall w h => exact .inl rfl
      | bgDone w h h0 => exact .inl rfl
    rcases key with hk | ⟨t, h1, h2, h3⟩ | ⟨t, h1, h2, h3⟩
    · rw [hk]
      exact .keep fun hu => hu.1 (by rw [← hk]; exact hu.2)
    · rw [h2, h3]
      exact .lock (fun hu => hu.1 h2) ⟨h2, by rw [h3]; exact nofun⟩ h1
    · rw [h2, h3]
      exact .unlock ⟨by rw [h2]; exact nofun, h3⟩ h1

theorem guarded (x : Exec Job) : ∀ n, Guarded x.sync n (x.state n).mutex ()
  | 0 => Guarded.zero
  | n + 1 => (guarded x n).step (turn x n)

/-- Steps of threads that hold the mutex are ordered. -/
theorem ordered (x : Exec Job) {i j t u : Nat} (hij : i < j) (hi : x.who i = some t) (hj : x.who j = some u)
    (mi : (x.state i).mutex = some t) (mj : (x.state j).mutex = some u) : HappensBefore x.sync i j := by
  have key : ∀ d, Has x.sync (i + 1 + d) (x.state (i + 1 + d)).mutex () i := by
    intro d
    induction d with
    | zero =>
      have := turn x i
      rw [mi] at this
      exact Has.own hi this
    | succ d ih => exact ih.step (turn x (i + 1 + d))
  have h := key (j - (i + 1))
  have e : i + 1 + (j - (i + 1)) = j := by omega
  rw [e] at h
  exact ((guarded x j).knows h mj).before hj

/-- Where the calls are known. -/
structure Told (x : Exec Job) (n : Nat) : Prop where
  pc : ∀ t w, ((x.state n).pc t).item = some w → ∃ i, (∃ u, x.ev i = some (.call u w.id w.job)) ∧ Knows x.sync n t i
  queue : ∀ w ∈ (x.state n).queue, ∃ i, (∃ u, x.ev i = some (.call u w.id w.job)) ∧ Has x.sync n (x.state n).mutex () i
  flight : ∀ w ∈ (x.state n).bg.flight, ∃ i, (∃ u, x.ev i = some (.call u w.id w.job)) ∧ Knows x.sync n 0 i

/-- Where the items of a state come from. -/
theorem sources {s s' : Sys Job} {who : Option Nat} {e : Option (Ev Job)} (c : Ctl s) (h : Step s who e s') :
    (∀ t w, (s'.pc t).item = some w → (s.pc t).item = some w ∨ (who = some t ∧ e = some (.call t w.id w.job))) ∧
    (∀ w ∈ s'.queue, w ∈ s.queue ∨ ∃ t, (s.pc t).item = some w ∧ s.mutex = some t) ∧
    (∀ w ∈ s'.bg.flight, w ∈ s.bg.flight ∨ (w ∈ s.queue ∧ s.mutex = some 0)) := by
  have old : ∀ {s1 : Sys Job} {t : Nat} {p q : Cpc Job} {u : Nat} {w : Item Job}, ((s1.at t p).pc u).item = some w → s1.pc = s.pc →
      s.pc t = q → (p.item = q.item ∨ p = .out) → (s.pc u).item = some w := by
    intro s1 t p q u w hw h1 h2 h3
    rw [at_pc] at hw
    split at hw
    · subst u
      rcases h3 with h3 | rfl
      · rw [h2, ← h3]; exact hw
      · cases hw
    · rw [h1] at hw; exact hw
  have call : ∀ {s1 : Sys Job} {t : Nat} {y : Item Job}, s1.pc = s.pc → who = some t → e = some (.call t y.id y.job) →
      ∀ u w, ((s1.at t (.lock y)).pc u).item = some w → (s.pc u).item = some w ∨ (who = some u ∧ e = some (.call u w.id w.job)) := by
    intro s1 t y h1 h2 h3 u w hw
    rw [at_pc] at hw
    split at hw
    · subst u; cases hw; exact .inr ⟨h2, h3⟩
    · rw [h1] at hw; exact .inl hw
  cases h with
  | callClient t job ht h => exact ⟨call rfl rfl rfl, fun _ h => .inl h, fun _ h => .inl h⟩
  | callRunning w job hb h => exact ⟨call rfl rfl rfl, fun _ h => .inl h, fun _ h => .inl h⟩
  | lock t w h hm => exact ⟨fun u w hw => .inl (old hw rfl h (.inl rfl)), fun _ h => .inl h, fun _ h => .inl h⟩
  | start t w h =>
    refine ⟨fun u w hw => .inl (old hw (by split <;> rfl) h (.inl rfl)), fun y hy => .inl ?_, fun y hy => .inl ?_⟩
    · simp only [at_queue] at hy; split at hy <;> exact hy
    · simp only [at_bg] at hy
      split at hy
      · cases hy
      · exact hy
  | signal t w h =>
    refine ⟨fun u w hw => .inl (old hw (by split <;> rfl) h (.inl rfl)), fun y hy => .inl ?_, fun y hy => .inl ?_⟩
    · simp only [at_queue] at hy; split at hy <;> exact hy
    · simp only [at_bg] at hy
      split at hy
      · revert hy
        show y ∈ s.bg.signal.flight → _
        cases s.bg <;> exact fun h => h
      · exact hy
  | push t w h =>
    refine ⟨fun u w hw => .inl (old hw rfl h (.inl rfl)), fun y hy => ?_, fun _ h => .inl h⟩
    rcases List.mem_append.1 hy with hy | hy
    · exact .inl hy
    · rw [List.mem_singleton.1 hy]
      exact .inr ⟨t, by rw [h]; rfl, c.crit t (by rw [h]; rfl)⟩
  | unlock t w h => exact ⟨fun u w hw => .inl (old hw rfl h (.inl rfl)), fun _ h => .inl h, fun _ h => .inl h⟩
  | leave t w h => exact ⟨fun u w hw => .inl (old hw rfl h (.inr rfl)), fun _ h => .inl h, fun _ h => .inl h⟩
  | bgLock h hm => exact ⟨fun _ _ h => .inl h, fun _ h => .inl h, nofun⟩
  | bgCheck h => exact ⟨fun _ _ h => .inl h, fun _ h => .inl h, fun w hw => by (revert hw; simp only; split <;> exact nofun)⟩
  | bgWait h => exact ⟨fun _ _ h => .inl h, fun _ h => .inl h, nofun⟩
  | bgWake h => exact ⟨fun _ _ h => .inl h, fun _ h => .inl h, nofun⟩
  | bgWoken h hm => exact ⟨fun _ _ h => .inl h, fun _ h => .inl h, nofun⟩
  | bgPop w q h hq =>
    refine ⟨fun _ _ h => .inl h, fun y hy => .inl (by rw [hq]; exact List.mem_cons_of_mem _ hy), fun y hy => .inr ⟨?_, c.bcrit (by rw [h]; rfl)⟩⟩
    rw [hq, List.mem_singleton.1 hy]
    exact List.mem_cons_self
  | bgPopEmpty h hq => exact ⟨fun _ _ h => .inl h, fun _ h => .inl h, nofun⟩
  | bgUnlock w h => exact ⟨fun _ _ h => .inl h, fun _ h => .inl h, fun y hy => .inl (by rw [h]; exact hy)⟩
  | bgCall w h => exact ⟨fun _ _ h => .inl h, fun _ h => .inl h, nofun⟩
  | bgDone w h h0 => exact ⟨fun _ _ h => .inl h, fun _ h => .inl h, nofun⟩

theorem told (x : Exec Job) : ∀ n, Told x n := by
  intro n
  induction n with
  | zero =>
    constructor <;> (rw [x.start]; exact nofun)
  | succ n ih =>
    have tn := turn x n
    rcases x.next n with ⟨-, h, -, -⟩ | ⟨-, h⟩
    · constructor
      · intro t w hw
        rw [h] at hw
        obtain ⟨i, h1, h2⟩ := ih.pc t w hw
        exact ⟨i, h1, h2.mono (Nat.le_succ n)⟩
      · intro w hw
        rw [h] at hw
        obtain ⟨i, h1, h2⟩ := ih.queue w hw
        exact ⟨i, h1, h2.step tn⟩
      · intro w hw
        rw [h] at hw
        obtain ⟨i, h1, h2⟩ := ih.flight w hw
        exact ⟨i, h1, h2.mono (Nat.le_succ n)⟩
    · obtain ⟨s1, s2, s3⟩ := sources (exec_ctl x n) h
      constructor
      · intro t w hw
        rcases s1 t w hw with h | ⟨h1, h2⟩
        · obtain ⟨i, h1, h2⟩ := ih.pc t w h
          exact ⟨i, h1, h2.mono (Nat.le_succ n)⟩
        · exact ⟨n, ⟨t, h2⟩, .self h1⟩
      · intro w hw
        rcases s2 w hw with h | ⟨t, h1, h2⟩
        · obtain ⟨i, h1, h2⟩ := ih.queue w h
          exact ⟨i, h1, h2.step tn⟩
        · obtain ⟨i, h3, h4⟩ := ih.pc t w h1
          exact ⟨i, h3, Has.step (.inr ⟨t, h2, h4⟩) tn⟩
      · intro w hw
        rcases s3 w hw with h | ⟨h1, h2⟩
        · obtain ⟨i, h1, h2⟩ := ih.flight w h
          exact ⟨i, h1, h2.mono (Nat.le_succ n)⟩
        · obtain ⟨i, h3, h4⟩ := ih.queue w h1
          exact ⟨i, h3, ((guarded x n).knows h4 h2).mono (Nat.le_succ n)⟩

/-- The call with a number is one step. -/
theorem call_once (x : Exec Job) {i i' t t' id : Nat} {job job' : Job} (h : x.ev i = some (.call t id job))
    (h' : x.ev i' = some (.call t' id job')) : i = i' := by
  have key : ∀ {a b u u' : Nat} {y y' : Job}, x.ev a = some (.call u id y) → x.ev b = some (.call u' id y') → ¬ a < b := by
    intro a b u u' y y' ha hb hlt
    obtain ⟨σ, ran, ho⟩ := run_ord (exec_run x (b + 1))
    have := ho.distinct
    unfold DistinctIds at this
    rw [show x.events (b + 1) = x.events b ++ (x.ev b).toList from rfl, hb, List.filterMap_append, List.nodup_append] at this
    refine this.2.2 id ?_ id (by simp) rfl
    rw [List.mem_filterMap]
    exact ⟨_, events_mem x ha hlt, rfl⟩
  have h1 := key h h'
  have h2 := key h' h
  omega

theorem call_before_run (x : Exec Job) {i j t id : Nat} {job job' : Job} (h : x.ev i = some (.call t id job))
    (h' : x.ev j = some (.run id job')) : HappensBefore x.sync i j := by
  have key : ∃ w, w ∈ (x.state j).bg.flight ∧ w.id = id ∧ x.who j = some 0 := by
    rcases x.next j with ⟨-, -, -, he⟩ | ⟨-, hs⟩
    · rw [h'] at he; cases he
    · rw [h'] at hs
      generalize x.state j = s at hs
      generalize x.state (j + 1) = s' at hs
      generalize x.who j = who at hs
      cases hs with
      | bgCall w hb => exact ⟨w, by rw [hb]; exact List.mem_cons_self, rfl, rfl⟩
  obtain ⟨w, hw, rfl, h0⟩ := key
  obtain ⟨i', ⟨u, hc⟩, hk⟩ := (told x j).flight w hw
  rw [call_once x h hc]
  exact hk.before h0

end Sched
end Lsmdb
