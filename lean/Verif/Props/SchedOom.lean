import Verif.Proof.SchedOom

/-!
# C90: `Schedule` when the system is out of threads or memory
-/

namespace Lsmdb
namespace Sched

variable {Job : Type}

/-- C90 is false: once a call of Schedule has thrown, no call that begins later ever returns or has its function
run, at most one more function is run whatever has been scheduled, and nothing ever throws again (every thread that
calls Schedule waits for ever). -/
theorem C90_throw_stops {pre post : List (EvO Job)} {t id : Nat} {why : Lack} {s : Sys Job}
    (h : RunO (pre ++ .threw t id why :: post) s) :
    (∀ k, Called post k → ¬ Returned (pre ++ post) k ∧ ¬ HasRun (pre ++ post) k) ∧ (runs (seen post)).length ≤ 1 ∧
      (∀ k, ¬ Threw post k) ∧ (why = .threads → ∀ k, ¬ HasRun (pre ++ post) k) := by
  generalize hes : pre ++ .threw t id why :: post = es at h
  have hsh := shape_of h
  cases hsh with
  | @good es0 _ hr =>
    exfalso
    have : EvO.threw t id why ∈ es0.map EvO.ok := by rw [← hes]; simp
    rw [List.mem_map] at this
    obtain ⟨_, _, h⟩ := this
    exact nomatch h
  | @bad a b _ fl σ ran s0 h0 t' w why' hfl hw ha ho hn =>
    obtain ⟨rfl, rfl, rfl, rfl, rfl⟩ := one_threw hes.symm
    obtain ⟨σ0, ran0, ho0⟩ := run_ord h0
    have hd := ho.distinct
    have hnew : ∀ u k job, Ev.call u k job ∈ b → ∀ v job', Ev.call v k job' ∉ a := by
      intro u k job hb v job' hva
      unfold DistinctIds at hd
      rw [List.filterMap_append, List.nodup_append] at hd
      refine hd.2.2 k ?_ k ?_ rfl
      · rw [List.mem_filterMap]; exact ⟨_, hva, rfl⟩
      · rw [List.mem_filterMap]; exact ⟨_, hb, rfl⟩
    have hfl1 : fl.length ≤ 1 := by rw [hfl]; cases s0.bg <;> simp [Bpc.flight]
    have hruns := ha.flight
    have mem : ∀ e : Ev Job, EvO.ok e ∈ a.map EvO.ok ++ b.map EvO.ok ↔ e ∈ a ∨ e ∈ b := by
      intro e; simp
    refine ⟨?_, ?_, ?_, ?_⟩
    · rintro k ⟨u, job, hc⟩
      have hc : Ev.call u k job ∈ b := by simpa using hc
      constructor
      · rintro ⟨v, hv⟩
        rw [mem] at hv
        rcases hv with hv | hv
        · have := ho0.returned v k hv
          rw [List.mem_map] at this
          obtain ⟨x, hx, rfl⟩ := this
          obtain ⟨u', hu'⟩ := ho0.called x hx
          exact hnew u _ job hc _ _ hu'
        · obtain ⟨u', job', hu'⟩ := ha.rets v k hv
          exact hnew u k job hc _ _ hu'
      · rintro ⟨job', hv⟩
        rw [mem] at hv
        have key : ∀ x ∈ σ0, x.id ≠ k := by
          rintro x hx rfl
          obtain ⟨u', hu'⟩ := ho0.called x hx
          exact hnew u _ job hc _ _ hu'
        rcases hv with hv | hv
        · obtain ⟨x, hx, hxk, _⟩ := ho0.ranJob k job' hv
          exact key x (by rw [ho0.split]; exact List.mem_append_left _ hx) hxk
        · have : k ∈ runs b := by unfold runs; rw [List.mem_filterMap]; exact ⟨_, hv, rfl⟩
          have : k ∈ fl.map (·.id) := by rw [← hruns]; exact List.mem_append_left _ this
          rw [List.mem_map] at this
          obtain ⟨x, hx, hxk⟩ := this
          exact key x (by rw [ho0.split, ← hfl]; simp [hx]) hxk
    · rw [seen_map]
      have := congrArg List.length hruns
      rw [List.length_append, List.length_map, List.length_map] at this
      omega
    · rintro k ⟨u, y, hk⟩
      rw [List.mem_map] at hk
      obtain ⟨_, _, h⟩ := hk
      exact nomatch h
    · rintro hwhy k ⟨job, hk⟩
      rw [mem] at hk
      have hst := hw hwhy
      rcases hk with hk | hk
      · have : k ∈ runs a := by unfold runs; rw [List.mem_filterMap]; exact ⟨_, hk, rfl⟩
        rw [fresh_runs h0 hst] at this
        exact nomatch this
      · have : k ∈ runs b := by unfold runs; rw [List.mem_filterMap]; exact ⟨_, hk, rfl⟩
        have : k ∈ fl.map (·.id) := by rw [← hruns]; exact List.mem_append_left _ this
        rw [hfl, ((run_ctl h0).fresh hst).1] at this
        exact nomatch this

/-- Thread 1 schedules a function and returns; then thread 2 is about to put another one into the queue. -/
theorem second_call (j : Job) : ∃ s : Sys Job, Run [.call 1 0 j, .ret 1 0, .call 2 1 j] s ∧ s.pc 2 = .push ⟨1, j⟩ ∧ s.bg = .lock ∧ s.pc 3 = .out ∧ s.calls = 2 := by
  have r := Run.nil (Job := Job)
  have r := r.step (Step.callClient _ 1 j (by decide) rfl)
  have r := r.step (Step.lock _ 1 ⟨0, j⟩ rfl rfl)
  have r := r.step (Step.start _ 1 ⟨0, j⟩ rfl)
  have r := r.step (Step.signal _ 1 ⟨0, j⟩ rfl)
  have r := r.step (Step.push _ 1 ⟨0, j⟩ rfl)
  have r := r.step (Step.unlock _ 1 ⟨0, j⟩ rfl)
  have r := r.step (Step.leave _ 1 ⟨0, j⟩ rfl)
  have r := r.step (Step.callClient _ 2 j (by decide) rfl)
  have r := r.step (Step.lock _ 2 ⟨1, j⟩ rfl rfl)
  have r := r.step (Step.start _ 2 ⟨1, j⟩ rfl)
  have r := r.step (Step.signal _ 2 ⟨1, j⟩ rfl)
  exact ⟨_, r, rfl, rfl, rfl, rfl⟩

/-- C90 is false: a function whose call of Schedule has returned is lost when a later call throws. -/
theorem C90_returned_lost [Inhabited Job] : ¬ Survives Job := by
  intro hs
  obtain ⟨s, hr, hp, hb, -⟩ := second_call (default : Job)
  obtain ⟨σ, ran, ho⟩ := run_ord hr
  have hst : s.started = true := by
    by_contra hne
    have := ((run_ctl hr).fresh (by simpa using hne)).2.2 2
    rw [hp] at this; exact nomatch this
  have ha := (after_start hr ho (t := 2) (by rw [hp]; rfl) (by rw [hp]; rfl) (by rw [hp]; rfl) rfl rfl rfl hst rfl rfl).1
  obtain ⟨more, s', hf, job, hrun⟩ := (hs _ _ ((run_runO hr).step (.noMemory s 2 _ hp))).1 0 ⟨1, by simp⟩
  obtain ⟨p, rfl, h2⟩ := after_from ha hf
  have hfl := h2.flight
  rw [hb] at hfl
  have : Ev.run 0 job ∈ p := by simpa using hrun
  have : 0 ∈ runs ([] ++ p) := by unfold runs; rw [List.nil_append, List.mem_filterMap]; exact ⟨_, this, rfl⟩
  have h3 : (0 : Nat) ∈ ([] : List Nat) := by
    rw [show ([] : List Nat) = runs ([] ++ p) ++ (s'.bg.flight).map (·.id) from hfl.symm]
    exact List.mem_append_left _ this
  exact nomatch h3

/-- C90, what holds: in every history, whatever threw in it, the functions that have begun to run are the first
ones of an order of calls that explains the history and has no call that threw; each runs with the function and
argument of its call, one at a time; and nothing is taken from an empty queue.  Missing: that calls return and
functions run after an exception (`C90_throw_stops`). -/
theorem C90_safety_partial {es : List (EvO Job)} {s : Sys Job} (h : RunO es s) :
    (∃ order, Explains order (seen es) ∧ runs (seen es) <+: order ∧ ∀ k, Threw es k → k ∉ order) ∧ SameJob (seen es) ∧
      DistinctIds (seen es) ∧ (∃ o, Serial (seen es) o) ∧ s.bg ≠ .undefined := by
  have key : ∀ (l : List (Ev Job)) (σ ran : List (Item Job)), Ord l s σ ran →
      (Explains (σ.map (·.id)) l ∧ runs l <+: σ.map (·.id)) ∧ SameJob l ∧ DistinctIds l ∧ ∃ o, Serial l o := by
    intro l σ ran ho
    refine ⟨⟨⟨ho.nodup, ?_, ho.returned, ho.realtime⟩, ?_⟩, ?_, ho.distinct, _, ho.serial⟩
    · intro id hid
      rw [List.mem_map] at hid
      obtain ⟨w, hw, rfl⟩ := hid
      obtain ⟨t, ht⟩ := ho.called w hw
      exact ⟨t, _, ht⟩
    · rw [ho.runs, ho.split, List.map_append]
      exact List.prefix_append _ _
    · intro id job hr
      obtain ⟨w, hw, rfl, rfl⟩ := ho.ranJob id job hr
      exact ho.called w (by rw [ho.split]; exact List.mem_append_left _ hw)
  have hsh := shape_of h
  cases hsh with
  | @good l _ hr =>
    obtain ⟨σ, ran, ho⟩ := run_ord hr
    obtain ⟨⟨h1, h2⟩, h3, h4, h5⟩ := key _ _ _ ho
    rw [seen_map]
    refine ⟨⟨_, h1, h2, ?_⟩, h3, h4, h5, (run_ctl hr).ok⟩
    rintro k ⟨u, y, hk⟩
    rw [List.mem_map] at hk
    obtain ⟨_, _, h⟩ := hk
    exact nomatch h
  | @bad a b _ fl σ ran s0 h0 t' w why' hfl hw ha ho hn =>
    obtain ⟨⟨h1, h2⟩, h3, h4, h5⟩ := key _ _ _ ho
    have e : seen (a.map .ok ++ EvO.threw t' w.id why' :: b.map .ok) = a ++ b := by
      rw [seen_append, seen_map]
      exact congrArg (a ++ ·) (seen_map b)
    rw [e]
    refine ⟨⟨_, h1, h2, ?_⟩, h3, h4, h5, ?_⟩
    · rintro k ⟨u, y, hk⟩
      simp only [List.mem_append, List.mem_map, List.mem_cons, EvO.threw.injEq, reduceCtorEq, and_false, exists_false, or_false, false_or] at hk
      rw [hk.2.1]; exact hn
    · exact ha.stuck.ok

/-- A history for `C90_throw_stops` and `C90_safety_partial`: a call has returned, the next one throws, and a third
begins. -/
example : ∃ s : Sys Nat, RunO ([.ok (.call 1 0 7), .ok (.ret 1 0), .ok (.call 2 1 7)] ++ .threw 2 1 .memory :: [.ok (.call 3 2 9)]) s := by
  obtain ⟨s, hr, hp, -, h3, hc⟩ := second_call 7
  have r := ((run_runO hr).step (.noMemory s 2 _ hp)).step (.good (Step.callClient _ 3 9 (by decide) h3))
  rw [at_calls, hc] at r
  exact ⟨_, r⟩

/-- A history with no thread to be had. -/
example : ∃ s : Sys Nat, RunO ([.ok (.call 1 0 7)] ++ .threw 1 0 .threads :: [.ok (.call 2 1 8)]) s := by
  have r := RunO.nil (Job := Nat)
  have r := r.step (.good (Step.callClient _ 1 7 (by decide) rfl))
  have r := r.step (.good (Step.lock _ 1 ⟨0, 7⟩ rfl rfl))
  have r := r.step (.noThread _ 1 ⟨0, 7⟩ rfl rfl)
  have r := r.step (.good (Step.callClient _ 2 8 (by decide) rfl))
  exact ⟨_, r⟩

end Sched
end Lsmdb
