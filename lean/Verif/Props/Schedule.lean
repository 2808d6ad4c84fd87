import Verif.Proof.Schedule3

/-!
# C59: scheduled functions run exactly once, in order
-/

namespace Lsmdb
namespace Sched

variable {Job : Type}

/-- C59: in every history the functions that have begun to run are, in this order, the first ones of an order of
the calls that explains the history (each call at most once, every call that has returned, and calls that did not
overlap in the order in which they were made), each run with the function and argument of its call. -/
theorem C59_order {es : List (Ev Job)} {s : Sys Job} (h : Run es s) :
    (∃ order, Explains order es ∧ runs es <+: order) ∧ SameJob es ∧ DistinctIds es := by
  obtain ⟨σ, ran, ho⟩ := run_ord h
  refine ⟨⟨σ.map (·.id), ⟨ho.nodup, ?_, ho.returned, ho.realtime⟩, ?_⟩, ?_, ho.distinct⟩
  · intro id hid
    rw [List.mem_map] at hid
    obtain ⟨w, hw, rfl⟩ := hid
    obtain ⟨t, ht⟩ := ho.called w hw
    exact ⟨t, _, ht⟩
  · rw [ho.runs, ho.split, List.map_append]
    exact List.prefix_append _ _
  · intro id job hr
    obtain ⟨w, hw, rfl, rfl⟩ := ho.ranJob id job hr
    exact ho.called w (by rw [ho.split]; exact List.mem_append_left _ hw)

/-- C59: one function at a time: each has returned before the next begins. -/
theorem C59_serial {es : List (Ev Job)} {s : Sys Job} (h : Run es s) : ∃ o, Serial es o := by
  obtain ⟨σ, ran, ho⟩ := run_ord h
  exact ⟨_, ho.serial⟩

/-- C59: the background thread never takes work from an empty queue. -/
theorem C59_defined {es : List (Ev Job)} {s : Sys Job} (h : Run es s) : s.bg ≠ .undefined := (run_ctl h).ok

/-- C59: as long as the function of a call that has returned has not begun, the background thread does not sleep. -/
theorem C59_awake {es : List (Ev Job)} {s : Sys Job} (h : Run es s) (t id : Nat) (hret : Ev.ret t id ∈ es) (hrun : id ∉ runs es) :
    s.bg ≠ .asleep ∧ s.bg ≠ .wait ∧ s.bg ≠ .none := by
  obtain ⟨σ, ran, ho⟩ := run_ord h
  have hc := run_ctl h
  have hm := ho.returned t id hret
  have hq : ∀ b, s.bg = b → b.flight = [] → s.queue ≠ [] := by
    intro b hb hfl hq
    rw [ho.split, hb, hfl, hq] at hm
    simp only [List.append_nil] at hm
    rw [← ho.runs] at hm
    exact hrun hm
  refine ⟨fun h => hq _ h rfl (hc.asleep h), fun h => hq _ h rfl (hc.waits h), fun h => hq _ h rfl ?_⟩
  cases hst : s.started with
  | false => exact (hc.fresh hst).2.1
  | true => exact absurd h (hc.begun hst)

/-- C59: in every fair execution every call of Schedule returns and its function is run, provided that functions
return. -/
theorem C59_runs (x : Exec Job) (hf : FairThreads x) (hr : FunctionsReturn x) (i t id : Nat) (job : Job)
    (h : x.ev i = some (.call t id job)) :
    (∃ j, i ≤ j ∧ x.ev j = some (.ret t id)) ∧ ∃ j, i ≤ j ∧ x.ev j = some (.run id job) := by
  obtain ⟨j, hij, hj⟩ := returns x hf _ _ _ (called_lock x h)
  refine ⟨⟨j, by omega, hj⟩, ?_⟩
  obtain ⟨σ, ran, ho⟩ := run_ord (exec_run x (j + 1))
  have hm := ho.returned t id (events_mem x hj (Nat.lt_succ_self j))
  rw [List.mem_iff_getElem] at hm
  obtain ⟨m, hlt, hget⟩ := hm
  rw [List.length_map] at hlt
  rw [List.getElem_map] at hget
  obtain ⟨k, σ', ran', g1, ⟨l, g2⟩, g3⟩ := all_run x hf hr m _ (j + 1) σ ran (Nat.le_refl _) ho hlt
  have hid : (ran'.map (·.id))[m]'(by simpa using g3) = id := by
    rw [List.getElem_map]
    have e1 : σ'[m]? = some ran'[m] := by
      rw [g1.split, List.getElem?_append_left g3, List.getElem?_eq_getElem g3]
    have e2 : σ'[m]? = some σ[m] := by
      rw [← g2, List.getElem?_append_left hlt, List.getElem?_eq_getElem hlt]
    rw [e1] at e2
    injection e2 with e2
    rw [e2, hget]
  have hmem : id ∈ runs (x.events k) := by
    rw [g1.runs, ← hid]; exact List.getElem_mem _
  unfold runs at hmem
  rw [List.mem_filterMap] at hmem
  obtain ⟨e, he, hee⟩ := hmem
  cases e with
  | call _ _ _ => exact nomatch hee
  | ret _ _ => exact nomatch hee
  | done _ => exact nomatch hee
  | run id' job' =>
    simp only [Option.some.injEq] at hee
    subst hee
    obtain ⟨l, hl, hev⟩ := mem_events x he
    -- the run is of the job of the call, and not before it
    have hsame := (C59_order (exec_run x (l + 1))).2.1 id' job' (events_mem x hev (Nat.lt_succ_self l))
    obtain ⟨t', ht'⟩ := hsame
    obtain ⟨i', hi', hcall⟩ := mem_events x ht'
    obtain ⟨σ2, ran2, ho2⟩ := run_ord (exec_run x (max i l + 1))
    have hu := ho2.uniq t t' id' job job' (events_mem x h (by omega)) (events_mem x hcall (by omega))
    rw [hu.2] at *
    have hii : i = i' := by
      rcases Nat.lt_trichotomy i i' with hlt' | heq | hlt'
      · have := (C59_order (exec_run x (i' + 1))).2.2
        exfalso
        unfold DistinctIds at this
        rw [show x.events (i' + 1) = x.events i' ++ (x.ev i').toList from rfl, hcall, List.filterMap_append, List.nodup_append] at this
        refine this.2.2 id' ?_ id' (by simp) rfl
        rw [List.mem_filterMap]
        exact ⟨_, events_mem x h hlt', rfl⟩
      · exact heq
      · have := (C59_order (exec_run x (i + 1))).2.2
        exfalso
        unfold DistinctIds at this
        rw [show x.events (i + 1) = x.events i ++ (x.ev i).toList from rfl, h, List.filterMap_append, List.nodup_append] at this
        refine this.2.2 id' ?_ id' (by simp) rfl
        rw [List.mem_filterMap]
        exact ⟨_, events_mem x hcall hlt', rfl⟩
    refine ⟨l, ?_, hev⟩
    by_contra hlt'
    have : i' ≠ l := fun h => by rw [h, hev] at hcall; exact nomatch hcall
    omega

/-- One call by thread 1, from the beginning until the background thread sleeps again. -/
def demo : Nat → Sys Nat × Option Nat × Option (Ev Nat)
  | 0 => (Sys.init, some 1, some (.call 1 0 7))
  | 1 => (({ Sys.init with calls := 1 }).at 1 (.lock ⟨0, 7⟩), some 1, none)
  | 2 => (⟨some 1, [], false, .none, fun u => if u = 1 then .start ⟨0, 7⟩ else .out, 1⟩, some 1, none)
  | 3 => (⟨some 1, [], true, .lock, fun u => if u = 1 then .signal ⟨0, 7⟩ else .out, 1⟩, some 1, none)
  | 4 => (⟨some 1, [], true, .lock, fun u => if u = 1 then .push ⟨0, 7⟩ else .out, 1⟩, some 1, none)
  | 5 => (⟨some 1, [⟨0, 7⟩], true, .lock, fun u => if u = 1 then .unlock ⟨0, 7⟩ else .out, 1⟩, some 1, none)
  | 6 => (⟨none, [⟨0, 7⟩], true, .lock, fun u => if u = 1 then .leave ⟨0, 7⟩ else .out, 1⟩, some 1, some (.ret 1 0))
  | 7 => (⟨none, [⟨0, 7⟩], true, .lock, fun _ => .out, 1⟩, some 0, none)
  | 8 => (⟨some 0, [⟨0, 7⟩], true, .check, fun _ => .out, 1⟩, some 0, none)
  | 9 => (⟨some 0, [⟨0, 7⟩], true, .pop, fun _ => .out, 1⟩, some 0, none)
  | 10 => (⟨some 0, [], true, .unlock ⟨0, 7⟩, fun _ => .out, 1⟩, some 0, none)
  | 11 => (⟨none, [], true, .call ⟨0, 7⟩, fun _ => .out, 1⟩, some 0, some (.run 0 7))
  | 12 => (⟨none, [], true, .running ⟨0, 7⟩, fun _ => .out, 1⟩, some 0, some (.done 0))
  | 13 => (⟨none, [], true, .lock, fun _ => .out, 1⟩, some 0, none)
  | 14 => (⟨some 0, [], true, .check, fun _ => .out, 1⟩, some 0, none)
  | 15 => (⟨some 0, [], true, .wait, fun _ => .out, 1⟩, some 0, none)
  | _ + 16 => (⟨none, [], true, .asleep, fun _ => .out, 1⟩, none, none)

theorem at_const (s : Sys Nat) (t : Nat) (p q : Cpc Nat) (h : s.pc = fun u => if u = t then q else .out) :
    s.at t p = { s with pc := fun u => if u = t then p else .out } := by
  unfold Sys.at
  congr 1
  funext u
  by_cases hu : u = t <;> simp [h, hu]

theorem demo_step (i : Nat) (hi : i < 16) : Step (demo i).1 (demo i).2.1 (demo i).2.2 (demo (i + 1)).1 := by
  have out : (fun u : Nat => if u = 1 then Cpc.out else (Cpc.out : Cpc Nat)) = fun _ => .out := by funext u; simp
  match i, hi with
  | 0, _ => exact .callClient _ 1 7 (by decide) rfl
  | 1, _ =>
    have := Step.lock (demo 1).1 1 ⟨0, 7⟩ rfl rfl
    rw [at_const _ 1 _ (.lock ⟨0, 7⟩) rfl] at this
    exact this
  | 2, _ =>
    have := Step.start (demo 2).1 1 ⟨0, 7⟩ rfl
    rw [at_const _ 1 _ (.start ⟨0, 7⟩) rfl] at this
    exact this
  | 3, _ =>
    have := Step.signal (demo 3).1 1 ⟨0, 7⟩ rfl
    rw [at_const _ 1 _ (.signal ⟨0, 7⟩) rfl] at this
    exact this
  | 4, _ =>
    have := Step.push (demo 4).1 1 ⟨0, 7⟩ rfl
    rw [at_const _ 1 _ (.push ⟨0, 7⟩) rfl] at this
    exact this
  | 5, _ =>
    have := Step.unlock (demo 5).1 1 ⟨0, 7⟩ rfl
    rw [at_const _ 1 _ (.unlock ⟨0, 7⟩) rfl] at this
    exact this
  | 6, _ =>
    have := Step.leave (demo 6).1 1 ⟨0, 7⟩ rfl
    rw [at_const _ 1 _ (.leave ⟨0, 7⟩) rfl, out] at this
    exact this
  | 7, _ => exact .bgLock _ rfl rfl
  | 8, _ => exact .bgCheck _ rfl
  | 9, _ => exact .bgPop _ ⟨0, 7⟩ [] rfl rfl
  | 10, _ => exact .bgUnlock _ _ rfl
  | 11, _ => exact Step.bgCall (demo 11).1 ⟨0, 7⟩ rfl
  | 12, _ => exact Step.bgDone (demo 12).1 ⟨0, 7⟩ rfl rfl
  | 13, _ => exact .bgLock _ rfl rfl
  | 14, _ => exact .bgCheck _ rfl
  | 15, _ => exact .bgWait _ rfl
  | n + 16, h => exact absurd h (by omega)

theorem demo_end (i : Nat) (hi : 16 ≤ i) : demo i = (⟨none, [], true, .asleep, fun _ => .out, 1⟩, none, none) := by
  obtain ⟨k, rfl⟩ := Nat.exists_eq_add_of_le hi
  rw [Nat.add_comm]; rfl

/-- The hypotheses of `C59_runs` are met. -/
example : ∃ x : Exec Nat, FairThreads x ∧ FunctionsReturn x ∧ x.ev 0 = some (.call 1 0 7) := by
  refine ⟨⟨fun i => (demo i).1, fun i => (demo i).2.1, fun i => (demo i).2.2, fun i => 16 ≤ i, rfl, ?_⟩, ?_, ?_, rfl⟩
  · intro i
    by_cases hi : 16 ≤ i
    · left; simp only [demo_end i hi, demo_end (i + 1) (by omega), and_self, and_true]; exact hi
    · right; exact ⟨hi, demo_step i (by omega)⟩
  · intro t i h
    exfalso
    obtain ⟨k, hk, e, s', hs, _⟩ := h (max i 16) (by omega)
    simp only [demo_end k (by omega)] at hs
    cases hs <;> simp_all [Own]
  · intro i id hrun _
    obtain ⟨job, hrun⟩ := hrun
    by_cases hi : 16 ≤ i
    · simp only [demo_end i hi] at hrun; exact nomatch hrun
    · refine ⟨12, ?_, ?_⟩ <;> (match i, hi with
        | 0, _ | 1, _ | 2, _ | 3, _ | 4, _ | 5, _ | 6, _ | 7, _ | 8, _ | 9, _ | 10, _ | 12, _ | 13, _ | 14, _ | 15, _ => exact nomatch hrun
        | 11, _ => first | decide | (injection hrun with hrun; injection hrun with h1 _; subst h1; rfl))

/-- A history for `C59_order` in which two calls overlap and are run in the order in which they took the mutex. -/
example : ∃ s : Sys Nat, Run [.call 1 0 7, .call 2 1 8, .ret 2 1, .ret 1 0, .run 1 8] s := by
  have r := Run.nil (Job := Nat)
  have r := r.step (Step.callClient _ 1 7 (by decide) rfl)
  have r := r.step (Step.callClient _ 2 8 (by decide) rfl)
  have r := r.step (Step.lock _ 2 ⟨1, 8⟩ rfl rfl)
  have r := r.step (Step.start _ 2 ⟨1, 8⟩ rfl)
  have r := r.step (Step.signal _ 2 ⟨1, 8⟩ rfl)
  have r := r.step (Step.push _ 2 ⟨1, 8⟩ rfl)
  have r := r.step (Step.unlock _ 2 ⟨1, 8⟩ rfl)
  have r := r.step (Step.leave _ 2 ⟨1, 8⟩ rfl)
  have r := r.step (Step.lock _ 1 ⟨0, 7⟩ rfl rfl)
  have r := r.step (Step.start _ 1 ⟨0, 7⟩ rfl)
  have r := r.step (Step.signal _ 1 ⟨0, 7⟩ rfl)
  have r := r.step (Step.push _ 1 ⟨0, 7⟩ rfl)
  have r := r.step (Step.unlock _ 1 ⟨0, 7⟩ rfl)
  have r := r.step (Step.leave _ 1 ⟨0, 7⟩ rfl)
  have r := r.step (Step.bgLock _ rfl rfl)
  have r := r.step (Step.bgCheck _ rfl)
  have r := r.step (Step.bgPop _ ⟨1, 8⟩ [⟨0, 7⟩] rfl rfl)
  have r := r.step (Step.bgUnlock _ ⟨1, 8⟩ rfl)
  have r := r.step (Step.bgCall _ ⟨1, 8⟩ rfl)
  exact ⟨_, r⟩

end Sched
end Lsmdb
