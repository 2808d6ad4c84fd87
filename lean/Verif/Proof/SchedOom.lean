import Verif.Proof.Schedule2
import Mathlib.Tactic.ByContra
import Verif.Spec.SchedOom

/-! After the first exception nobody gets the mutex any more. -/

namespace Lsmdb
namespace Sched

variable {Job : Type}

/-- The mutex is locked and nobody is going to unlock it. -/
structure Stuck (s : Sys Job) : Prop where
  held : s.mutex ≠ none
  started : s.started = true
  crit : ∀ t, (s.pc t).crit = false
  bcrit : s.bg.crit = false
  ok : s.bg ≠ .undefined

theorem seen_append (a b : List (EvO Job)) : seen (a ++ b) = seen a ++ seen b := List.filterMap_append
theorem seen_ok (e : Option (Ev Job)) : seen (e.map EvO.ok).toList = e.toList := by cases e <;> rfl
theorem mem_seen {es : List (EvO Job)} {e : Ev Job} : e ∈ seen es ↔ .ok e ∈ es := by
  unfold seen
  rw [List.mem_filterMap]
  constructor
  · rintro ⟨x, hx, h⟩
    cases x with
    | ok x => injection h with h; rwa [h] at hx
    | threw _ _ _ => exact nomatch h
  · exact fun h => ⟨_, h, rfl⟩

theorem stuck_step {s s' : Sys Job} {who : Option Nat} {e : Option (Ev Job)} (hk : Stuck s) (h : Step s who e s') :
    Stuck s' := by
  obtain ⟨h1, h2, h3, h4, h5⟩ := hk
  cases h with
  | callClient t job ht h =>
    refine ⟨h1, h2, fun u => ?_, h4, h5⟩
    rw [at_pc]; split
    · rfl
    · exact h3 u
  | callRunning w job hb h =>
    refine ⟨h1, h2, fun u => ?_, h4, h5⟩
    rw [at_pc]; split
    · rfl
    · exact h3 u
  | lock t w h hm => exact absurd hm h1
  | start t w h => have := h3 t; rw [h] at this; exact nomatch this
  | signal t w h => have := h3 t; rw [h] at this; exact nomatch this
  | push t w h => have := h3 t; rw [h] at this; exact nomatch this
  | unlock t w h => have := h3 t; rw [h] at this; exact nomatch this
  | leave t w h =>
    refine ⟨h1, h2, fun u => ?_, h4, h5⟩
    rw [at_pc]; split
    · rfl
    · exact h3 u
  | bgLock h hm => exact absurd hm h1
  | bgCheck h => rw [h] at h4; exact nomatch h4
  | bgWait h => rw [h] at h4; exact nomatch h4
  | bgWake h => exact ⟨h1, h2, h3, rfl, nofun⟩
  | bgWoken h hm => exact absurd hm h1
  | bgPop w q h hq => rw [h] at h4; exact nomatch h4
  | bgPopEmpty h hq => rw [h] at h4; exact nomatch h4
  | bgUnlock w h => rw [h] at h4; exact nomatch h4
  | bgCall w h => exact ⟨h1, h2, h3, rfl, nofun⟩
  | bgDone w h h0 => exact ⟨h1, h2, h3, rfl, nofun⟩

/-- What holds of a state after the exception: `es` is what was seen before it, `fl` the function that the
background thread had taken then, `post` what was seen since. -/
structure After (es : List (Ev Job)) (fl : List (Item Job)) (post : List (Ev Job)) (s : Sys Job) : Prop where
  stuck : Stuck s
  leave : ∀ t w, s.pc t = .leave w → ∃ u job, Ev.call u w.id job ∈ es
  rets : ∀ t id, Ev.ret t id ∈ post → ∃ u job, Ev.call u id job ∈ es
  flight : runs post ++ s.bg.flight.map (·.id) = fl.map (·.id)

theorem after_step {es post : List (Ev Job)} {fl : List (Item Job)} {s s' : Sys Job} {who : Option Nat}
    {e : Option (Ev Job)} (ha : After es fl post s) (h : Step s who e s') : After es fl (post ++ e.toList) s' := by
  obtain ⟨h1, h2, h3, h4⟩ := ha
  refine ⟨stuck_step h1 h, ?_, ?_, ?_⟩
  · intro t w hw
    cases h with
    | callClient t' job ht h =>
      rw [at_pc] at hw; split at hw
      · exact nomatch hw
      · exact h2 t w hw
    | callRunning w' job hb h =>
      rw [at_pc] at hw; split at hw
      · exact nomatch hw
      · exact h2 t w hw
    | leave t' w' h =>
      rw [at_pc] at hw; split at hw
      · exact nomatch hw
      · exact h2 t w hw
    | lock t' w' h hm => exact absurd hm h1.held
    | start t' w' h => have := h1.crit t'; rw [h] at this; exact nomatch this
    | signal t' w' h => have := h1.crit t'; rw [h] at this; exact nomatch this
    | push t' w' h => have := h1.crit t'; rw [h] at this; exact nomatch this
    | unlock t' w' h => have := h1.crit t'; rw [h] at this; exact nomatch this
    | _ => exact h2 t w hw
  · intro t id hm
    rw [List.mem_append] at hm
    rcases hm with hm | hm
    · exact h3 t id hm
    · cases h with
      | leave t' w' h =>
        simp only [Option.toList_some, List.mem_singleton, Ev.ret.injEq] at hm
        rw [hm.2]; exact h2 t' w' h
      | _ => simp at hm
  · unfold runs at h4 ⊢
    rw [List.filterMap_append, ← h4]
    have hb := h1.bcrit
    cases h with
    | callClient t' job ht h => simp
    | callRunning w' job hb h => simp
    | leave t' w' h => simp
    | lock t' w' h hm => exact absurd hm h1.held
    | start t' w' h => have := h1.crit t'; rw [h] at this; exact nomatch this
    | signal t' w' h => have := h1.crit t'; rw [h] at this; exact nomatch this
    | push t' w' h => have := h1.crit t'; rw [h] at this; exact nomatch this
    | unlock t' w' h => have := h1.crit t'; rw [h] at this; exact nomatch this
    | bgLock h hm => exact absurd hm h1.held
    | bgCheck h => rw [h] at hb; exact nomatch hb
    | bgWait h => rw [h] at hb; exact nomatch hb
    | bgWake h => simp [h, Bpc.flight]
    | bgWoken h hm => exact absurd hm h1.held
    | bgPop w q h hq => rw [h] at hb; exact nomatch hb
    | bgPopEmpty h hq => rw [h] at hb; exact nomatch hb
    | bgUnlock w h => rw [h] at hb; exact nomatch hb
    | bgCall w h => simp [h, Bpc.flight]
    | bgDone w h h0 => simp [h, Bpc.flight]

/-- The order of the calls is not touched by a thread that leaves without having put its item into the queue. -/
theorem Ord.drop {es : List (Ev Job)} {s s' : Sys Job} {σ ran : List (Item Job)} (h : Ord es s σ ran) (t : Nat)
    (h1 : s'.bg = s.bg) (h2 : s'.queue = s.queue) (h3 : s'.calls = s.calls) (h4 : s'.pc = s.pc) :
    Ord es (s'.at t .out) σ ran where
  split := by rw [at_bg, at_queue, h1, h2]; exact h.split
  runs := h.runs
  ranJob := h.ranJob
  less := by rw [at_calls, h3]; exact h.less
  uniq := h.uniq
  distinct := h.distinct
  item u w hw := by
    rw [at_pc, h4] at hw; split at hw
    · exact nomatch hw
    · exact h.item u w hw
  pre u w hw hp := by
    rw [at_pc, h4] at hw hp; split at hw
    · exact nomatch hw
    · rename_i hu; rw [if_neg hu] at hp; exact h.pre u w hw hp
  post u w hw hp := by
    rw [at_pc, h4] at hw hp; split at hw
    · exact nomatch hw
    · rename_i hu; rw [if_neg hu] at hp; exact h.post u w hw hp
  called := h.called
  nodup := h.nodup
  returned := h.returned
  realtime := h.realtime
  serial := by rw [at_bg, h1]; exact h.serial

theorem crit_false {s : Sys Job} (hc : Ctl s) {t : Nat} (ht : (s.pc t).crit = true) {s' : Sys Job} (h1 : s'.bg = s.bg)
    (h2 : s'.mutex = s.mutex) (h3 : s'.pc = s.pc) (h4 : s'.started = true) : Stuck (s'.at t .out) := by
  have hm := hc.crit t ht
  refine ⟨by rw [at_mutex, h2, hm]; exact nofun, h4, fun u => ?_, ?_, by rw [at_bg, h1]; exact hc.ok⟩
  · rw [at_pc, h3]; split
    · rfl
    · rename_i hu
      cases hcu : (s.pc u).crit with
      | false => rfl
      | true => have := hc.crit u hcu; rw [hm] at this; injection this with this; exact absurd this.symm hu
  · rw [at_bg, h1]
    cases hb : s.bg.crit with
    | false => rfl
    | true =>
      have h0 := hc.bcrit hb
      rw [hm] at h0; injection h0 with h0; subst h0
      have hr := hc.inner (by intro h; rw [h] at ht; exact nomatch ht)
      cases hbg : s.bg <;> rw [hbg] at hb hr <;> simp [Bpc.crit, Bpc.isRunning] at hb hr

/-- A history is without exception, or of the form before, exception, after. -/
inductive Shape : List (EvO Job) → Sys Job → Prop
  | good {es : List (Ev Job)} {s : Sys Job} (h : Run es s) : Shape (es.map .ok) s
  | bad {es post : List (Ev Job)} {s : Sys Job} {fl σ ran : List (Item Job)} (s0 : Sys Job) (h0 : Run es s0) (t : Nat)
      (w : Item Job) (why : Lack) (hfl : fl = s0.bg.flight) (hw : why = .threads → s0.started = false)
      (ha : After es fl post s) (ho : Ord (es ++ post) s σ ran) (hn : w.id ∉ σ.map (·.id)) :
      Shape (es.map .ok ++ .threw t w.id why :: post.map .ok) s

theorem after_start {es : List (Ev Job)} {s0 s' : Sys Job} {σ ran : List (Item Job)} (h : Run es s0)
    (ho : Ord es s0 σ ran) {t : Nat} {w : Item Job} (hi : (s0.pc t).item = some w) (hp : (s0.pc t).pre = true)
    (hc : (s0.pc t).crit = true) (h1 : s'.bg = s0.bg) (h2 : s'.mutex = s0.mutex) (h3 : s'.pc = s0.pc)
    (h4 : s'.started = true) (h5 : s'.queue = s0.queue) (h6 : s'.calls = s0.calls) :
    After es s0.bg.flight [] (s'.at t .out) ∧ Ord (es ++ []) (s'.at t .out) σ ran ∧ w.id ∉ σ.map (·.id) := by
  refine ⟨⟨crit_false (run_ctl h) hc h1 h2 h3 h4, ?_, nofun, ?_⟩, ?_, ?_⟩
  · intro u x hx
    rw [at_pc, h3] at hx
    split at hx
    · exact nomatch hx
    · exact ⟨_, _, ho.item u x (by rw [hx]; rfl)⟩
  · rw [at_bg, h1]; rfl
  · rw [List.append_nil]; exact ho.drop t h1 h5 h6 h3
  · intro hm
    rw [List.mem_map] at hm
    obtain ⟨x, hx, he⟩ := hm
    exact ho.pre t w hi hp x hx he

theorem map_ok_toList (e : Option (Ev Job)) : (e.map EvO.ok).toList = e.toList.map EvO.ok := by cases e <;> rfl

theorem shape_of {es : List (EvO Job)} {s : Sys Job} (h : RunO es s) : Shape es s := by
  induction h with
  | nil => exact .good (es := []) .nil
  | step h hs ih =>
    cases ih with
    | good hr =>
      cases hs with
      | good hs =>
        rw [map_ok_toList, ← List.map_append]
        exact .good (hr.step hs)
      | noThread t w hp hst =>
        obtain ⟨σ, ran, ho⟩ := run_ord hr
        obtain ⟨a1, a2, a3⟩ := after_start (s' := { ‹Sys Job› with started := true }) hr ho (t := t) (w := w) (by rw [hp]; rfl) (by rw [hp]; rfl) (by rw [hp]; rfl) rfl rfl rfl rfl rfl rfl
        exact .bad (post := []) _ hr t w .threads rfl (fun _ => hst) a1 a2 a3
      | noMemory t w hp =>
        obtain ⟨σ, ran, ho⟩ := run_ord hr
        have hst := (run_ctl hr).fresh
        obtain ⟨a1, a2, a3⟩ := after_start hr ho (t := t) (w := w) (by rw [hp]; rfl) (by rw [hp]; rfl) (by rw [hp]; rfl) rfl rfl rfl (by
          by_contra hne
          have := (hst (by simpa using hne)).2.2 t
          rw [hp] at this; exact nomatch this) rfl rfl
        exact .bad (post := []) _ hr t w .memory rfl nofun a1 a2 a3
    | bad s0 h0 t w why hfl hw ha ho hn =>
      cases hs with
      | good hs =>
        rw [map_ok_toList, List.append_assoc, List.cons_append, ← List.map_append]
        obtain ⟨x, y, hx, hnil⟩ := ord_step_weak (fun hst => by rw [ha.stuck.started] at hst; exact nomatch hst)
          (fun hb => by have := ha.stuck.bcrit; rw [hb] at this; exact nomatch this) ho hs
        have : x = [] := hnil fun t w hp => by have := ha.stuck.crit t; rw [hp] at this; exact nomatch this
        subst this
        rw [List.append_nil, List.append_assoc] at hx
        exact .bad s0 h0 t w why hfl hw (after_step ha hs) hx hn
      | noThread t w hp hst => have := ha.stuck.crit t; rw [hp] at this; exact nomatch this
      | noMemory t w hp => have := ha.stuck.crit t; rw [hp] at this; exact nomatch this

theorem runO_from {es more : List (EvO Job)} {s s' : Sys Job} (h : RunO es s) (h' : From s more s') : RunO (es ++ more) s' := by
  induction h' with
  | nil => rwa [List.append_nil]
  | step _ hs ih => rw [← List.append_assoc]; exact ih.step hs

/-- There is at most one exception in a history. -/
theorem one_threw {a b : List (Ev Job)} {pre post : List (EvO Job)} {t t' id id' : Nat} {why why' : Lack}
    (h : a.map .ok ++ EvO.threw t id why :: b.map .ok = pre ++ .threw t' id' why' :: post) :
    pre = a.map .ok ∧ t' = t ∧ id' = id ∧ why' = why ∧ post = b.map .ok := by
  have hno : ∀ (l : List (Ev Job)) (x : List (EvO Job)), l.map .ok ≠ x ++ .threw t' id' why' :: post := by
    intro l x he
    have : EvO.threw t' id' why' ∈ l.map EvO.ok := by rw [he]; simp
    rw [List.mem_map] at this
    obtain ⟨_, _, h⟩ := this
    exact nomatch h
  induction a generalizing pre with
  | nil =>
    cases pre with
    | nil => injection h with h1 h2; injection h1 with h3 h4 h5; exact ⟨rfl, h3.symm, h4.symm, h5.symm, h2.symm⟩
    | cons x pre => injection h with h1 h2; exact absurd h2 (hno _ _)
  | cons e a ih =>
    cases pre with
    | nil => injection h with h1 h2; exact nomatch h1
    | cons x pre =>
      injection h with h1 h2
      obtain ⟨g1, g2⟩ := ih h2
      exact ⟨by rw [g1, ← h1]; rfl, g2⟩

theorem seen_map (l : List (Ev Job)) : seen (l.map .ok) = l := by
  induction l with
  | nil => rfl
  | cons e l ih => show e :: seen (l.map .ok) = _; rw [ih]

/-- Before the thread is started nothing runs. -/
theorem fresh_runs {es : List (Ev Job)} {s : Sys Job} (h : Run es s) (hs : s.started = false) : runs es = [] := by
  induction h with
  | nil => rfl
  | @step s s' es who e h hst ih =>
    have hst0 : s.started = false := by
      cases hst with
      | start t w hp =>
        cases hh : s.started with
        | false => rfl
        | true => rw [hh] at hs; simp only [Bool.not_true, Bool.false_eq_true, if_false, at_started] at hs; rw [hh] at hs; exact hs
      | signal t w hp => split at hs <;> exact hs
      | _ => exact hs
    have hb := ((run_ctl h).fresh hst0).1
    unfold runs at ih ⊢
    rw [List.filterMap_append, ih hst0]
    cases hst with
    | bgCall w hw => rw [hb] at hw; exact nomatch hw
    | _ => rfl

/-- What holds after an exception goes on to hold. -/
theorem after_from {es post : List (Ev Job)} {fl : List (Item Job)} {s s' : Sys Job} {more : List (EvO Job)}
    (ha : After es fl post s) (h : From s more s') : ∃ post', more = post'.map .ok ∧ After es fl (post ++ post') s' := by
  induction h with
  | nil => exact ⟨[], rfl, by rwa [List.append_nil]⟩
  | step h hs ih =>
    obtain ⟨p, h1, h2⟩ := ih
    cases hs with
    | good hs => exact ⟨p ++ _, by rw [h1, map_ok_toList, ← List.map_append], by rw [← List.append_assoc]; exact after_step h2 hs⟩
    | noThread t w hp hst => have := h2.stuck.crit t; rw [hp] at this; exact nomatch this
    | noMemory t w hp => have := h2.stuck.crit t; rw [hp] at this; exact nomatch this

theorem run_runO {es : List (Ev Job)} {s : Sys Job} (h : Run es s) : RunO (es.map .ok) s := by
  induction h with
  | nil => exact .nil
  | step _ hs ih => rw [List.map_append, ← map_ok_toList]; exact ih.step (.good hs)

end Sched
end Lsmdb
