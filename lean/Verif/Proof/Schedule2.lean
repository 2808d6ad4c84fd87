import Verif.Proof.Schedule1

/-! The order in which the scheduled functions run. -/

namespace Lsmdb
namespace Sched

variable {Job : Type}

def Cpc.item : Cpc Job → Option (Item Job)
  | .out => none
  | .lock w | .start w | .signal w | .push w | .unlock w | .leave w => some w

def Cpc.pre : Cpc Job → Bool
  | .lock _ | .start _ | .signal _ | .push _ => true
  | _ => false

def Bpc.flight : Bpc Job → List (Item Job)
  | .unlock w | .call w => [w]
  | _ => []

def Bpc.cur : Bpc Job → Option Nat
  | .running w => some w.id
  | _ => Option.none

theorem before_snoc {α : Type} {x y z : α} {l : List α} : Before x y (l ++ [z]) ↔ Before x y l ∨ (y = z ∧ x ∈ l) := by
  constructor
  · rintro ⟨a, b, c, h⟩
    rcases List.eq_nil_or_concat c with rfl | ⟨c', w, rfl⟩
    · right
      have : l ++ [z] = (a ++ x :: b) ++ [y] := by simpa using h
      obtain ⟨h1, h2⟩ := List.append_inj' this rfl
      injection h2 with h2
      exact ⟨h2.symm, by rw [h1]; simp⟩
    · left
      have : l ++ [z] = (a ++ x :: b ++ y :: c') ++ [w] := by simpa using h
      obtain ⟨h1, h2⟩ := List.append_inj' this rfl
      exact ⟨a, b, c', h1⟩
  · rintro (⟨a, b, c, rfl⟩ | ⟨rfl, h⟩)
    · exact ⟨a, b, c ++ [z], by simp⟩
    · obtain ⟨a, b, rfl⟩ := List.append_of_mem h
      exact ⟨a, b, [], by simp⟩

structure Ord (es : List (Ev Job)) (s : Sys Job) (σ ran : List (Item Job)) : Prop where
  split : σ = ran ++ (s.bg.flight ++ s.queue)
  runs : runs es = ran.map (·.id)
  ranJob : ∀ id job, Ev.run id job ∈ es → ∃ w ∈ ran, w.id = id ∧ w.job = job
  less : ∀ t id job, Ev.call t id job ∈ es → id < s.calls
  uniq : ∀ t t' id job job', Ev.call t id job ∈ es → Ev.call t' id job' ∈ es → t = t' ∧ job = job'
  distinct : DistinctIds es
  item : ∀ t w, (s.pc t).item = some w → Ev.call t w.id w.job ∈ es
  pre : ∀ t w, (s.pc t).item = some w → (s.pc t).pre = true → ∀ x ∈ σ, x.id ≠ w.id
  post : ∀ t w, (s.pc t).item = some w → (s.pc t).pre = false → w ∈ σ
  called : ∀ w ∈ σ, ∃ t, Ev.call t w.id w.job ∈ es
  nodup : (σ.map (·.id)).Nodup
  returned : ∀ t id, Ev.ret t id ∈ es → id ∈ σ.map (·.id)
  realtime : ∀ t u a b job, Before (Ev.ret t a) (.call u b job) es → b ∈ σ.map (·.id) → Before a b (σ.map (·.id))
  serial : Serial es s.bg.cur

theorem Ord.silent {es : List (Ev Job)} {s s' : Sys Job} {σ ran : List (Item Job)} (h : Ord es s σ ran)
    (h1 : s'.bg.flight ++ s'.queue = s.bg.flight ++ s.queue) (h2 : s'.calls = s.calls) (h3 : s'.bg.cur = s.bg.cur)
    (h4 : ∀ t, (s'.pc t).item = (s.pc t).item ∧ (s'.pc t).pre = (s.pc t).pre) : Ord es s' σ ran where
  split := by rw [h1]; exact h.split
  runs := h.runs
  ranJob := h.ranJob
  less := by rw [h2]; exact h.less
  uniq := h.uniq
  distinct := h.distinct
  item t w := by rw [(h4 t).1]; exact h.item t w
  pre t w := by rw [(h4 t).1, (h4 t).2]; exact h.pre t w
  post t w := by rw [(h4 t).1, (h4 t).2]; exact h.post t w
  called := h.called
  nodup := h.nodup
  returned := h.returned
  realtime := h.realtime
  serial := by rw [h3]; exact h.serial

theorem Ord.move {es : List (Ev Job)} {s s' : Sys Job} {σ ran : List (Item Job)} (h : Ord es s σ ran) (t : Nat) (p : Cpc Job)
    (h1 : s'.bg.flight ++ s'.queue = s.bg.flight ++ s.queue) (h2 : s'.calls = s.calls) (h3 : s'.bg.cur = s.bg.cur)
    (h4 : s'.pc = s.pc) (h5 : p.item = (s.pc t).item) (h6 : p.pre = (s.pc t).pre) : Ord es (s'.at t p) σ ran := by
  refine h.silent h1 h2 h3 fun u => ?_
  rw [at_pc, h4]
  split
  · rename_i hu; subst hu; exact ⟨h5, h6⟩
  · exact ⟨rfl, rfl⟩

theorem Ord.call {es : List (Ev Job)} {s : Sys Job} {σ ran : List (Item Job)} (h : Ord es s σ ran) (t : Nat) (job : Job)
    (ht : s.pc t = .out) :
    Ord (es ++ [.call t s.calls job]) ({ s with calls := s.calls + 1 }.at t (.lock ⟨s.calls, job⟩)) σ ran where
  split := h.split
  runs := by
    have := h.runs
    unfold Sched.runs at this ⊢
    rw [List.filterMap_append, this]; simp
  ranJob id j hm := by
    rw [List.mem_append] at hm
    rcases hm with hm | hm
    · exact h.ranJob id j hm
    · simp at hm
  less t' id j hm := by
    rw [List.mem_append] at hm
    rcases hm with hm | hm
    · exact Nat.lt_succ_of_lt (h.less t' id j hm)
    · simp only [List.mem_singleton, Ev.call.injEq] at hm
      rw [hm.2.1]; exact Nat.lt_succ_self _
  uniq t1 t2 id j1 j2 h1 h2 := by
    rw [List.mem_append, List.mem_singleton, Ev.call.injEq] at h1 h2
    rcases h1 with h1 | h1 <;> rcases h2 with h2 | h2
    · exact h.uniq t1 t2 id j1 j2 h1 h2
    · have := h.less _ _ _ h1; omega
    · have := h.less _ _ _ h2; omega
    · exact ⟨h1.1.trans h2.1.symm, h1.2.2.trans h2.2.2.symm⟩
  distinct := by
    have := h.distinct
    unfold DistinctIds at this ⊢
    rw [List.filterMap_append, List.nodup_append]
    refine ⟨this, by simp, ?_⟩
    intro a ha b hb
    rw [List.mem_filterMap] at ha
    obtain ⟨e, he, hea⟩ := ha
    simp only [List.filterMap_cons, List.filterMap_nil, List.mem_singleton] at hb
    cases e with
    | call t1 i1 j1 =>
      injection hea with hea
      have := h.less _ _ _ he
      omega
    | ret _ _ => exact nomatch hea
    | run _ _ => exact nomatch hea
    | done _ => exact nomatch hea
  item u w hw := by
    rw [List.mem_append]
    rw [at_pc] at hw
    split at hw
    · rename_i hu; subst hu
      injection hw with hw; subst hw
      right; simp
    · left; exact h.item u w hw
  pre u w hw hp x hx := by
    rw [at_pc] at hw hp
    split at hw
    · rename_i hu; subst hu
      injection hw with hw; subst hw
      obtain ⟨t', ht'⟩ := h.called x hx
      have := h.less _ _ _ ht'
      exact fun heq => by simp only [] at heq; omega
    · rename_i hu
      rw [if_neg hu] at hp
      exact h.pre u w hw hp x hx
  post u w hw hp := by
    rw [at_pc] at hw hp
    split at hw
    · rename_i hu; rw [if_pos hu] at hp; exact nomatch hp
    · rename_i hu; rw [if_neg hu] at hp; exact h.post u w hw hp
  called w hw := by
    obtain ⟨t', ht'⟩ := h.called w hw
    exact ⟨t', List.mem_append_left _ ht'⟩
  nodup := h.nodup
  returned t' id hm := by
    rw [List.mem_append] at hm
    rcases hm with hm | hm
    · exact h.returned t' id hm
    · simp at hm
  realtime t1 u a b j hb hm := by
    rw [before_snoc] at hb
    rcases hb with hb | ⟨hb, _⟩
    · exact h.realtime t1 u a b j hb hm
    · injection hb with _ hb _
      rw [List.mem_map] at hm
      obtain ⟨w, hw, hwb⟩ := hm
      obtain ⟨t', ht'⟩ := h.called w hw
      have := h.less _ _ _ ht'
      omega
  serial := .call _ _ _ h.serial

theorem ord_init : Ord [] (Sys.init : Sys Job) [] [] where
  split := rfl
  runs := rfl
  ranJob _ _ h := nomatch h
  less _ _ _ h := nomatch h
  uniq _ _ _ _ _ h := nomatch h
  distinct := List.nodup_nil
  item _ _ h := nomatch h
  pre _ _ h := nomatch h
  post _ _ h := nomatch h
  called _ h := nomatch h
  nodup := List.nodup_nil
  returned _ _ h := nomatch h
  realtime _ _ _ _ _ h := by obtain ⟨a, b, c, h⟩ := h; simp at h
  serial := .nil

/-- As `ord_step` below, from the two facts about the state that are needed; `x` is empty when no thread is about
to put anything into the queue. -/
theorem ord_step_weak {es : List (Ev Job)} {s s' : Sys Job} {σ ran : List (Item Job)} {who : Option Nat} {e : Option (Ev Job)}
    (hfresh : s.started = false → s.bg = .none) (hpop : s.bg = .pop → s.queue ≠ []) (h : Ord es s σ ran)
    (hs : Step s who e s') :
    ∃ x y, Ord (es ++ e.toList) s' (σ ++ x) (ran ++ y) ∧ ((∀ t w, s.pc t ≠ .push w) → x = []) := by
  have nil : Ord (es ++ (none : Option (Ev Job)).toList) s' σ ran → ∃ x y, Ord (es ++ (none : Option (Ev Job)).toList) s' (σ ++ x) (ran ++ y) ∧
      ((∀ t w, s.pc t ≠ .push w) → x = []) :=
    fun h => ⟨[], [], by simpa using h, fun _ => rfl⟩
  cases hs with
  | callClient t job ht hp => exact ⟨[], [], by simpa using h.call t job hp, fun _ => rfl⟩
  | callRunning w job hb hp => exact ⟨[], [], by simpa using h.call 0 job hp, fun _ => rfl⟩
  | lock t w hp hm => refine nil ?_; simpa using h.move (s' := { s with mutex := some t }) t _ rfl rfl rfl rfl (by rw [hp]; rfl) (by rw [hp]; rfl)
  | start t w hp =>
    refine nil ?_
    simp only [Option.toList_none, List.append_nil]
    cases hst : s.started with
    | true => simp only [Bool.not_true, Bool.false_eq_true, if_false]; exact h.move t _ rfl rfl rfl rfl (by rw [hp]; rfl) (by rw [hp]; rfl)
    | false =>
      simp only [Bool.not_false, if_true]
      have g1 := hfresh hst
      exact h.move (s' := { s with started := true, bg := .lock }) t _ (by rw [g1]; rfl) rfl (by rw [g1]; rfl) rfl (by rw [hp]; rfl)
        (by rw [hp]; rfl)
  | signal t w hp =>
    refine nil ?_
    simp only [Option.toList_none, List.append_nil]
    split
    · exact h.move (s' := { s with bg := s.bg.signal }) t _ (by cases s.bg <;> rfl) rfl (by cases s.bg <;> rfl) rfl (by rw [hp]; rfl)
        (by rw [hp]; rfl)
    · exact h.move t _ rfl rfl rfl rfl (by rw [hp]; rfl) (by rw [hp]; rfl)
  | push t w hp =>
    refine ⟨[w], [], ?_, fun hn => absurd hp (hn t w)⟩
    simp only [Option.toList_none, List.append_nil]
    have hit : (s.pc t).item = some w := by rw [hp]; rfl
    have hpre : (s.pc t).pre = true := by rw [hp]; rfl
    constructor
    · show σ ++ [w] = ran ++ (s.bg.flight ++ (s.queue ++ [w])); rw [h.split]; simp
    · exact h.runs
    · exact h.ranJob
    · exact h.less
    · exact h.uniq
    · exact h.distinct
    · intro u x hx
      rw [at_pc] at hx
      split at hx
      · rename_i hu; subst hu; injection hx with hx; subst hx; exact h.item _ _ hit
      · exact h.item u x hx
    · intro u x hx hpx y hy
      rw [at_pc] at hx hpx
      split at hx
      · rename_i hu; rw [if_pos hu] at hpx; exact nomatch hpx
      · rename_i hu
        rw [if_neg hu] at hpx
        rw [List.mem_append, List.mem_singleton] at hy
        rcases hy with hy | rfl
        · exact h.pre u x hx hpx y hy
        · intro heq
          have h1 := h.item t y hit
          have h2 := h.item u x hx
          rw [heq] at h1
          exact hu (h.uniq _ _ _ _ _ h2 h1).1
    · intro u x hx hpx
      rw [at_pc] at hx hpx
      rw [List.mem_append, List.mem_singleton]
      split at hx
      · injection hx with hx; right; exact hx.symm
      · rename_i hu; rw [if_neg hu] at hpx; left; exact h.post u x hx hpx
    · intro x hx
      rw [List.mem_append, List.mem_singleton] at hx
      rcases hx with hx | rfl
      · exact h.called x hx
      · exact ⟨t, h.item t x hit⟩
    · rw [List.map_append, List.nodup_append]
      refine ⟨h.nodup, by simp, ?_⟩
      intro a ha b hb
      rw [List.mem_map] at ha
      obtain ⟨x, hx, rfl⟩ := ha
      simp only [List.map_cons, List.map_nil, List.mem_singleton] at hb
      subst hb
      exact h.pre t w hit hpre x hx
    · intro u id hm
      rw [List.map_append]
      exact List.mem_append_left _ (h.returned u id hm)
    · intro t1 u a b j hb hm
      rw [List.map_append] at hm ⊢
      simp only [List.map_cons, List.map_nil, List.mem_append, List.mem_singleton] at hm ⊢
      rw [before_snoc]
      rcases hm with hm | hm
      · exact .inl (h.realtime t1 u a b j hb hm)
      · right
        refine ⟨hm, h.returned t1 a ?_⟩
        obtain ⟨l1, l2, l3, hl⟩ := hb
        rw [hl]; simp
    · exact h.serial
  | unlock t w hp => refine nil ?_; simpa using h.move (s' := { s with mutex := none }) t _ rfl rfl rfl rfl (by rw [hp]; rfl) (by rw [hp]; rfl)
  | leave t w hp =>
    refine ⟨[], [], ?_, fun _ => rfl⟩
    simp only [Option.toList_some, List.append_nil]
    have hit : (s.pc t).item = some w := by rw [hp]; rfl
    have hpo : (s.pc t).pre = false := by rw [hp]; rfl
    constructor
    · exact h.split
    · have := h.runs; unfold Sched.runs at this ⊢; rw [List.filterMap_append, this]; simp
    · intro id j hm
      rw [List.mem_append] at hm
      rcases hm with hm | hm
      · exact h.ranJob id j hm
      · simp at hm
    · intro t' id j hm
      rw [List.mem_append] at hm
      rcases hm with hm | hm
      · exact h.less t' id j hm
      · simp at hm
    · intro t1 t2 id j1 j2 h1 h2
      simp only [List.mem_append, List.mem_singleton, reduceCtorEq, or_false] at h1 h2
      exact h.uniq t1 t2 id j1 j2 h1 h2
    · have := h.distinct; unfold DistinctIds at this ⊢; rw [List.filterMap_append]; simpa using this
    · intro u x hx
      rw [at_pc] at hx
      split at hx
      · exact nomatch hx
      · exact List.mem_append_left _ (h.item u x hx)
    · intro u x hx hpx
      rw [at_pc] at hx hpx
      split at hx
      · exact nomatch hx
      · rename_i hu; rw [if_neg hu] at hpx; exact h.pre u x hx hpx
    · intro u x hx hpx
      rw [at_pc] at hx hpx
      split at hx
      · exact nomatch hx
      · rename_i hu; rw [if_neg hu] at hpx; exact h.post u x hx hpx
    · intro x hx
      obtain ⟨t', ht'⟩ := h.called x hx
      exact ⟨t', List.mem_append_left _ ht'⟩
    · exact h.nodup
    · intro u id hm
      rw [List.mem_append] at hm
      rcases hm with hm | hm
      · exact h.returned u id hm
      · simp only [List.mem_singleton, Ev.ret.injEq] at hm
        rw [hm.2]
        exact List.mem_map_of_mem (h.post t w hit hpo)
    · intro t1 u a b j hb hm
      rw [before_snoc] at hb
      rcases hb with hb | ⟨hb, _⟩
      · exact h.realtime t1 u a b j hb hm
      · exact nomatch hb
    · exact .ret _ _ h.serial
  | bgLock hb hm => refine nil ?_; simpa using h.silent (s' := { s with mutex := some 0, bg := .check }) (by rw [hb]; rfl) rfl (by rw [hb]; rfl) fun _ => ⟨rfl, rfl⟩
  | bgCheck hb =>
    refine nil ?_
    simp only [Option.toList_none, List.append_nil]
    refine h.silent ?_ rfl ?_ fun _ => ⟨rfl, rfl⟩
    · rw [hb]; simp only []; split <;> rfl
    · rw [hb]; simp only []; split <;> rfl
  | bgWait hb => refine nil ?_; simpa using h.silent (s' := { s with mutex := none, bg := .asleep }) (by rw [hb]; rfl) rfl (by rw [hb]; rfl) fun _ => ⟨rfl, rfl⟩
  | bgWake hb => refine nil ?_; simpa using h.silent (s' := { s with bg := .woken }) (by rw [hb]; rfl) rfl (by rw [hb]; rfl) fun _ => ⟨rfl, rfl⟩
  | bgWoken hb hm => refine nil ?_; simpa using h.silent (s' := { s with mutex := some 0, bg := .check }) (by rw [hb]; rfl) rfl (by rw [hb]; rfl) fun _ => ⟨rfl, rfl⟩
  | bgPop w q hb hq =>
    refine nil ?_
    simpa using h.silent (s' := { s with queue := q, bg := .unlock w }) (by rw [hb, hq]; rfl) rfl (by rw [hb]; rfl) fun _ => ⟨rfl, rfl⟩
  | bgPopEmpty hb hq => exact absurd hq (hpop hb)
  | bgUnlock w hb => refine nil ?_; simpa using h.silent (s' := { s with mutex := none, bg := .call w }) (by rw [hb]; rfl) rfl (by rw [hb]; rfl) fun _ => ⟨rfl, rfl⟩
  | bgCall w hb =>
    refine ⟨[], [w], ?_, fun _ => rfl⟩
    simp only [Option.toList_some, List.append_nil]
    have hfl : s.bg.flight = [w] := by rw [hb]; rfl
    constructor
    · show σ = (ran ++ [w]) ++ ([] ++ s.queue); rw [h.split, hfl]; simp
    · have := h.runs; unfold Sched.runs at this ⊢; rw [List.filterMap_append, this]; simp
    · intro id j hm
      rw [List.mem_append] at hm
      rcases hm with hm | hm
      · obtain ⟨x, hx, he⟩ := h.ranJob id j hm
        exact ⟨x, List.mem_append_left _ hx, he⟩
      · simp only [List.mem_singleton, Ev.run.injEq] at hm
        exact ⟨w, by simp, hm.1.symm, hm.2.symm⟩
    · intro t' id j hm
      simp only [List.mem_append, List.mem_singleton, reduceCtorEq, or_false] at hm
      exact h.less t' id j hm
    · intro t1 t2 id j1 j2 h1 h2
      simp only [List.mem_append, List.mem_singleton, reduceCtorEq, or_false] at h1 h2
      exact h.uniq t1 t2 id j1 j2 h1 h2
    · have := h.distinct; unfold DistinctIds at this ⊢; rw [List.filterMap_append]; simpa using this
    · intro u x hx; exact List.mem_append_left _ (h.item u x hx)
    · exact h.pre
    · exact h.post
    · intro x hx
      obtain ⟨t', ht'⟩ := h.called x hx
      exact ⟨t', List.mem_append_left _ ht'⟩
    · exact h.nodup
    · intro u id hm
      simp only [List.mem_append, List.mem_singleton, reduceCtorEq, or_false] at hm
      exact h.returned u id hm
    · intro t1 u a b j hbe hm
      rw [before_snoc] at hbe
      rcases hbe with hbe | ⟨hbe, _⟩
      · exact h.realtime t1 u a b j hbe hm
      · exact nomatch hbe
    · have h0 := h.serial
      rw [hb] at h0
      exact .run _ _ h0
  | bgDone w hb h0 =>
    refine ⟨[], [], ?_, fun _ => rfl⟩
    simp only [Option.toList_some, List.append_nil]
    constructor
    · show σ = ran ++ ([] ++ s.queue); rw [h.split, hb]; rfl
    · have := h.runs; unfold Sched.runs at this ⊢; rw [List.filterMap_append, this]; simp
    · intro id j hm
      simp only [List.mem_append, List.mem_singleton, reduceCtorEq, or_false] at hm
      exact h.ranJob id j hm
    · intro t' id j hm
      simp only [List.mem_append, List.mem_singleton, reduceCtorEq, or_false] at hm
      exact h.less t' id j hm
    · intro t1 t2 id j1 j2 h1 h2
      simp only [List.mem_append, List.mem_singleton, reduceCtorEq, or_false] at h1 h2
      exact h.uniq t1 t2 id j1 j2 h1 h2
    · have := h.distinct; unfold DistinctIds at this ⊢; rw [List.filterMap_append]; simpa using this
    · intro u x hx; exact List.mem_append_left _ (h.item u x hx)
    · exact h.pre
    · exact h.post
    · intro x hx
      obtain ⟨t', ht'⟩ := h.called x hx
      exact ⟨t', List.mem_append_left _ ht'⟩
    · exact h.nodup
    · intro u id hm
      simp only [List.mem_append, List.mem_singleton, reduceCtorEq, or_false] at hm
      exact h.returned u id hm
    · intro t1 u a b j hbe hm
      rw [before_snoc] at hbe
      rcases hbe with hbe | ⟨hbe, _⟩
      · exact h.realtime t1 u a b j hbe hm
      · exact nomatch hbe
    · have h0 := h.serial
      rw [hb] at h0
      exact .done _ h0

theorem ord_step {es : List (Ev Job)} {s s' : Sys Job} {σ ran : List (Item Job)} {who : Option Nat} {e : Option (Ev Job)}
    (hc : Ctl s) (h : Ord es s σ ran) (hs : Step s who e s') :
    ∃ x y, Ord (es ++ e.toList) s' (σ ++ x) (ran ++ y) := by
  obtain ⟨x, y, hx, -⟩ := ord_step_weak (fun hst => (hc.fresh hst).1) hc.pop h hs
  exact ⟨x, y, hx⟩

theorem run_ctl {es : List (Ev Job)} {s : Sys Job} (h : Run es s) : Ctl s := by
  induction h with
  | nil => exact ctl_init
  | step _ hs ih => exact ctl_step ih hs

theorem run_ord {es : List (Ev Job)} {s : Sys Job} (h : Run es s) : ∃ σ ran, Ord es s σ ran := by
  induction h with
  | nil => exact ⟨[], [], ord_init⟩
  | step h hs ih =>
    obtain ⟨σ, ran, hi⟩ := ih
    obtain ⟨x, y, hx⟩ := ord_step (run_ctl h) hi hs
    exact ⟨_, _, hx⟩

end Sched
end Lsmdb
