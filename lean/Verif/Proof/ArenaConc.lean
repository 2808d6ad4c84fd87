import Verif.Spec.ArenaConc
import Verif.Proof.Arena
import Verif.Proof.HappensBefore
import Mathlib.Data.Nat.Find

/-!
# What other threads see of `MemoryUsage`
-/

namespace Lsmdb
namespace ArenaConc
open Arena Spec

/-- All members. -/
def Private.join (p : Private) (u : Nat) : State := ⟨p.alloc_ptr, p.remaining, p.blocks, u⟩

/-- The arena after a call. -/
def after (s : State) : Option (Nat × State) → State
  | none => s
  | some (_, s') => s'

/-- The code of a call does what the call does when it runs alone. -/
theorem code_step {p : Private} {u : Nat} {c : Call} {new : Option Nat} {r : Option (Nat × State)} (h : step (p.join u) c new = .ok r) :
    ∃ q p' n, after (p.join u) r = p'.join (u + n) ∧
      ((code p c new = .ret q p' ∧ n = 0) ∨ (code p c new = .add n (.ret q p') ∧ 0 < n)) := by
  obtain ⟨n, al⟩ := c
  have fall : ∀ {k : Nat → Private → Code}, AllocateFallback (p.join u) n new = r →
      (∀ a s s', AllocateFallback (p.join u) n new = some (a, s') → ∃ q, k a s = .ret q s) →
      ∃ q p' n', after (p.join u) r = p'.join (u + n') ∧
        ((fallbackCode p n new k = .ret q p' ∧ n' = 0) ∨ (fallbackCode p n new k = .add n' (.ret q p') ∧ 0 < n')) := by
    rintro k rfl hk
    unfold AllocateFallback at hk ⊢
    unfold fallbackCode newBlockCode
    unfold AllocateNewBlock at hk ⊢
    cases new with
    | none =>
      split
      · exact ⟨none, p, 0, rfl, .inl ⟨rfl, rfl⟩⟩
      · exact ⟨none, p, 0, rfl, .inl ⟨rfl, rfl⟩⟩
    | some a =>
      split
      · rename_i hn
        rw [if_pos hn] at hk
        obtain ⟨q, hq⟩ := hk a { p with blocks := p.blocks ++ [(a, n)] } _ rfl
        exact ⟨q, { p with blocks := p.blocks ++ [(a, n)] }, n + 8, rfl, .inr ⟨congrArg (Code.add (n + 8)) hq, by omega⟩⟩
      · rename_i hn
        rw [if_neg hn] at hk
        obtain ⟨q, hq⟩ := hk a { p with alloc_ptr := a + n, remaining := kBlockSize - n, blocks := p.blocks ++ [(a, kBlockSize)] } _ rfl
        exact ⟨q, { p with alloc_ptr := a + n, remaining := kBlockSize - n, blocks := p.blocks ++ [(a, kBlockSize)] }, kBlockSize + 8, rfl,
          .inr ⟨congrArg (Code.add (kBlockSize + 8)) hq, by omega⟩⟩
  unfold step at h
  unfold code
  cases al with
  | false =>
    simp only [Bool.false_eq_true, if_false] at h ⊢
    unfold Allocate at h
    unfold allocateCode
    by_cases hn : n > 0
    · rw [if_pos hn]
      simp only [cassert, hn, decide_true, if_true] at h
      by_cases hr : n ≤ p.remaining
      · rw [if_pos hr]
        have hr' : n ≤ (p.join u).remaining := hr
        simp only [hr', if_true] at h
        cases h
        exact ⟨_, _, 0, rfl, .inl ⟨rfl, rfl⟩⟩
      · rw [if_neg hr]
        have hr' : ¬ n ≤ (p.join u).remaining := hr
        simp only [hr', if_false] at h
        cases h
        exact fall rfl fun a s _ _ => ⟨some a, rfl⟩
    · simp only [cassert, hn, decide_false] at h
      cases h
  | true =>
    simp only [if_true] at h ⊢
    unfold AllocateAligned at h
    unfold alignedCode
    dsimp only at h ⊢
    have hp : (p.join u).alloc_ptr = p.alloc_ptr := rfl
    have hrem : (p.join u).remaining = p.remaining := rfl
    rw [hp, hrem] at h
    generalize (if p.alloc_ptr % 8 = 0 then 0 else 8 - p.alloc_ptr % 8) = slop at h ⊢
    by_cases hr : (n + slop) % 2 ^ 64 ≤ p.remaining
    · rw [if_pos hr] at h ⊢
      unfold alignedEnd
      by_cases ha : (p.alloc_ptr + slop) % 8 = 0
      · rw [if_pos ha]
        simp only [cassert, ha, pure, Except.pure, bind, Except.bind, decide_true, if_true] at h
        cases h
        exact ⟨_, _, 0, rfl, .inl ⟨rfl, rfl⟩⟩
      · simp only [cassert, ha, pure, Except.pure, bind, Except.bind, decide_false] at h
        cases h
    · rw [if_neg hr] at h ⊢
      cases hf : AllocateFallback (p.join u) n new with
      | none =>
        rw [hf] at h
        cases h
        exact fall hf fun a s s' h => by rw [hf] at h; cases h
      | some y =>
        obtain ⟨a, s'⟩ := y
        rw [hf] at h
        simp only [pure, Except.pure, bind, Except.bind, cassert] at h
        by_cases ha : a % 8 = 0
        · simp only [ha, decide_true, if_true] at h
          cases h
          refine fall hf fun a' s s'' h => ?_
          rw [hf] at h
          cases h
          exact ⟨some a, by unfold alignedEnd; rw [if_pos ha]⟩
        · simp only [ha, decide_false] at h
          cases h

theorem run_append (a b : List (Call × Option Nat)) (s : State) (log : List Alloc) :
    run s log (a ++ b) = (run s log a).bind fun r => run r.1 r.2 b := by
  induction a generalizing s log with
  | nil => rfl
  | cons x a ih =>
    obtain ⟨c, new⟩ := x
    simp only [List.cons_append, run]
    cases h : step s c new with
    | error e => rfl
    | ok r =>
      cases r with
      | none => exact ih s log
      | some y => exact ih _ _

/-- A prefix of a history that the environment allows. -/
theorem env_split {s : State} {log : List Alloc} (h : Inv s log) (a b : List (Call × Option Nat)) (he : EnvOK s (a ++ b)) :
    ∃ s' log', run s log a = .ok (s', log') ∧ Inv s' log' ∧ EnvOK s' b ∧ s.usage ≤ s'.usage := by
  induction a generalizing s log with
  | nil => exact ⟨s, log, rfl, h, he, Nat.le_refl _⟩
  | cons x a ih =>
    obtain ⟨c, new⟩ := x
    obtain ⟨hc, hnew, hrest⟩ := he
    rcases step_inv h c new hc hnew with ⟨hs, _⟩ | ⟨p, s1, hs, hi, hu⟩
    · rw [hs] at hrest
      obtain ⟨s', l', h1, h2, h3, h4⟩ := ih h hrest
      exact ⟨s', l', by simp [run, hs, h1, bind, Except.bind], h2, h3, h4⟩
    · rw [hs] at hrest
      obtain ⟨s', l', h1, h2, h3, h4⟩ := ih hi hrest
      exact ⟨s', l', by simp [run, hs, h1, bind, Except.bind], h2, h3, Nat.le_trans hu h4⟩

/-- One more call. -/
theorem run_snoc {cs : List (Call × Option Nat)} {c : Call} {new : Option Nat} {s : State} {log : List Alloc}
    (hr : run init [] cs = .ok (s, log)) {r : Option (Nat × State)} (hs : step s c new = .ok r) :
    ∃ log', run init [] (cs ++ [(c, new)]) = .ok (after s r, log') := by
  rw [run_append, hr]
  show ∃ log', run s log [(c, new)] = _
  cases r with
  | none => exact ⟨log, by simp [run, hs, bind, Except.bind, after]⟩
  | some y => exact ⟨_, by simp [run, hs, bind, Except.bind, after]; rfl⟩

/-- The first values are small, the last ones large. -/
theorem usage_mono {cs : List (Call × Option Nat)} (he : EnvOK init cs) {k l : Nat} (h : k ≤ l) :
    usageAfter (cs.take k) ≤ usageAfter (cs.take l) := by
  have h1 : cs = cs.take k ++ ((cs.take l).drop k ++ cs.drop l) := by
    rw [← List.append_assoc]
    have : cs.take k = (cs.take l).take k := by rw [List.take_take, Nat.min_eq_left h]
    rw [this, List.take_append_drop, List.take_append_drop]
  rw [h1] at he
  obtain ⟨s, log, hr, hi, he', _⟩ := env_split inv_init _ _ he
  obtain ⟨s', log', hr', _, _, hu⟩ := env_split hi _ _ he'
  have h2 : cs.take l = cs.take k ++ (cs.take l).drop k := by
    have : cs.take k = (cs.take l).take k := by rw [List.take_take, Nat.min_eq_left h]
    rw [this, List.take_append_drop]
  have h3 : run init [] (cs.take l) = .ok (s', log') := by
    rw [h2, run_append, hr]
    exact hr'
  unfold usageAfter
  rw [hr, h3]
  exact hu

/-- Where the allocating thread is. -/
def Pos (w : World) (last : Nat) (cs : List (Call × Option Nat)) : Prop :=
  (w.pc = none ∧ ∃ log, run init [] cs = .ok (w.mem.join last, log)) ∨
  (∃ q p, w.pc = some (.ret q p) ∧ ∃ log, run init [] cs = .ok (p.join last, log)) ∨
  (∃ n q p, w.pc = some (.add n (.ret q p)) ∧ 0 < n ∧ ∃ log, run init [] cs = .ok (p.join (last + n), log))

/-- What holds before every step. -/
structure Good (w : World) (cs : List (Call × Option Nat)) : Prop where
  pos : ∃ last, w.mods.getLast? = some last ∧ Pos w last cs
  sorted : w.mods.Pairwise (· < ·)
  own : w.view 0 + 1 = w.mods.length
  views : ∀ t, w.view t < w.mods.length
  sent : ∀ m ∈ w.sent, m < w.mods.length
  vals : ∀ v ∈ w.mods, ∃ k, k ≤ cs.length ∧ usageAfter (cs.take k) = v

theorem good_init : Good World.init [] where
  pos := ⟨0, rfl, .inl ⟨rfl, [], rfl⟩⟩
  sorted := by simp [World.init]
  own := rfl
  views _ := Nat.zero_lt_one
  sent := by simp [World.init]
  vals v hv := ⟨0, Nat.le_refl _, by
    have : v = 0 := by simpa [World.init] using hv
    subst this; rfl⟩

/-- The calls after one more step. -/
def more (cs : List (Call × Option Nat)) : Option Ev → List (Call × Option Nat)
  | some (.call c new) => cs ++ [(c, new)]
  | _ => cs

theorem calls_succ (ev : Nat → Option Ev) (n : Nat) : calls ev (n + 1) = more (calls ev n) (ev n) := by
  rw [calls]
  unfold more
  cases ev n with
  | none => rfl
  | some e => cases e <;> rfl

theorem see_view {w : World} {t u : Tid} {m : Nat} : (w.see t m).view u = if u = t then m else w.view u := rfl

theorem good_step {w w' : World} {e : Option Ev} {cs : List (Call × Option Nat)} (g : Good w cs) (h : Step w e w')
    (he : EnvOK init (more cs e)) : Good w' (more cs e) := by
  obtain ⟨last, hlast, hp⟩ := g.pos
  cases h with
  | call c new h =>
    have hp : w.pc = none ∧ ∃ log, run init [] cs = .ok (w.mem.join last, log) := by
      rcases hp with hp | ⟨_, _, hp, _⟩ | ⟨_, _, _, hp, _⟩
      · exact hp
      · rw [h] at hp; cases hp
      · rw [h] at hp; cases hp
    obtain ⟨_, log, hr⟩ := hp
    obtain ⟨s, l, hr', hi, he', _⟩ := env_split inv_init cs [(c, new)] he
    rw [hr] at hr'
    cases hr'
    obtain ⟨hc, hnew, _⟩ := he'
    have hok : ∃ r, step (w.mem.join last) c new = .ok r := by
      rcases step_inv hi c new hc hnew with ⟨hs, _⟩ | ⟨p, s1, hs, _, _⟩
      · exact ⟨_, hs⟩
      · exact ⟨_, hs⟩
    obtain ⟨r, hs⟩ := hok
    obtain ⟨log', hr'⟩ := run_snoc hr hs
    obtain ⟨q, p', n, h1, h2⟩ := code_step hs
    rw [h1] at hr'
    refine ⟨⟨last, hlast, ?_⟩, g.sorted, g.own, g.views, g.sent, fun v hv => ?_⟩
    · rcases h2 with ⟨h2, h3⟩ | ⟨h2, h3⟩
      · subst h3
        exact .inr (.inl ⟨q, p', congrArg _ h2, log', hr'⟩)
      · exact .inr (.inr ⟨n, q, p', congrArg _ h2, h3, log', hr'⟩)
    · obtain ⟨k, hk, hv⟩ := g.vals v hv
      refine ⟨k, ?_, ?_⟩
      · show k ≤ (cs ++ [(c, new)]).length
        rw [List.length_append]; omega
      · show usageAfter ((cs ++ [(c, new)]).take k) = v
        rw [List.take_append_of_le_length hk]
        exact hv
  | @add n last' next h hl =>
    rw [hlast] at hl
    cases hl
    have hp : ∃ q p, next = .ret q p ∧ 0 < n ∧ ∃ log, run init [] cs = .ok (p.join (last + n), log) := by
      rcases hp with ⟨hp, _⟩ | ⟨_, _, hp, _⟩ | ⟨_, q, p, hp, h1, h2⟩
      · rw [h] at hp; cases hp
      · rw [h] at hp; cases hp
      · rw [h] at hp; cases hp; exact ⟨q, p, rfl, h1, h2⟩
    obtain ⟨q, p, rfl, hn, log, hr⟩ := hp
    have hlen : (w.mods ++ [last + n]).length = w.mods.length + 1 := by simp
    have hle : ∀ v ∈ w.mods, v ≤ last := by
      obtain ⟨l, hl⟩ : ∃ l, w.mods = l ++ [last] := by
        have := List.getLast?_eq_some_iff.mp hlast
        exact this
      intro v hv
      have hs := g.sorted
      rw [hl] at hv hs
      rcases List.mem_append.mp hv with hv | hv
      · exact Nat.le_of_lt ((List.pairwise_append.mp hs).2.2 v hv last (List.mem_singleton.mpr rfl))
      · exact Nat.le_of_eq (List.mem_singleton.mp hv)
    refine ⟨⟨last + n, ?_, .inr (.inl ⟨q, p, rfl, log, hr⟩)⟩, ?_, ?_, fun t => ?_, fun m hm => ?_, fun v hv => ?_⟩
    · show (w.mods ++ [last + n]).getLast? = _
      simp
    · show (w.mods ++ [last + n]).Pairwise (· < ·)
      refine List.pairwise_append.mpr ⟨g.sorted, List.pairwise_singleton _ _, fun a ha b hb => ?_⟩
      have := hle a ha
      have := List.mem_singleton.mp hb
      omega
    · show (if (0 : Nat) = 0 then w.mods.length else w.view 0) + 1 = (w.mods ++ [last + n]).length
      rw [if_pos rfl, hlen]
    · rw [see_view]
      show _ < (w.mods ++ [last + n]).length
      rw [hlen]
      have := g.views t
      split
      · omega
      · show w.view t < _
        omega
    · show _ < (w.mods ++ [last + n]).length
      have := g.sent m hm
      omega
    · rcases List.mem_append.mp hv with hv | hv
      · exact g.vals v hv
      · have hv := List.mem_singleton.mp hv
        refine ⟨cs.length, Nat.le_refl _, ?_⟩
        show usageAfter (cs.take cs.length) = v
        rw [List.take_length, usageAfter, hr, hv]
        rfl
  | @ret q p h =>
    have hp : ∃ log, run init [] cs = .ok (p.join last, log) := by
      rcases hp with ⟨hp, _⟩ | ⟨_, _, hp, h2⟩ | ⟨_, _, _, hp, _⟩
      · rw [h] at hp; cases hp
      · rw [h] at hp; cases hp; exact h2
      · rw [h] at hp; cases hp
    exact ⟨⟨last, hlast, .inl ⟨rfl, hp⟩⟩, g.sorted, g.own, g.views, g.sent, g.vals⟩
  | @load t m v h hm hv =>
    have hmt : m < w.mods.length := (List.getElem?_eq_some_iff.mp hv).1
    refine ⟨⟨last, hlast, hp⟩, g.sorted, ?_, fun u => ?_, g.sent, g.vals⟩
    · have := g.own
      rw [see_view]
      show _ = w.mods.length
      split
      · rename_i h0; subst h0; omega
      · exact this
    · rw [see_view]
      show _ < w.mods.length
      split
      · exact hmt
      · exact g.views u
  | @send t h =>
    refine ⟨⟨last, hlast, hp⟩, g.sorted, g.own, g.views, fun m hm => ?_, g.vals⟩
    rcases List.mem_append.mp hm with hm | hm
    · exact g.sent m hm
    · rw [List.mem_singleton.mp hm]; exact g.views t
  | @receive t i m h hi =>
    have hmt : m < w.mods.length := g.sent m (List.mem_of_getElem? hi)
    have ht := g.views t
    refine ⟨⟨last, hlast, hp⟩, g.sorted, ?_, fun u => ?_, g.sent, g.vals⟩
    · have := g.own
      rw [see_view]
      show _ = w.mods.length
      split
      · rename_i h0; subst h0; omega
      · exact this
    · rw [see_view]
      show _ < w.mods.length
      split
      · omega
      · exact g.views u

theorem calls_prefix (ev : Nat → Option Ev) {i j : Nat} (h : i ≤ j) : ∃ r, calls ev j = calls ev i ++ r := by
  induction h with
  | refl => exact ⟨[], (List.append_nil _).symm⟩
  | @step j _ ih =>
    obtain ⟨r, hr⟩ := ih
    rw [calls_succ]
    cases ev j with
    | none => exact ⟨r, hr⟩
    | some e => cases e with
      | call c new => exact ⟨r ++ [(c, new)], by rw [← List.append_assoc, ← hr]; rfl⟩
      | _ => exact ⟨r, hr⟩

variable {N : Nat} {x : Exec N}

theorem env_prefix {a b : List (Call × Option Nat)} {s : State} (he : EnvOK s (a ++ b)) : EnvOK s a := by
  induction a generalizing s with
  | nil => trivial
  | cons y a ih =>
    obtain ⟨c, new⟩ := y
    obtain ⟨h1, h2, h3⟩ := he
    refine ⟨h1, h2, ?_⟩
    revert h3
    show (match step s c new with
      | .ok (some (_, s')) => EnvOK s' (a ++ b)
      | .ok none => EnvOK s (a ++ b)
      | .error _ => True) → _
    cases step s c new with
    | error e => exact fun _ => trivial
    | ok r => cases r with
      | none => exact ih
      | some y => exact ih

theorem good_at (he : EnvOK init (calls x.ev N)) : ∀ n, n ≤ N → Good (x.w n) (calls x.ev n) := by
  intro n
  induction n with
  | zero => intro _; rw [x.start]; exact good_init
  | succ n ih =>
    intro h
    have := x.step n h
    rw [calls_succ]
    refine good_step (ih (by omega)) this ?_
    rw [← calls_succ]
    obtain ⟨r, hr⟩ := calls_prefix x.ev h
    rw [hr] at he
    exact env_prefix he

/-- A step only adds to what is known, sent and written. -/
theorem step_more {w w' : World} {e : Option Ev} (own : w.view 0 + 1 = w.mods.length) (h : Step w e w') :
    (∀ t, w.view t ≤ w'.view t) ∧ (∃ r, w'.mods = w.mods ++ r) ∧ (∃ r, w'.sent = w.sent ++ r) := by
  have see : ∀ {w : World} {t : Tid} {m : Nat}, w.view t ≤ m → ∀ u, w.view u ≤ (w.see t m).view u := by
    intro w t m h u
    rw [see_view]
    split
    · rename_i hu; rw [hu]; exact h
    · exact Nat.le_refl _
  have nil : ∀ {α : Type} (l : List α), ∃ r, l = l ++ r := fun l => ⟨[], (List.append_nil l).symm⟩
  cases h with
  | call => exact ⟨fun _ => Nat.le_refl _, nil _, nil _⟩
  | @add n last next h hl => exact ⟨see (w := { w with pc := some next, mods := w.mods ++ [last + n] }) (by show w.view 0 ≤ _; omega), ⟨_, rfl⟩, nil _⟩
  | ret => exact ⟨fun _ => Nat.le_refl _, nil _, nil _⟩
  | load h hm => exact ⟨see hm, nil _, nil _⟩
  | send => exact ⟨fun _ => Nat.le_refl _, nil _, ⟨_, rfl⟩⟩
  | receive => exact ⟨see (Nat.le_max_left _ _), nil _, nil _⟩

theorem steps_more (he : EnvOK init (calls x.ev N)) {i j : Nat} (h : i ≤ j) (hj : j ≤ N) :
    (∀ t, (x.w i).view t ≤ (x.w j).view t) ∧ (∃ r, (x.w j).mods = (x.w i).mods ++ r) ∧
      (∃ r, (x.w j).sent = (x.w i).sent ++ r) := by
  induction h with
  | refl => exact ⟨fun _ => Nat.le_refl _, ⟨[], (List.append_nil _).symm⟩, ⟨[], (List.append_nil _).symm⟩⟩
  | @step j h ih =>
    obtain ⟨h1, ⟨r, h2⟩, ⟨r', h3⟩⟩ := ih (by omega)
    obtain ⟨g1, ⟨q, g2⟩, ⟨q', g3⟩⟩ := step_more (good_at he j (by omega)).own (x.step j hj)
    exact ⟨fun t => Nat.le_trans (h1 t) (g1 t), ⟨r ++ q, by rw [g2, h2, List.append_assoc]⟩,
      ⟨r' ++ q', by rw [g3, h3, List.append_assoc]⟩⟩

/-- The number of the value that the thread of step `i` knows after it. -/
def Exec.known (x : Exec N) (i : Nat) : Nat := (x.w (i + 1)).view (threadOf (x.ev i))

theorem known_mono (he : EnvOK init (calls x.ev N)) {i j : Nat} (h : HappensBefore x.sync i j) :
    i < N ∧ j < N ∧ x.known i ≤ x.known j := by
  induction h with
  | @program i j t h hi hj =>
    refine ⟨hi.1, hj.1, ?_⟩
    have h1 := (steps_more he (i := i + 1) (j := j + 1) (by omega) hj.1).1 t
    unfold Exec.known
    rw [hi.2, hj.2]
    exact h1
  | @mutex i j m h hi hj =>
    obtain ⟨h1, ⟨t, h2⟩, h3⟩ := hi
    obtain ⟨g1, ⟨u, g2⟩⟩ := hj
    refine ⟨h1, g1, ?_⟩
    unfold Exec.known
    have hs := x.step i h1
    have hr := x.step j g1
    rw [h2] at hs
    rw [g2] at hr
    rw [h2, g2]
    show (x.w (i + 1)).view t ≤ (x.w (j + 1)).view u
    generalize hwi : x.w (i + 1) = wi at hs
    generalize hwj : x.w (j + 1) = wj at hr
    cases hs with
    | send h0 =>
      cases hr with
      | @receive _ _ m' _ hm =>
        obtain ⟨_, _, ⟨r, hr⟩⟩ := steps_more he (i := i + 1) (j := j) (by omega) (by omega)
        rw [hwi] at hr
        have hm2 : (x.w j).sent[m]? = some ((x.w i).view t) := by
          rw [hr]
          show ((x.w i).sent ++ [(x.w i).view t] ++ r)[m]? = _
          rw [List.append_assoc, List.getElem?_append_right (by omega), h3, Nat.sub_self]
          rfl
        rw [hm2] at hm
        cases hm
        rw [see_view, if_pos rfl]
        exact Nat.le_max_right _ _
  | start h hi _ => exact absurd hi id
  | trans _ _ ih1 ih2 => exact ⟨ih1.1, ih2.2.1, Nat.le_trans ih1.2.2 ih2.2.2⟩

/-- Values in modification order. -/
theorem sorted_get {l : List Nat} (h : l.Pairwise (· < ·)) {a b u v : Nat} (hab : a ≤ b) (ha : l[a]? = some u) (hb : l[b]? = some v) :
    u ≤ v := by
  rcases Nat.lt_or_eq_of_le hab with hlt | rfl
  · obtain ⟨h1, rfl⟩ := List.getElem?_eq_some_iff.mp ha
    obtain ⟨h2, rfl⟩ := List.getElem?_eq_some_iff.mp hb
    exact Nat.le_of_lt (List.pairwise_iff_getElem.mp h a b h1 h2 hlt)
  · rw [ha] at hb; cases hb; exact Nat.le_refl _

/-- A value that was written stays in its place. -/
theorem mods_later (he : EnvOK init (calls x.ev N)) {i j m v : Nat} (h : i ≤ j) (hj : j ≤ N) (hv : (x.w i).mods[m]? = some v) :
    (x.w j).mods[m]? = some v := by
  obtain ⟨_, ⟨r, hr⟩, _⟩ := steps_more he h hj
  rw [hr, List.getElem?_append_left (List.getElem?_eq_some_iff.mp hv).1]
  exact hv

/-- What a load knows. -/
theorem load_known {j t v : Nat} (hj : j < N) (h : x.ev j = some (.load t v)) :
    (x.w j).mods[x.known j]? = some v := by
  have hs := x.step j hj
  unfold Exec.known
  rw [h] at hs ⊢
  generalize x.w (j + 1) = w' at hs ⊢
  cases hs with
  | load _ hm hv =>
    show (x.w j).mods[((x.w j).see t _).view t]? = _
    rw [see_view, if_pos rfl]
    exact hv

/-- What the return of a call knows. -/
theorem ret_known (he : EnvOK init (calls x.ev N)) {i : Nat} {q : Option Nat} (hi : i < N) (h : x.ev i = some (.ret q)) :
    (x.w i).mods[x.known i]? = some (usageAfter (calls x.ev i)) := by
  have hs := x.step i hi
  have g := good_at he i (by omega)
  unfold Exec.known
  rw [h] at hs ⊢
  generalize x.w (i + 1) = w' at hs ⊢
  obtain ⟨last, hlast, hp⟩ := g.pos
  cases hs with
  | @ret _ s hpc =>
    show (x.w i).mods[(x.w i).view 0]? = _
    have hp : ∃ log, run init [] (calls x.ev i) = .ok (s.join last, log) := by
      rcases hp with ⟨hp, _⟩ | ⟨_, _, hp, h2⟩ | ⟨_, _, _, hp, _⟩
      · rw [hpc] at hp; cases hp
      · rw [hpc] at hp; cases hp; exact h2
      · rw [hpc] at hp; cases hp
    obtain ⟨log, hr⟩ := hp
    have h1 : (x.w i).view 0 = (x.w i).mods.length - 1 := by have := g.own; omega
    rw [h1, ← List.getLast?_eq_getElem?, hlast, usageAfter, hr]
    rfl

/-- How many of the calls a read that returned `v` at step `j` has seen. -/
def Exec.seen (x : Exec N) (j v : Nat) : Nat :=
  Nat.findGreatest (fun k => usageAfter ((calls x.ev N).take k) ≤ v) (calls x.ev j).length

theorem calls_take (x : Exec N) {j : Nat} (hj : j ≤ N) {k : Nat} (hk : k ≤ (calls x.ev j).length) :
    (calls x.ev N).take k = (calls x.ev j).take k := by
  obtain ⟨r, hr⟩ := calls_prefix x.ev hj
  rw [hr, List.take_append_of_le_length hk]

theorem seen_eq (he : EnvOK init (calls x.ev N)) {j t v : Nat} (hj : j < N) (h : x.ev j = some (.load t v)) :
    usageAfter ((calls x.ev N).take (x.seen j v)) = v := by
  have hv := load_known hj h
  obtain ⟨k, hk, hkv⟩ := (good_at he j (by omega)).vals v (List.mem_of_getElem? hv)
  rw [← calls_take x (by omega) hk] at hkv
  have h1 : k ≤ x.seen j v := Nat.le_findGreatest hk (Nat.le_of_eq hkv)
  have h2 : usageAfter ((calls x.ev N).take (x.seen j v)) ≤ v :=
    Nat.findGreatest_spec (P := fun k => usageAfter ((calls x.ev N).take k) ≤ v) hk (Nat.le_of_eq hkv)
  have h3 := usage_mono he h1
  omega

end ArenaConc
end Lsmdb
