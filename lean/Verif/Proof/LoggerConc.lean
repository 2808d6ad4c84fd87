import Verif.Spec.LoggerConc
import Verif.Props.Logger

namespace Lsmdb
namespace LoggerConc
open Logger

theorem set_same {β : Type} (f : Nat → β) (t : Nat) (v : β) : set f t v t = v := by simp [set]
theorem set_other {β : Type} (f : Nat → β) {t u : Nat} (v : β) (h : u ≠ t) : set f t v u = f u := by simp [set, h]

/-- What the holder of the stream's lock has still to put into the buffer. -/
def pending (w : World) : Bytes :=
  match w.owner with
  | none => []
  | some t => match w.pc t with
    | .writing rest => rest
    | _ => []

/-- What holds of a thread. -/
def ThreadOK (w : World) (L : List Entry) (t : Nat) : Prop :=
  match w.pc t with
  | .idle => callsOf L t = w.calls t ∧ w.returned t = (w.calls t).length ∧ w.owner ≠ some t
  | .fwrite txt => (∃ c, w.calls t = callsOf L t ++ [c] ∧ (⟨t, c, txt⟩ : Entry).OK) ∧ w.returned t + 1 = (w.calls t).length ∧ w.owner ≠ some t
  | .writing _ => callsOf L t = w.calls t ∧ w.returned t + 1 = (w.calls t).length ∧ w.owner = some t
  | .fflush => callsOf L t = w.calls t ∧ w.returned t + 1 = (w.calls t).length ∧ w.owner ≠ some t
  | .flushing => callsOf L t = w.calls t ∧ w.returned t + 1 = (w.calls t).length ∧ w.owner = some t

structure Inv (f0 : Bytes) (w : World) (L : List Entry) : Prop where
  ok : ∀ e ∈ L, e.OK
  all : w.file ++ w.buffer ++ pending w = f0 ++ text L
  thread : ∀ t, ThreadOK w L t
  flushed : ∃ L0, L0 <+: L ∧ f0 ++ text L0 <+: w.file ∧ ∀ t, w.returned t ≤ (callsOf L0 t).length

theorem text_append (L : List Entry) (e : Entry) : text (L ++ [e]) = text L ++ e.line := by simp [text]

theorem callsOf_append (L : List Entry) (e : Entry) (t : Nat) :
    callsOf (L ++ [e]) t = callsOf L t ++ (if e.thread = t then [e.call] else []) := by
  unfold callsOf
  rw [List.filter_append, List.map_append]
  by_cases h : e.thread = t <;> simp [h]

/-- A thread that is neither affected by the step nor gets or loses the lock. -/
theorem threadOK_other {w w' : World} {L L' : List Entry} {u : Nat} (h : ThreadOK w L u) (hp : w'.pc u = w.pc u)
    (hc : w'.calls u = w.calls u) (hr : w'.returned u = w.returned u) (hL : callsOf L' u = callsOf L u)
    (ho : (w'.owner = some u ↔ w.owner = some u)) : ThreadOK w' L' u := by
  unfold ThreadOK at h ⊢
  rw [hp, hc, hr, hL]
  cases hq : w.pc u <;> rw [hq] at h <;> simp only [ne_eq, ho] <;> exact h

theorem inv_step {ndebug : Bool} {f0 : Bytes} {w w' : World} {L : List Entry} {t : Nat} (h : Inv f0 w L) (hs : Step ndebug t w w')
    (hg : ∀ t, ∀ c ∈ w'.calls t, GoodCall c) : ∃ L', Inv f0 w' L' := by
  have ht := h.thread t
  cases hs with
  | @format c text leaked hp hl =>
    have hgc : GoodCall c := hg t c (by simp [set])
    obtain ⟨h1, h2, h3, m, h4, h5⟩ := hgc
    obtain ⟨line, e, H⟩ := C61_line_partial ndebug c.time c.thread_id m h1 h2 h3 h5
    rw [h4, e] at hl
    have htext : line = text := by injection hl with hl; injection hl with hl _; injection hl
    subst htext
    unfold ThreadOK at ht
    rw [hp] at ht
    have hpend : pending { w with pc := set w.pc t (.fwrite line), calls := set w.calls t (w.calls t ++ [c]) } = pending w := by
      unfold pending
      simp only
      cases ho : w.owner with
      | none => rfl
      | some u =>
        have : u ≠ t := by intro e; subst e; exact ht.2.2 ho
        simp only [set_other _ _ this]
    refine ⟨L, h.ok, by rw [hpend]; exact h.all, ?_, h.flushed⟩
    intro u
    by_cases hu : u = t
    · subst hu
      unfold ThreadOK
      simp only [set_same]
      refine ⟨⟨c, by rw [ht.1], m, h4, H⟩, ?_, ht.2.2⟩
      rw [ht.2.1]; simp
    · exact threadOK_other (h.thread u) (set_other _ _ hu) (set_other _ _ hu) rfl rfl Iff.rfl
  | @lock txt hp ho =>
    unfold ThreadOK at ht
    rw [hp] at ht
    obtain ⟨⟨c, hc, hok⟩, hret, _⟩ := ht
    obtain ⟨L0, hL0, hf, hcount⟩ := h.flushed
    refine ⟨L ++ [⟨t, c, txt⟩], ?_, ?_, ?_, L0, List.IsPrefix.trans hL0 (List.prefix_append _ _), hf, hcount⟩
    · intro e he
      rcases List.mem_append.mp he with he | he
      · exact h.ok e he
      · simp only [List.mem_singleton] at he; subst he; exact hok
    · have h1 := h.all
      have h0 : pending w = [] := by unfold pending; rw [ho]
      rw [h0, List.append_nil] at h1
      have h2 : pending { w with pc := set w.pc t (.writing txt), owner := some t } = txt := by
        unfold pending; simp only [set_same]
      rw [h2, text_append, ← List.append_assoc, ← h1]
    · intro u
      by_cases hu : u = t
      · subst hu
        unfold ThreadOK
        simp only [set_same]
        rw [callsOf_append]
        simp only [if_true]
        exact ⟨hc.symm, hret, trivial⟩
      · refine threadOK_other (h.thread u) (set_other _ _ hu) rfl rfl ?_ ?_
        · rw [callsOf_append]; simp [Ne.symm hu]
        · simp only [ho, Option.some.injEq]
          exact ⟨fun e => absurd e.symm hu, fun e => by cases e⟩
  | @put now rest hp =>
    unfold ThreadOK at ht
    rw [hp] at ht
    refine ⟨L, h.ok, ?_, ?_, h.flushed⟩
    · have h1 := h.all
      have e1 : pending w = now ++ rest := by unfold pending; rw [ht.2.2]; simp only [hp]
      have e2 : pending { w with pc := set w.pc t (.writing rest), buffer := w.buffer ++ now } = rest := by
        unfold pending; simp only [ht.2.2, set_same]
      rw [e1] at h1
      rw [e2, ← h1]
      simp
    · intro u
      by_cases hu : u = t
      · subst hu
        unfold ThreadOK
        simp only [set_same]
        exact ht
      · exact threadOK_other (h.thread u) (set_other _ _ hu) rfl rfl rfl Iff.rfl
  | @drain now rest ho hb =>
    obtain ⟨L0, hL0, hf, hcount⟩ := h.flushed
    refine ⟨L, h.ok, ?_, ?_, L0, hL0, List.IsPrefix.trans hf (List.prefix_append _ _), hcount⟩
    · have h1 := h.all
      rw [hb] at h1
      have e : pending { w with file := w.file ++ now, buffer := rest } = pending w := rfl
      rw [e, ← h1]
      simp
    · intro u; exact threadOK_other (h.thread u) rfl rfl rfl rfl Iff.rfl
  | written hp =>
    unfold ThreadOK at ht
    rw [hp] at ht
    refine ⟨L, h.ok, ?_, ?_, h.flushed⟩
    · have h1 := h.all
      have e1 : pending w = [] := by unfold pending; rw [ht.2.2]; simp only [hp]
      rw [e1] at h1
      exact h1
    · intro u
      by_cases hu : u = t
      · subst hu
        unfold ThreadOK
        simp only [set_same]
        exact ⟨ht.1, ht.2.1, by simp⟩
      · refine threadOK_other (h.thread u) (set_other _ _ hu) rfl rfl rfl ?_
        rw [ht.2.2]
        simp only [Option.some.injEq]
        exact ⟨(fun e => by cases e), (fun e => absurd e.symm hu)⟩
  | lockFlush hp ho =>
    unfold ThreadOK at ht
    rw [hp] at ht
    refine ⟨L, h.ok, ?_, ?_, h.flushed⟩
    · have h1 := h.all
      have e1 : pending w = [] := by unfold pending; rw [ho]
      have e2 : pending { w with pc := set w.pc t .flushing, owner := some t } = [] := by unfold pending; simp only [set_same]
      rw [e1] at h1
      rw [e2]
      exact h1
    · intro u
      by_cases hu : u = t
      · subst hu
        unfold ThreadOK
        simp only [set_same]
        exact ⟨ht.1, ht.2.1, trivial⟩
      · refine threadOK_other (h.thread u) (set_other _ _ hu) rfl rfl rfl ?_
        simp only [ho, Option.some.injEq]
        exact ⟨fun e => absurd e.symm hu, fun e => by cases e⟩
  | flushed hp hb =>
    unfold ThreadOK at ht
    rw [hp] at ht
    have e1 : pending w = [] := by unfold pending; rw [ht.2.2]; simp only [hp]
    have h1 := h.all
    rw [e1, hb, List.append_nil, List.append_nil] at h1
    refine ⟨L, h.ok, ?_, ?_, L, List.prefix_refl _, by rw [← h1]; exact List.prefix_refl _, ?_⟩
    · have e2 : pending { w with pc := set w.pc t .idle, owner := none, returned := set w.returned t (w.returned t + 1) } = [] := rfl
      rw [e2, hb, List.append_nil, List.append_nil]
      exact h1
    · intro u
      by_cases hu : u = t
      · subst hu
        unfold ThreadOK
        simp only [set_same]
        exact ⟨ht.1, ht.2.1, by simp⟩
      · refine threadOK_other (h.thread u) (set_other _ _ hu) rfl (set_other _ _ hu) rfl ?_
        rw [ht.2.2]
        simp only [Option.some.injEq]
        exact ⟨(fun e => by cases e), (fun e => absurd e.symm hu)⟩
    · intro u
      obtain ⟨L0, hL0, hf, hcount⟩ := h.flushed
      by_cases hu : u = t
      · subst hu
        simp only [set_same]
        rw [ht.1, ht.2.1]
      · simp only [set_other _ _ hu]
        refine Nat.le_trans (hcount u) ?_
        obtain ⟨ex, rfl⟩ := hL0
        unfold callsOf
        rw [List.filter_append, List.map_append, List.length_append]
        omega

theorem step_calls {ndebug : Bool} {w w' : World} {t : Nat} (hs : Step ndebug t w w') (u : Nat) : w.calls u <+: w'.calls u := by
  cases hs <;> try exact List.prefix_refl _
  rename_i c _ _ _ _
  by_cases hu : u = t
  · subst hu; simp only [set_same]; exact List.prefix_append _ _
  · simp only [set_other _ _ hu]; exact List.prefix_refl _

theorem reach_inv {ndebug : Bool} {f0 : Bytes} {w : World} (h : Reach ndebug f0 w) (hg : ∀ t, ∀ c ∈ w.calls t, GoodCall c) :
    ∃ L, Inv f0 w L := by
  induction h with
  | init =>
    refine ⟨[], (fun e he => by cases he), by simp [World.init, pending, text], ?_, [], List.prefix_refl _, ?_, ?_⟩
    · intro t; unfold ThreadOK; simp [World.init, callsOf]
    · simp [World.init, text]
    · intro t; simp [World.init]
  | step t _ hs ih =>
    obtain ⟨L, hi⟩ := ih (fun u c hc => hg u c ((step_calls hs u).subset hc))
    exact inv_step hi hs hg

theorem Steps.trans {ndebug : Bool} {w w' w'' : World} (h : Steps ndebug w w') (h' : Steps ndebug w' w'') : Steps ndebug w w'' := by
  induction h with
  | refl => exact h'
  | cons t hs hc _ ih => exact .cons t hs hc (ih h')

theorem Steps.one {ndebug : Bool} {w w' : World} (t : Nat) (h : Step ndebug t w w') (hc : w'.calls = w.calls) : Steps ndebug w w' :=
  .cons t h hc (.refl _)

theorem Steps.reach {ndebug : Bool} {f0 : Bytes} {w w' : World} (h : Steps ndebug w w') (hr : Reach ndebug f0 w) : Reach ndebug f0 w' := by
  induction h with
  | refl => exact hr
  | cons t hs _ _ ih => exact ih (.step t hr hs)

theorem Steps.calls {ndebug : Bool} {w w' : World} (h : Steps ndebug w w') : w'.calls = w.calls := by
  induction h with
  | refl => rfl
  | cons t _ hc _ ih => exact ih.trans hc

/-- From inside `fwrite` to before `fflush`. -/
theorem end_write {ndebug : Bool} {w : World} {t : Nat} {rest : Bytes} (hp : w.pc t = .writing rest) :
    ∃ w', Steps ndebug w w' ∧ w'.owner = none ∧ w'.pc t = .fflush ∧ ∀ u, u ≠ t → w'.pc u = w.pc u := by
  have hp' : w.pc t = .writing (rest ++ []) := by rw [List.append_nil]; exact hp
  have s1 := Step.put (ndebug := ndebug) (t := t) hp'
  refine ⟨_, (Steps.one t s1 rfl).trans (Steps.one t (Step.written (by simp only [set_same])) rfl), rfl, by simp only [set_same], ?_⟩
  intro u hu
  simp only [set_other _ _ hu]

/-- From inside `fflush` to the return. -/
theorem end_flush {ndebug : Bool} {w : World} {t : Nat} (hp : w.pc t = .flushing) (ho : w.owner = some t) :
    ∃ w', Steps ndebug w w' ∧ w'.owner = none ∧ w'.pc t = .idle ∧ ∀ u, u ≠ t → w'.pc u = w.pc u := by
  have s1 := Step.drain (ndebug := ndebug) (w := w) (now := w.buffer) (rest := []) ho (by simp)
  refine ⟨_, (Steps.one t s1 rfl).trans (Steps.one t (Step.flushed hp rfl) rfl), rfl, by simp only [set_same], ?_⟩
  intro u hu
  simp only [set_other _ _ hu]

theorem from_fflush {ndebug : Bool} {w : World} {t : Nat} (hp : w.pc t = .fflush) (ho : w.owner = none) :
    ∃ w', Steps ndebug w w' ∧ w'.owner = none ∧ w'.pc t = .idle := by
  have s1 := Step.lockFlush (ndebug := ndebug) hp ho
  obtain ⟨w', h1, h2, h3, _⟩ := end_flush (ndebug := ndebug)
    (w := { w with pc := set w.pc t .flushing, owner := some t }) (t := t) (by simp only [set_same]) rfl
  exact ⟨w', (Steps.one t s1 rfl).trans h1, h2, h3⟩

theorem from_free {ndebug : Bool} {w : World} {t : Nat} (ho : w.owner = none) (hi : ∀ rest, w.pc t ≠ .writing rest) (hi' : w.pc t ≠ .flushing) :
    ∃ w', Steps ndebug w w' ∧ w'.owner = none ∧ w'.pc t = .idle := by
  cases hp : w.pc t with
  | idle => exact ⟨w, .refl _, ho, hp⟩
  | writing rest => exact absurd hp (hi rest)
  | flushing => exact absurd hp hi'
  | fflush => exact from_fflush hp ho
  | fwrite text =>
    have s1 := Step.lock (ndebug := ndebug) hp ho
    obtain ⟨w', h1, h2, h3, _⟩ := end_write (ndebug := ndebug)
      (w := { w with pc := set w.pc t (.writing text), owner := some t }) (t := t) (by simp only [set_same]; rfl)
    obtain ⟨w'', h4, h5, h6⟩ := from_fflush (ndebug := ndebug) h3 h2
    exact ⟨w'', (Steps.one t s1 rfl).trans (h1.trans h4), h5, h6⟩

theorem can_return {ndebug : Bool} {f0 : Bytes} {w : World} {L : List Entry} (h : Inv f0 w L) (t : Nat) :
    ∃ w', Steps ndebug w w' ∧ w'.pc t = .idle := by
  cases ho : w.owner with
  | none =>
    have ht := h.thread t
    unfold ThreadOK at ht
    obtain ⟨w', h1, _, h3⟩ := from_free (ndebug := ndebug) (t := t) ho
      (by intro rest hp; rw [hp] at ht; rw [ho] at ht; exact absurd ht.2.2 (by simp))
      (by intro hp; rw [hp] at ht; rw [ho] at ht; exact absurd ht.2.2 (by simp))
    exact ⟨w', h1, h3⟩
  | some u =>
    have hu := h.thread u
    unfold ThreadOK at hu
    have hfree : ∃ w1, Steps ndebug w w1 ∧ w1.owner = none ∧ (w1.pc u = .idle ∨ w1.pc u = .fflush) ∧ ∀ v, v ≠ u → w1.pc v = w.pc v := by
      cases hp : w.pc u with
      | idle => rw [hp] at hu; exact absurd ho hu.2.2
      | fwrite _ => rw [hp] at hu; exact absurd ho hu.2.2
      | fflush => rw [hp] at hu; exact absurd ho hu.2.2
      | writing rest =>
        obtain ⟨w1, a, b, c, d⟩ := end_write (ndebug := ndebug) hp
        exact ⟨w1, a, b, .inr c, d⟩
      | flushing =>
        obtain ⟨w1, a, b, c, d⟩ := end_flush (ndebug := ndebug) hp ho
        exact ⟨w1, a, b, .inl c, d⟩
    obtain ⟨w1, a, b, c, d⟩ := hfree
    have hno : (∀ rest, w1.pc t ≠ .writing rest) ∧ w1.pc t ≠ .flushing := by
      by_cases htu : t = u
      · subst htu
        rcases c with c | c <;> rw [c] <;> exact ⟨(fun _ e => by cases e), (fun e => by cases e)⟩
      · rw [d t htu]
        have ht := h.thread t
        unfold ThreadOK at ht
        refine ⟨fun rest hp => ?_, fun hp => ?_⟩ <;>
        · rw [hp] at ht
          simp only [ho, Option.some.injEq] at ht
          exact htu ht.2.2.symm
    obtain ⟨w', h1, _, h3⟩ := from_free (ndebug := ndebug) (t := t) b hno.1 hno.2
    exact ⟨w', a.trans h1, h3⟩

end LoggerConc
end Lsmdb
