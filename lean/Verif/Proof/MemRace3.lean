import Verif.Proof.MemRace2

/-!
# No data races in the in-memory Env
-/

namespace Lsmdb
namespace MemConc
open MemEnv Spec
open CacheConc (Tid Prog)

/-- While the Env is being destroyed, other calls are for file objects. -/
theorem pending_destroy {t u : Tid} {o' : Op} (ne : t ≠ u) : ∀ {H}, AllPermitted H → pending H t = some .destroyEnv →
    pending H u = some o' → target o' ≠ none := by
  intro H
  induction H with
  | nil => intro _ h; cases h
  | cons e H ih =>
    intro ap hp hp'
    cases e with
    | call v q =>
      have pm := ap v q H (List.suffix_refl _)
      simp only [pending] at hp hp'
      by_cases e : v = t
      · rw [if_pos e] at hp
        rw [if_neg (by rintro rfl; exact ne e.symm)] at hp'
        injection hp with hp
        exact pm.last hp u o' hp'
      · rw [if_neg e] at hp
        by_cases e' : v = u
        · rw [if_pos e'] at hp'
          injection hp' with hp'
          subst hp'
          intro ht
          exact pm.notDestroyed ht t (pending_mem hp)
        · rw [if_neg e'] at hp'
          exact ih ap.tail hp hp'
    | ret v x =>
      simp only [pending] at hp hp'
      by_cases e : v = t
      · rw [if_pos e] at hp; cases hp
      · rw [if_neg e] at hp
        by_cases e' : v = u
        · rw [if_pos e'] at hp'; cases hp'
        · rw [if_neg e'] at hp'
          exact ih ap.tail hp hp'

variable {w : World} {H : Hist}

def Access (w : World) (t : Tid) (l : Loc) : Prop := ReadsNext w t l ∨ WritesNext w t l

/-- The thread is about to execute statement `f`, which accesses `l`. -/
theorem access_act (r : Run w H) (nf : ¬ Faulty w) {t : Tid} {β : Type} {f : Env → M (Env × β)} {next : β → Code} {l : Loc}
    (h : w.pc t = .run (.act f next)) (x : Race.Reads memory f l w.env ∨ Race.Writes memory f l w.env) :
    ∃ o ls e b, pending H t = some o ∧ (∀ l, w.owner l = some t ↔ l ∈ ls) ∧ f w.env = .ok (e, b) ∧
      ((MayRead o ls l ∧ There w.env l ∧ (∀ e0 e1 b, f e0 = .ok (e1, b) → There e0 l) ∧ (Race.Writes memory f l w.env → MayWrite o ls l)) ∨
        (New w.env l ∧ MayNew o ls)) := by
  have ht := r.tidy t
  rw [h] at ht
  obtain ⟨o, ls, h1, h2⟩ := ht
  obtain ⟨R, W, N, F, f1, f2, f3⟩ := h2.disc.1
  cases hf : f w.env with
  | error y => exact absurd (Faulty.act h hf) nf
  | ok q =>
    obtain ⟨e, b⟩ := q
    refine ⟨o, ls, e, b, h1, h2.held, rfl, ?_⟩
    have main : R l → (MayRead o ls l ∧ There w.env l ∧ (∀ e0 e1 b, f e0 = .ok (e1, b) → There e0 l) ∧
        (Race.Writes memory f l w.env → MayWrite o ls l)) := by
      intro hR
      refine ⟨f1 l hR, F.there hf hR, fun e0 e1 b h => F.there h hR, fun hw => ?_⟩
      rcases F.writes hw with hW | ⟨_, hN⟩
      · exact f2 l hW
      · exact absurd hN (F.there hf hR).not_new
    rcases x with x | x
    · exact .inl (main (F.reads x))
    · rcases F.writes x with hW | ⟨hN, hn⟩
      · exact .inl (main (F.sub l hW))
      · exact .inr ⟨hn, f3 hN⟩

theorem Access.cases {t : Tid} {l : Loc} (ha : Access w t l) :
    (∃ (β : Type) (f : Env → M (Env × β)) (next : β → Code), w.pc t = .run (.act f next) ∧
      (Race.Reads memory f l w.env ∨ Race.Writes memory f l w.env) ∧ (WritesNext w t l → Race.Writes memory f l w.env)) ∨
    (∃ m next, (w.pc t = .run (.lock m next) ∨ w.pc t = .run (.unlock m next)) ∧ l = .mutex m) ∨
    (∃ i next, w.pc t = .run (.free i next) ∧ (l = .refs i ∨ l = .content i ∨ l = .mutex (.refs i) ∨ l = .mutex (.blocks i))) ∨
    (∃ next, w.pc t = .run (.gone next) ∧ (l = .map ∨ l = .mutex .env)) := by
  have act : ∀ {β : Type} {f : Env → M (Env × β)} {next : β → Code}, w.pc t = .run (.act f next) → WritesNext w t l →
      Race.Writes memory f l w.env := by
    intro β f next hp hw
    cases hw with
    | act h x =>
      rw [hp] at h
      injection h with h
      injection h with h0 h1 h2
      subst h0
      cases h1
      exact x
    | freeRefs h => rw [hp] at h; cases h
    | freeContent h => rw [hp] at h; cases h
    | freeRefsMutex h => rw [hp] at h; cases h
    | freeBlocksMutex h => rw [hp] at h; cases h
    | goneMap h => rw [hp] at h; cases h
    | goneMutex h => rw [hp] at h; cases h
  rcases ha with ha | ha
  · cases ha with
    | act h x => exact .inl ⟨_, _, _, h, .inl x, act h⟩
    | lock h => exact .inr (.inl ⟨_, _, .inl h, rfl⟩)
    | unlock h => exact .inr (.inl ⟨_, _, .inr h, rfl⟩)
  · cases ha with
    | act h x => exact .inl ⟨_, _, _, h, .inr x, act h⟩
    | freeRefs h => exact .inr (.inr (.inl ⟨_, _, h, .inl rfl⟩))
    | freeContent h => exact .inr (.inr (.inl ⟨_, _, h, .inr (.inl rfl)⟩))
    | freeRefsMutex h => exact .inr (.inr (.inl ⟨_, _, h, .inr (.inr (.inl rfl))⟩))
    | freeBlocksMutex h => exact .inr (.inr (.inl ⟨_, _, h, .inr (.inr (.inr rfl))⟩))
    | goneMap h => exact .inr (.inr (.inr ⟨_, h, .inl rfl⟩))
    | goneMutex h => exact .inr (.inr (.inr ⟨_, h, .inr rfl⟩))

/-- Nobody accesses a `FileState` that is about to be freed. -/
theorem free_alone (r : Run w H) (nf : ∀ {w'}, Run w' H → ¬ Faulty w') {t u : Tid} (ne : t ≠ u) {i : Nat} {next : Code} {l : Loc}
    (ht : w.pc t = .run (.free i next)) (hl : l = .refs i ∨ l = .content i ∨ l = .mutex (.refs i) ∨ l = .mutex (.blocks i)) :
    ¬ Access w u l := by
  intro hu
  have hc : Live w.env i ∧ w.owner (.refs i) = none ∧ w.owner (.blocks i) = none := by
    apply Classical.byContradiction
    exact fun h => nf r (.free ht h)
  have s := Step.free ht hc.1 hc.2.1 hc.2.2
  have nf' := nf (Run.internal r s)
  have hpc : ({ w with env := { w.env with files := w.env.files.set i none, freed := w.env.freed ++ [i] } }.at t (.run next)).pc u = w.pc u :=
    at_other _ _ ne.symm
  have dead : ¬ Live { w.env with files := w.env.files.set i none, freed := w.env.freed ++ [i] } i := by
    rintro ⟨f, hf⟩
    have hf : (w.env.files.set i none)[i]? = some (some f) := hf
    simp [List.getElem?_set] at hf
  rcases hu.cases with ⟨β, f, nx, hp, hx, _⟩ | ⟨m, nx, hp, rfl⟩ | ⟨j, nx, hp, hl'⟩ | ⟨nx, hp, hl'⟩
  · obtain ⟨o, ls, e, b, -, -, -, h⟩ := access_act r (nf r) hp hx
    rcases h with ⟨hr, -, hth, -⟩ | ⟨hn, -⟩
    · cases hf : f { w.env with files := w.env.files.set i none, freed := w.env.freed ++ [i] } with
      | error y => exact nf' (.act (hpc.trans hp) hf)
      | ok q =>
        have := hth _ _ _ hf
        rcases hl with rfl | rfl | rfl | rfl
        · exact dead this
        · exact dead this
        · exact hr
        · exact hr
    · rcases hl with rfl | rfl | rfl | rfl
      · exact There.not_new (l := .refs i) hc.1 hn
      · exact There.not_new (l := .content i) hc.1 hn
      · exact hn
      · exact hn
  · have hm : ¬ ({ w with env := { w.env with files := w.env.files.set i none, freed := w.env.freed ++ [i] } }.at t (.run next)).Has m := by
      rcases hl with hl | hl | hl | hl
      · cases hl
      · cases hl
      · injection hl with hl; subst hl; exact dead
      · injection hl with hl; subst hl; exact dead
    rcases hp with hp | hp
    · exact nf' (.lock (hpc.trans hp) hm)
    · exact nf' (.unlock (hpc.trans hp) fun h => hm h.1)
  · have hj : j = i := by
      rcases hl with rfl | rfl | rfl | rfl <;> rcases hl' with hl | hl | hl | hl <;> cases hl <;> rfl
    subst hj
    exact nf' (.free (hpc.trans hp) fun h => dead h.1)
  · rcases hl with rfl | rfl | rfl | rfl <;> rcases hl' with hl | hl <;> cases hl

/-- Nobody accesses the Env when it is about to be freed. -/
theorem gone_alone (r : Run w H) (nf : ¬ Faulty w) {t u : Tid} (ne : t ≠ u) {next : Code} {l : Loc}
    (ht : w.pc t = .run (.gone next)) (hl : l = .map ∨ l = .mutex .env) : ¬ Access w u l := by
  intro hu
  have htt := r.tidy t
  rw [ht] at htt
  obtain ⟨o, ls, h1, h2⟩ := htt
  have ho : o = .destroyEnv := h2.disc.1
  subst ho
  have other : ∀ o', pending H u = some o' → target o' ≠ none := fun o' h => pending_destroy ne r.permitted h1 h
  rcases hu.cases with ⟨β, f, nx, hp, hx, _⟩ | ⟨m, nx, hp, rfl⟩ | ⟨j, nx, hp, hl'⟩ | ⟨nx, hp, hl'⟩
  · obtain ⟨o', ls', e, b, hpe, -, -, h⟩ := access_act r nf hp hx
    rcases h with ⟨hr, -⟩ | ⟨hn, -⟩
    · rcases hl with rfl | rfl
      · exact other o' hpe hr.1
      · exact hr
    · rcases hl with rfl | rfl <;> exact hn
  · have hm : m = .env := by rcases hl with hl | hl <;> cases hl; rfl
    subst hm
    have hut := r.tidy u
    rcases hp with hp | hp <;> rw [hp] at hut
    · obtain ⟨o', ls', g1, g2⟩ := hut
      exact other o' g1 (g2.disc.1 rfl)
    · refine nf (.gone ht ?_)
      rintro ⟨_, ho⟩
      refine nf (.unlock hp ?_)
      rintro ⟨_, ho'⟩
      rw [ho] at ho'
      cases ho'
  · rcases hl with rfl | rfl <;> rcases hl' with hl | hl | hl | hl <;> cases hl
  · have hut := r.tidy u
    rw [hp] at hut
    obtain ⟨o', ls', g1, g2⟩ := hut
    have : o' = .destroyEnv := g2.disc.1
    subst this
    exact other _ g1 rfl

theorem no_race (r : Run w H) (nf : ∀ {w'}, Run w' H → ¬ Faulty w') : ¬ DataRace w := by
  rintro ⟨t, u, l, ne, ht, hu⟩
  have hu : Access w u l := hu
  have ht' : Access w t l := .inr ht
  rcases ht'.cases with ⟨β, f, nx, hp, hx, hw⟩ | ⟨m, nx, hp, rfl⟩ | ⟨j, nx, hp, hl⟩ | ⟨nx, hp, hl⟩
  · rcases hu.cases with ⟨β', f', nx', hp', hx', _⟩ | ⟨m', nx', hp', rfl⟩ | ⟨j', nx', hp', hl'⟩ | ⟨nx', hp', hl'⟩
    · obtain ⟨o, ls, e, b, g1, g2, -, g3⟩ := access_act r (nf r) hp hx
      obtain ⟨o', ls', e', b', g1', g2', -, g3'⟩ := access_act r (nf r) hp' hx'
      have excl : ∀ m, m ∈ ls → m ∈ ls' → False := by
        intro m h h'
        have h := (g2 m).2 h
        rw [(g2' m).2 h'] at h
        injection h with h
        exact ne h.symm
      rcases g3 with ⟨a1, a2, -, a4⟩ | ⟨a1, a2⟩
      · rcases g3' with ⟨c1, c2, -, -⟩ | ⟨c1, c2⟩
        · have a4 := a4 (hw ht)
          cases l with
          | map =>
            rcases a1.2 with h | rfl
            · rcases c1.2 with h' | rfl
              · exact excl _ h h'
              · exact pending_destroy ne.symm r.permitted g1' g1 a1.1
            · exact pending_destroy ne r.permitted g1 g1' c1.1
          | refs i => exact excl _ a1 c1
          | content i => exact excl _ a1 c1
          | obj h => exact a4.2 (pending_uniq_ne ne r.permitted g1 g1' a4.1 c1).1
          | mutex m => exact a1
        · exact a2.not_new c1
      · rcases g3' with ⟨c1, c2, -, -⟩ | ⟨c1, c2⟩
        · exact c2.not_new a1
        · exact excl _ a2.2 c2.2
    · obtain ⟨o, ls, e, b, g1, g2, -, g3⟩ := access_act r (nf r) hp hx
      rcases g3 with ⟨a1, -⟩ | ⟨a1, -⟩ <;> exact a1
    · exact free_alone r nf ne.symm hp' hl' ht'
    · exact gone_alone r (nf r) ne.symm hp' hl' ht'
  · cases ht with
    | act h x =>
      rcases hp with hp | hp <;> rw [hp] at h <;> cases h
    | freeRefsMutex h => rcases hp with hp | hp <;> rw [hp] at h <;> cases h
    | freeBlocksMutex h => rcases hp with hp | hp <;> rw [hp] at h <;> cases h
    | goneMutex h => rcases hp with hp | hp <;> rw [hp] at h <;> cases h
  · exact free_alone r nf ne hp hl hu
  · exact gone_alone r (nf r) ne hp hl hu

end MemConc
end Lsmdb
