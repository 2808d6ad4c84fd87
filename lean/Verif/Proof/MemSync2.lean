import Verif.Proof.MemSync

/-!
# Executions of the shared in-memory Env: accesses are ordered
-/

namespace Lsmdb
namespace MemConc
open MemEnv
open CacheConc (Tid Prog)

variable {N : Nat}

/-- The next code is another one. -/
theorem code_ne_act {β : Type} (f : Env → M (Env × β)) (next : β → Code) (b : β) : next b ≠ .act f next := by
  have key : ∀ p : Code, ∀ {β : Type} (f : Env → M (Env × β)) (next : β → Code) (b : β), p = .act f next → next b ≠ p := by
    intro p
    induction p with
    | act f0 next0 ih =>
      intro β f next b h hb
      injection h with h1 h2 h3
      subst h1
      cases h2
      cases h3
      exact ih b _ _ b hb rfl
    | ret r => intro _ _ _ _ h; cases h
    | lock _ _ _ => intro _ _ _ _ h; cases h
    | unlock _ _ _ => intro _ _ _ _ h; cases h
    | free _ _ _ => intro _ _ _ _ h; cases h
    | gone _ _ => intro _ _ _ _ h; cases h
  exact fun h => key _ f next b rfl h

theorem code_ne : ∀ (k : Code), (∀ l, k ≠ .lock l k) ∧ (∀ l, k ≠ .unlock l k) ∧ (∀ i, k ≠ .free i k) ∧ k ≠ .gone k := by
  intro k
  induction k with
  | ret r => exact ⟨fun _ => nofun, fun _ => nofun, fun _ => nofun, nofun⟩
  | act f next ih => exact ⟨fun _ => nofun, fun _ => nofun, fun _ => nofun, nofun⟩
  | lock l k ih => exact ⟨fun l' h => ih.1 l' (by injection h with h1 h2; subst h1; exact h2), fun _ => nofun, fun _ => nofun, nofun⟩
  | unlock l k ih => exact ⟨fun _ => nofun, fun l' h => ih.2.1 l' (by injection h with h1 h2; subst h1; exact h2), fun _ => nofun, nofun⟩
  | free l k ih => exact ⟨fun _ => nofun, fun _ => nofun, fun l' h => ih.2.2.1 l' (by injection h with h1 h2; subst h1; exact h2), nofun⟩
  | gone k ih => exact ⟨fun _ => nofun, fun _ => nofun, fun _ => nofun, fun h => ih.2.2.2 (by injection h with h1)⟩

theorem pc_at (w : World) (t u : Tid) (p : Pc) : (w.at t p).pc u = if u = t then p else w.pc u := rfl

theorem own_at (w : World) (t : Tid) (p : Pc) (l : Lock) : (w.at t p).owner l = w.owner l := rfl

theorem owner_own (w : World) (l l' : Lock) (o : Option Tid) : (w.own l o).owner l' = if l' = l then o else w.owner l' := rfl

theorem pc_own (w : World) (l : Lock) (o : Option Tid) : (w.own l o).pc = w.pc := rfl

/-- The thread of a step, and what the step does to the mutexes. -/
theorem step_shape {w w' : World} {e : Option Ev} (s : Step w e w') :
    ∃ t, w'.pc t ≠ w.pc t ∧ (∀ u, u ≠ t → w'.pc u = w.pc u) ∧
      ∀ l, w'.owner l = w.owner l ∨ (w.owner l = none ∧ w'.owner l = some t) ∨ (w.owner l = some t ∧ w'.owner l = none) := by
  have key : ∀ (w1 : World) (t : Tid) (p : Pc), w1.pc = w.pc → p ≠ w.pc t →
      (w1.at t p).pc t ≠ w.pc t ∧ ∀ u, u ≠ t → (w1.at t p).pc u = w.pc u := by
    intro w1 t p h1 h2
    refine ⟨by rw [pc_at, if_pos rfl]; exact h2, fun u hu => ?_⟩
    rw [pc_at, if_neg hu, h1]
  have run : ∀ {c c' : Code}, c ≠ c' → Pc.run c ≠ Pc.run c' := fun h e => h (by injection e)
  cases s with
  | @call t o h =>
    obtain ⟨h1, h2⟩ := key w t (.run (code o)) rfl (by rw [h]; exact nofun)
    exact ⟨t, h1, h2, fun _ => .inl rfl⟩
  | @act t β f next e b h eq =>
    obtain ⟨h1, h2⟩ := key { w with env := e } t (.run (next b)) rfl (by rw [h]; exact run (code_ne_act f next b))
    exact ⟨t, h1, h2, fun _ => .inl rfl⟩
  | @lock t l next h hl free =>
    obtain ⟨h1, h2⟩ := key (w.own l (some t)) t (.run next) rfl (by rw [h]; exact run ((code_ne next).1 l))
    refine ⟨t, h1, h2, fun l' => ?_⟩
    by_cases hl' : l' = l
    · subst hl'
      exact .inr (.inl ⟨free, by rw [own_at, owner_own, if_pos rfl]⟩)
    · exact .inl (by rw [own_at, owner_own, if_neg hl'])
  | @unlock t l next h hl mine =>
    obtain ⟨h1, h2⟩ := key (w.own l none) t (.run next) rfl (by rw [h]; exact run ((code_ne next).2.1 l))
    refine ⟨t, h1, h2, fun l' => ?_⟩
    by_cases hl' : l' = l
    · subst hl'
      exact .inr (.inr ⟨mine, by rw [own_at, owner_own, if_pos rfl]⟩)
    · exact .inl (by rw [own_at, owner_own, if_neg hl'])
  | @free t i next h hl hr hb =>
    obtain ⟨h1, h2⟩ := key { w with env := { w.env with files := w.env.files.set i none, freed := w.env.freed ++ [i] } } t (.run next) rfl
      (by rw [h]; exact run ((code_ne next).2.2.1 i))
    exact ⟨t, h1, h2, fun _ => .inl rfl⟩
  | @gone t next h hl hm =>
    obtain ⟨h1, h2⟩ := key { w with exists_ := false } t (.run next) rfl (by rw [h]; exact run (code_ne next).2.2.2)
    exact ⟨t, h1, h2, fun _ => .inl rfl⟩
  | @ret t r h =>
    obtain ⟨h1, h2⟩ := key w t .idle rfl (by rw [h]; exact nofun)
    exact ⟨t, h1, h2, fun _ => .inl rfl⟩

/-- A thread that moves is the one of the step. -/
theorem step_thread {w w' : World} {e : Option Ev} (s : Step w e w') {t u : Tid} (ht : w'.pc t ≠ w.pc t) (hu : w'.pc u ≠ w.pc u) :
    t = u := by
  obtain ⟨v, -, h, -⟩ := step_shape s
  have h1 : t = v := Classical.byContradiction fun hn => ht (h t hn)
  have h2 : u = v := Classical.byContradiction fun hn => hu (h u hn)
  rw [h1, h2]

theorem Exec.turn (x : Exec N) {n : Nat} (hn : n < N) (l : Lock) : Turn x.sync n l ((x.w n).owner l) ((x.w (n + 1)).owner l) := by
  obtain ⟨t, ht, -, h⟩ := step_shape (x.step n hn)
  rcases h l with h | ⟨h1, h2⟩ | ⟨h1, h2⟩
  · rw [h]
    refine .keep ?_
    rintro ⟨h1, h2⟩
    rw [h] at h2
    exact h1 h2
  · rw [h1, h2]
    exact .lock (fun h => h.1 h1) ⟨h1, by rw [h2]; exact nofun⟩ ht
  · rw [h1, h2]
    exact .unlock ⟨by rw [h1]; exact nofun, h2⟩ ht

theorem Exec.guarded (x : Exec N) (l : Lock) : ∀ n, n ≤ N → Guarded x.sync n ((x.w n).owner l) l
  | 0, _ => .zero
  | n + 1, hn => (x.guarded l n (by omega)).step (x.turn (by omega) l)

/-- Two steps of threads that hold the same mutex are ordered. -/
theorem Exec.ordered (x : Exec N) {i j : Nat} {t u : Tid} {l : Lock} (hij : i < j) (hj : j < N) (hi : x.sync.thread i t)
    (hu : x.sync.thread j u) (oi : (x.w i).owner l = some t) (oj : (x.w j).owner l = some u) : HappensBefore x.sync i j := by
  have has : ∀ n, i < n → n ≤ N → Has x.sync n ((x.w n).owner l) l i := by
    intro n h1
    induction n with
    | zero => exact absurd h1 (Nat.not_lt_zero i)
    | succ n ih =>
      intro hn
      have T := x.turn (n := n) (by omega) l
      rcases Nat.lt_or_ge i n with h | h
      · exact (ih h (by omega)).step T
      · have : n = i := by omega
        subst this
        rw [oi] at T
        exact .own hi T
  exact ((x.guarded l j (by omega)).knows (has j hij (by omega)) oj).before hu

/-- Every thread holds the mutexes that its code relies on. -/
def Held (w : World) (H : Hist) : Prop :=
  ∀ t c, w.pc t = .run c → ∃ L, Locked (pending H t = some .destroyEnv) c L ∧ ∀ l, L l → w.owner l = some t

theorem held_step {w w' : World} {H : Hist} {e : Option Ev} (h : Held w H) (s : Step w e w') : Held w' (e.toList ++ H) := by
  have other : ∀ (t u : Tid), u ≠ t → (∀ v, v ≠ t → w'.pc v = w.pc v) →
      (∀ l, w'.owner l = w.owner l ∨ (w.owner l = none ∧ w'.owner l = some t) ∨ (w.owner l = some t ∧ w'.owner l = none)) →
      ∀ c, w'.pc u = .run c → ∃ L, Locked (pending H u = some .destroyEnv) c L ∧ ∀ l, L l → w'.owner l = some u := by
    intro t u hu h1 h2 c hc
    rw [h1 u hu] at hc
    obtain ⟨L, h3, h4⟩ := h u c hc
    refine ⟨L, h3, fun l hl => ?_⟩
    have h5 := h4 l hl
    rcases h2 l with h6 | ⟨h6, -⟩ | ⟨h6, -⟩
    · rw [h6]; exact h5
    · rw [h6] at h5; cases h5
    · rw [h6] at h5; cases h5; exact absurd rfl hu
  obtain ⟨t0, hm, h1, h2⟩ := step_shape s
  intro u c hc
  by_cases hu : u = t0
  · subst hu
    have mine : ∀ {t : Tid} {p : Pc} {w1 : World}, w1.pc = w.pc → w' = w1.at t p → t = u := by
      rintro t p w1 h3 rfl
      apply Classical.byContradiction
      intro hn
      exact hm (by rw [pc_at, if_neg (Ne.symm hn), h3])
    have pc : ∀ {w1 : World} {p : Pc}, (w1.at u p).pc u = .run c → p = .run c := by
      intro w1 p hc
      rw [pc_at, if_pos rfl] at hc
      exact hc
    cases s with
    | @call t o h3 =>
      have := mine rfl rfl
      subst this
      cases pc hc
      refine ⟨_, ?_, fun l (hl : Only False l) => hl.2.elim⟩
      have : (pending (.call t o :: H) t = some .destroyEnv) = (o = .destroyEnv) := by
        simp only [pending, ↓reduceIte, Option.some.injEq]
      show Locked (pending (.call t o :: H) t = some .destroyEnv) _ _
      rw [this]
      exact locked_code o
    | @act t β f next e b h3 eq =>
      have := mine (w1 := { w with env := e }) rfl rfl
      subst this
      cases pc hc
      obtain ⟨L, h4, h5⟩ := h t _ h3
      exact ⟨L, h4.2 b, h5⟩
    | @lock t l next h3 hl free =>
      have := mine (w1 := w.own l (some t)) rfl rfl
      subst this
      cases pc hc
      obtain ⟨L, h4, h5⟩ := h t _ h3
      refine ⟨_, h4, fun l' hl' => ?_⟩
      rw [own_at, owner_own]
      split
      · rfl
      · rename_i hne
        exact h5 l' (hl'.resolve_left hne)
    | @unlock t l next h3 hl mn =>
      have := mine (w1 := w.own l none) rfl rfl
      subst this
      cases pc hc
      obtain ⟨L, h4, h5⟩ := h t _ h3
      refine ⟨_, h4, fun l' hl' => ?_⟩
      rw [own_at, owner_own, if_neg hl'.1]
      exact h5 l' hl'.2
    | @free t i next h3 hl hr hb =>
      have := mine (w1 := { w with env := { w.env with files := w.env.files.set i none, freed := w.env.freed ++ [i] } }) rfl rfl
      subst this
      cases pc hc
      obtain ⟨L, h4, h5⟩ := h t _ h3
      exact ⟨L, h4, h5⟩
    | @gone t next h3 hl hm =>
      have := mine (w1 := { w with exists_ := false }) rfl rfl
      subst this
      cases pc hc
      obtain ⟨L, h4, h5⟩ := h t _ h3
      exact ⟨L, h4, h5⟩
    | @ret t r h3 =>
      have := mine rfl rfl
      subst this
      cases pc hc
  · obtain ⟨L, h3, h4⟩ := other t0 u hu h1 h2 c hc
    have hp : pending (e.toList ++ H) u = pending H u := by
      cases s with
      | @call t o h0 =>
        have : t ≠ u := by
          rintro rfl
          have := h1 t hu
          rw [pc_at, if_pos rfl, h0] at this
          cases this
        exact if_neg this
      | @ret t r h0 =>
        have : t ≠ u := by
          rintro rfl
          have := h1 t hu
          rw [pc_at, if_pos rfl, h0] at this
          cases this
        exact if_neg this
      | act _ _ => rfl
      | lock _ _ _ => rfl
      | unlock _ _ _ => rfl
      | free _ _ _ _ => rfl
      | gone _ _ _ => rfl
    refine ⟨L, ?_, h4⟩
    rw [hp]
    exact h3

theorem Exec.held (x : Exec N) : ∀ n, n ≤ N → Held (x.w n) (hist x.ev n)
  | 0, _ => by
    intro t c h
    rw [x.start] at h
    cases h
  | n + 1, hn => held_step (x.held n (by omega)) (x.step n (by omega))

/-- Who accesses a part holds its mutex. -/
theorem Exec.access_held (x : Exec N) {i : Nat} {t : Tid} {m : Part} (hi : i ≤ N) (h : x.Accesses i t m)
    (hd : m = .map → pending (hist x.ev i) t ≠ some .destroyEnv) : (x.w i).owner m.guard = some t := by
  obtain ⟨-, hm, β, f, next, hpc, hf⟩ := h
  obtain ⟨L, h1, h2⟩ := x.held i hi t _ hpc
  apply Classical.byContradiction
  intro hn
  exact hf (h1.1 _ _ hm (fun h e => hd e h) fun hl => hn (h2 _ hl))

theorem Exec.accesses_ordered (x : Exec N) {i j : Nat} {t u : Tid} {m : Part} (hij : i < j) (hj : j < N) (ai : x.Accesses i t m)
    (aj : x.Accesses j u m) (hi : m = .map → pending (hist x.ev i) t ≠ some .destroyEnv)
    (hj' : m = .map → pending (hist x.ev j) u ≠ some .destroyEnv) : HappensBefore x.sync i j :=
  x.ordered hij hj ai.1 aj.1 (x.access_held (by omega) ai hi) (x.access_held (by omega) aj hj')

end MemConc
end Lsmdb
