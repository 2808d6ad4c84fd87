import Verif.Proof.CacheReent
import Mathlib.Tactic.ByContra

/-! Deadlocks of a cache whose deleters use it. -/

namespace Lsmdb
namespace CacheReent
open Cache CacheConc

variable {hf : Slice → M UInt32} {react : Nat → Deletion → Script} {w w' : World} {P Q : Nat → Prop}

/-! ## Calls in order -/

theorem About.mono (h : ∀ i, P i → Q i) {c : Call} (hc : About hf P c) : About hf Q c := by
  cases c with
  | insert k _ _ _ => exact fun x hx => h _ (hc x hx)
  | lookup k => exact fun x hx => h _ (hc x hx)
  | erase k => exact fun x hx => h _ (hc x hx)
  | release x => exact h _ hc
  | value x => trivial
  | newId => trivial
  | prune => exact fun i hi => h _ (hc i hi)
  | totalCharge => exact fun i hi => h _ (hc i hi)

theorem Script.About.mono (h : ∀ i, P i → Q i) : ∀ {s : Script}, s.About hf P → s.About hf Q
  | .done, _ => trivial
  | .call _ _, hs => ⟨CacheReent.About.mono h hs.1, fun r => Script.About.mono h (hs.2 r)⟩

/-- The rest of a loop over the shards. -/
def afterAbout (P : Nat → Prop) : After → Prop
  | .prune i => ∀ j, i < j → j < kNumShards → P j
  | .charge i _ => ∀ j, i < j → j < kNumShards → P j
  | _ => True

/-- All shards the call is in or will use. -/
def pcAbout (hf : Slice → M UInt32) (P : Nat → Prop) : Pc → Prop
  | .hashKey c => About hf P c
  | .readHash a => P a.shard
  | .enter i _ a => P i ∧ afterAbout P a
  | .inside i _ _ a => P i ∧ afterAbout P a
  | _ => True

def Level.about (hf : Slice → M UInt32) (P : Nat → Prop) : Level → Prop
  | .ready s => s.About hf P
  | .busy p k => pcAbout hf P p ∧ ∀ r, (k r).About hf P

theorem about_begin {c : Call} (h : About hf P c) : pcAbout hf P (begin c) := by
  cases c with
  | insert k _ _ _ => exact h
  | lookup k => exact h
  | erase k => exact h
  | release x => exact h
  | value x => trivial
  | newId => trivial
  | prune => exact ⟨h 0 (by decide), fun j _ hj => h j hj⟩
  | totalCharge => exact ⟨h 0 (by decide), fun j _ hj => h j hj⟩

theorem about_proceed {a : After} (h : afterAbout P a) (r : MRes) : pcAbout hf P (proceed a r) := by
  unfold proceed
  split
  · trivial
  · rename_i i _
    split
    · rename_i hi
      exact ⟨h _ (Nat.lt_succ_self _) hi, fun j hj => h j (by omega)⟩
    · trivial
  · rename_i i _ _
    split
    · rename_i hi
      exact ⟨h _ (Nat.lt_succ_self _) hi, fun j hj => h j (by omega)⟩
    · trivial
  · trivial

theorem about_move {t : Tid} {n : Nat} {o o' : Nat → Option Tid} {d d' : Option Tid} {p p' : Pc} (m : Move hf t n o d p o' d' p')
    (h : pcAbout hf P p) : pcAbout hf P p' := by
  cases m with
  | hash hk e =>
    rename_i c k x
    cases c with
    | insert k' _ _ _ => cases hk; exact ⟨h _ e, trivial⟩
    | lookup k' => cases hk; exact ⟨h _ e, trivial⟩
    | erase k' => cases hk; exact ⟨h _ e, trivial⟩
    | release x => exact nomatch hk
    | value x => exact nomatch hk
    | newId => exact nomatch hk
    | prune => exact nomatch hk
    | totalCharge => exact nomatch hk
  | readHash a => exact ⟨h, trivial⟩
  | readValue a v => trivial
  | lock m a hi hfree => exact h
  | body i m f q b a => exact h
  | unlock i m r a => exact about_proceed h.2 r
  | idLock hfree => trivial
  | idNext x => trivial
  | idUnlock x => trivial

/-- Every level uses only larger shards than those below it. -/
def Sorted (hf : Slice → M UInt32) (s : List Level) : Prop := s.Pairwise fun l l' => ∀ i, Level.holds i l' → l.about hf (i < ·)

theorem Sorted.top {l l' : Level} {rest : List Level} (h : Sorted hf (l :: rest)) (hl : ∀ P, l.about hf P → l'.about hf P) :
    Sorted hf (l' :: rest) := by
  have := List.pairwise_cons.1 h
  exact List.pairwise_cons.2 ⟨fun x hx i hi => hl _ (this.1 x hx i hi), this.2⟩

theorem sorted_put {t : Tid} {s : List Level} (H : ∀ u, Sorted hf (w.stk u)) (hs : Sorted hf s) (u : Tid) :
    Sorted hf (if u = t then s else w.stk u) := by
  by_cases e : u = t
  · rw [if_pos e]; exact hs
  · rw [if_neg e]; exact H u

theorem sorted_step (hr : Upward hf react) {t : Tid} (H : ∀ t, Sorted hf (w.stk t)) (s : Step hf react w t w') :
    ∀ t, Sorted hf (w'.stk t) := by
  cases s with
  | client s h => exact sorted_put H (List.pairwise_singleton _ _)
  | call h =>
    rename_i c k rest
    have G := H t
    rw [h] at G
    exact sorted_put H (G.top fun P hP => ⟨about_begin hP.1, hP.2⟩)
  | ret h =>
    rename_i r k rest
    have G := H t
    rw [h] at G
    exact sorted_put H (G.top fun P hP => hP.2 r)
  | back h =>
    rename_i rest
    have G := H t
    rw [h] at G
    exact sorted_put H (List.pairwise_cons.1 G).2
  | work h s q =>
    rename_i p k rest v
    have G := H t
    rw [h] at G
    exact sorted_put H (G.top fun P hP => ⟨about_move (move_of s).1 hP.1, hP.2⟩)
  | deleter h s q =>
    rename_i p k rest v i d
    have G := H t
    rw [h] at G
    have G' : Sorted hf (.busy (v.pc t) k :: rest) := G.top fun P hP => ⟨about_move (move_of s).1 hP.1, hP.2⟩
    obtain ⟨-, -, m, p', a, q', hp, hp'⟩ := inside_of s q
    have hs : Sorted hf (.ready (react i d) :: .busy (v.pc t) k :: rest) := by
      refine List.pairwise_cons.2 ⟨?_, G'⟩
      intro l hl j hj
      rcases List.mem_cons.1 hl with e | hl
      · rw [e, hp', holds_inside] at hj
        subst hj
        exact hr _ d
      · have := ((List.pairwise_cons.1 G').1 l hl j hj).1
        rw [hp'] at this
        exact (hr i d).mono fun x hx => Nat.lt_trans this.1 hx
    have H' := sorted_put (w := w) (t := t) H G'
    exact sorted_put (w := w.after t v k rest) H' hs

/-- The owner of `id_mutex_` does not wait. -/
theorem free_id (H : Inv w) (hid : w.idOwner ≠ none) : ∃ u, w.stk u ≠ [] ∧ ¬ w.blocked u := by
  cases e' : w.idOwner with
  | none => exact (hid e').elim
  | some v =>
    obtain ⟨x, r, hx, hx'⟩ := (H.good v).id.1 e'
    refine ⟨v, by rw [hx]; exact nofun, ?_⟩
    rintro (⟨j, ⟨m, a, k, rest, hj⟩, _⟩ | ⟨⟨k, rest, hj⟩, _⟩)
    · rw [hj] at hx; cases hx; exact (noId hx' ⟨nofun, nofun⟩).elim
    · rw [hj] at hx; cases hx; exact (noId hx' ⟨nofun, nofun⟩).elim

/-- With threads waiting for mutexes, one is not waiting. -/
theorem free_one (H : Inv w) (hs : ∀ t, Sorted hf (w.stk t)) : ∀ (n i : Nat) (t : Tid), w.cache.shards.length - i ≤ n → w.wants t i →
    w.owner i ≠ none → ∃ u, w.stk u ≠ [] ∧ ¬ w.blocked u := by
  intro n
  induction n with
  | zero =>
    intro i t hn _ ho
    have := H.range i ho
    omega
  | succ n ih =>
    intro i t hn hw ho
    have hi := H.range i ho
    cases e : w.owner i with
    | none => exact (ho e).elim
    | some u =>
      obtain ⟨l, hl, hl'⟩ := (H.good u).back i e
      by_cases hb : w.blocked u
      · rcases hb with ⟨j, ⟨m, a, k, rest, hj⟩, hoj⟩ | ⟨⟨k, rest, hj⟩, hid⟩
        · have hlr : l ∈ rest := by
            rw [hj] at hl
            rcases List.mem_cons.1 hl with e' | hl
            · rw [e'] at hl'; exact (noHold hl' nofun).elim
            · exact hl
          have hS := hs u
          rw [hj] at hS
          have hlt : i < j := ((List.pairwise_cons.1 hS).1 l hlr i hl').1.1
          exact ih j u (by omega) ⟨m, a, k, rest, hj⟩ hoj
        · exact free_id H hid
      · refine ⟨u, ?_, hb⟩
        intro e'
        rw [e'] at hl
        exact nomatch hl

/-! ## Deadlocks are for ever -/

theorem enter_free {t : Tid} {n i : Nat} {m : Method} {a : After} {o o' : Nat → Option Tid} {d d' : Option Tid} {p' : Pc}
    (s : Move hf t n o d (.enter i m a) o' d' p') : o i = none := by
  cases s; assumption

/-- A step of a thread that waits for a held mutex does not exist; the others leave its stack alone. -/
theorem stuck_step {u t : Tid} (s : Step hf react w u w') {i : Nat} (hw : w.wants t i) (ho : w.owner i ≠ none) : w'.stk t = w.stk t := by
  obtain ⟨m, a, k, rest, hk⟩ := hw
  have key : ∀ {u : Tid} {x : List Level}, w.stk u = x → (∀ m a k rest, x ≠ .busy (.enter i m a) k :: rest) → t ≠ u := by
    rintro u x hx hne rfl
    exact hne m a k rest (hx.symm.trans hk)
  cases s with
  | client s h => exact if_neg (key h nofun)
  | call h => exact if_neg (key h nofun)
  | ret h => exact if_neg (key h nofun)
  | back h => exact if_neg (key h nofun)
  | work h s q =>
    refine if_neg (key h ?_)
    intro m a k rest e
    injection e with e _
    injection e with e _
    subst e
    exact ho (enter_free (move_of s).1)
  | deleter h s q =>
    have hne : t ≠ _ := key h (by
      intro m a k rest e
      injection e with e _
      injection e with e _
      subst e
      exact ho (enter_free (move_of s).1))
    refine (if_neg hne).trans (if_neg hne)

theorem circle_step {v : Tid} (H : Inv w) (s : Step hf react w v w') {S : Tid → Prop} (hS : Circle w S) :
    Circle w' S ∧ ∀ t, S t → w'.stk t = w.stk t := by
  have hstk : ∀ t, S t → w'.stk t = w.stk t := by
    intro t ht
    obtain ⟨i, u, h1, h2, _⟩ := hS t ht
    exact stuck_step s h1 (by rw [h2]; exact nofun)
  refine ⟨?_, hstk⟩
  intro t ht
  obtain ⟨i, u, ⟨m, a, k, rest, h1⟩, h2, hu⟩ := hS t ht
  refine ⟨i, u, ⟨m, a, k, rest, by rw [hstk t ht]; exact h1⟩, ?_, hu⟩
  obtain ⟨l, hl, hl'⟩ := (H.good u).back i h2
  exact ((H.step s).good u).held l (by rw [hstk u hu]; exact hl) i hl'

/-! ## A call about the shard one is in -/

/-- The loops over the shards still have to come to shard `i`. -/
def toCome (i : Nat) (m : Method) : After → Prop
  | .prune j => j < i ∧ i < kNumShards
  | .charge j _ => j < i ∧ i < kNumShards ∧ m = .totalCharge
  | _ => False

/-- The call will need the mutex of shard `i` before it can return. -/
def Heads (hf : Slice → M UInt32) (i : Nat) : Pc → Prop
  | .hashKey c => Uses hf i c
  | .readHash a => a.shard = i
  | .enter j m a => j = i ∨ toCome i m a
  | .inside j m p a => j ≠ i ∧ toCome i m a ∧ (m = .totalCharge → p = code m ∨ ∃ n, p = .done (.charge n))
  | _ => False

def Trap (hf : Slice → M UInt32) (i : Nat) : Level → Prop
  | .ready (.call c _) => Uses hf i c
  | .busy p _ => Heads hf i p
  | _ => False

theorem heads_begin {i : Nat} {c : Call} (h : Uses hf i c) : Heads hf i (begin c) := by
  cases c with
  | insert k _ _ _ => exact h
  | lookup k => exact h
  | erase k => exact h
  | release x => exact h
  | value x => exact h.elim
  | newId => exact h.elim
  | prune =>
    rcases Nat.eq_zero_or_pos i with e | e
    · exact .inl e.symm
    · exact .inr ⟨e, h⟩
  | totalCharge =>
    rcases Nat.eq_zero_or_pos i with e | e
    · exact .inl e.symm
    · exact .inr ⟨e, h, rfl⟩

theorem heads_move {i : Nat} {t : Tid} {n : Nat} {o o' : Nat → Option Tid} {d d' : Option Tid} {p p' : Pc}
    (m : Move hf t n o d p o' d' p') (ho : o i ≠ none) (h : Heads hf i p) : Heads hf i p' := by
  cases m with
  | hash hk e =>
    rename_i c k x
    have key : ∀ {k' : Slice}, k' = k → (∃ y, hf k' = .ok y ∧ shardIndex y = i) → shardIndex x = i := by
      rintro k' rfl ⟨y, h1, h2⟩
      rw [e] at h1
      cases h1
      exact h2
    cases c with
    | insert k' _ _ _ => exact .inl (key (by injection hk) h)
    | lookup k' => exact .inl (key (by injection hk) h)
    | erase k' => exact .inl (key (by injection hk) h)
    | release x => exact nomatch hk
    | value x => exact nomatch hk
    | newId => exact nomatch hk
    | prune => exact nomatch hk
    | totalCharge => exact nomatch hk
  | readHash a => exact .inl h
  | readValue a v => exact h.elim
  | lock m a hi hfree =>
    rename_i j
    have hne : j ≠ i := by rintro rfl; exact ho hfree
    rcases h with h | h
    · exact (hne h).elim
    · exact ⟨hne, h, fun _ => .inl rfl⟩
  | body j m f q b a =>
    refine ⟨h.1, h.2.1, fun hm => .inr ?_⟩
    rcases h.2.2 hm with e | ⟨n, e⟩
    · subst hm
      cases e
      exact ⟨_, rfl⟩
    · exact nomatch e
  | unlock j m r a =>
    obtain ⟨h1, h2, h3⟩ := h
    cases a with
    | handle x => exact h2.elim
    | unit => exact h2.elim
    | prune x =>
      obtain ⟨h4, h5⟩ := h2
      have e : proceed (.prune x) r = .enter (x + 1) .prune (.prune (x + 1)) := by
        cases r <;> exact if_pos (by omega)
      rw [e]
      by_cases hx : x + 1 = i
      · exact .inl hx
      · exact .inr ⟨by omega, h5⟩
    | charge x tot =>
      obtain ⟨h4, h5, h6⟩ := h2
      rcases h3 h6 with e | ⟨n, e⟩
      · subst h6; exact nomatch e
      · cases e
        have e : proceed (.charge x tot) (.charge n) = .enter (x + 1) .totalCharge (.charge (x + 1) (tot + n)) := if_pos (by omega)
        rw [e]
        by_cases hx : x + 1 = i
        · exact .inl hx
        · exact .inr ⟨by omega, h5, rfl⟩
  | idLock hfree => exact h.elim
  | idNext x => exact h.elim
  | idUnlock x => exact h.elim

/-- The thread is caught: above levels one of which holds the mutex there is one that needs it. -/
def Caught (hf : Slice → M UInt32) (w : World) (t : Tid) (i : Nat) (rest : List Level) : Prop :=
  ∃ upper l, w.stk t = upper ++ l :: rest ∧ Trap hf i l

theorem caught_step {u t : Tid} (H : Inv w) (s : Step hf react w u w') {i : Nat} {rest : List Level} (hr : ∃ l ∈ rest, Level.holds i l)
    (h : Caught hf w t i rest) : Caught hf w' t i rest := by
  obtain ⟨upper, l, hs, hl⟩ := h
  have ho : w.owner i ≠ none := by
    obtain ⟨x, hx, hx'⟩ := hr
    rw [(H.good t).held x (by rw [hs]; exact List.mem_append_right _ (List.mem_cons_of_mem _ hx)) i hx']
    exact nofun
  -- what the step replaces the top by
  have key : ∀ {u : Tid} {top : Level} {below new : List Level}, w.stk u = top :: below →
      (∀ v, w'.stk v = if v = u then new ++ below else w.stk v) → (Trap hf i top → ∃ up l', new = up ++ [l'] ∧ Trap hf i l') →
      Caught hf w' t i rest := by
    intro u top below new hu hn ht
    by_cases e : t = u
    · subst e
      have e1 := hn t
      rw [if_pos rfl] at e1
      rw [hs] at hu
      cases upper with
      | nil =>
        injection hu with h1 h2
        subst h1 h2
        obtain ⟨up, l', e2, h2⟩ := ht hl
        exact ⟨up, l', by rw [e1, e2]; simp, h2⟩
      | cons x xs =>
        injection hu with h1 h2
        exact ⟨new ++ xs, l, by rw [e1, ← h2]; simp, hl⟩
    · exact ⟨upper, l, by rw [hn t, if_neg e]; exact hs, hl⟩
  cases s with
  | client s h =>
    have e : t ≠ u := by rintro rfl; rw [h] at hs; cases upper <;> exact nomatch hs
    exact ⟨upper, l, (if_neg e).trans hs, hl⟩
  | call h => exact key (new := [.busy (begin _) _]) h (fun v => rfl) fun ht => ⟨[], _, rfl, heads_begin ht⟩
  | ret h => exact key (new := [.ready _]) h (fun v => rfl) fun ht => ht.elim
  | back h => exact key (new := []) h (fun v => rfl) fun ht => ht.elim
  | work h s q => exact key (new := [.busy _ _]) h (fun v => rfl) fun ht => ⟨[], _, rfl, heads_move (move_of s).1 ho ht⟩
  | deleter h s q =>
    rename_i p k below v j d
    refine key (new := [.ready (react j d), .busy (v.pc u) k]) h (fun x => ?_) fun ht => ⟨[_], _, rfl, heads_move (move_of s).1 ho ht⟩
    show (if x = u then _ else if x = u then _ else w.stk x) = _
    by_cases e : x = u
    · rw [if_pos e, if_pos e]; rfl
    · rw [if_neg e, if_neg e, if_neg e]

end CacheReent
end Lsmdb
