import Verif.Spec.PosixNames

/-! What follows for the clients of the atomic object. -/

namespace Lsmdb
namespace Posix

open MemEnv (St lit)

namespace Conc

variable {faulty : Prop} {R : Names → Names → Prop} {P : POp → Bool} {m0 : Names} {a : Atom} {es : List Ev}

/-- Of which threads the last call satisfies `P`. -/
def asked (P : POp → Bool) : List Ev → (Nat → Bool) → Nat → Bool
  | [], f => f
  | .call t op :: es, f => asked P es (fun u => if u = t then P op else f u)
  | .ret _ _ :: es, f => asked P es f

theorem answers_call (t : Nat) (op : POp) : ∀ (es : List Ev) (f : Nat → Bool), answers P (es ++ [.call t op]) f = answers P es f
  | [], f => rfl
  | .call u o :: es, f => answers_call t op es _
  | .ret u r :: es, f => by
    show (if f u then r :: answers P (es ++ [.call t op]) f else answers P (es ++ [.call t op]) f) = (if f u then _ else _)
    rw [answers_call t op es f]

theorem asked_call (t : Nat) (op : POp) : ∀ (es : List Ev) (f : Nat → Bool), asked P (es ++ [.call t op]) f = fun u => if u = t then P op else asked P es f u
  | [], f => rfl
  | .call u o :: es, f => asked_call t op es _
  | .ret u r :: es, f => asked_call t op es f

theorem answers_ret (t : Nat) (r : PRes) : ∀ (es : List Ev) (f : Nat → Bool),
    answers P (es ++ [.ret t r]) f = answers P es f ++ if asked P es f t then [r] else []
  | [], f => by
    show (if f t then _ else _) = _
    show _ = [] ++ (if f t then _ else _)
    cases f t <;> rfl
  | .call u o :: es, f => answers_ret t r es _
  | .ret u x :: es, f => by
    show (if f u then x :: answers P (es ++ [.ret t r]) f else answers P (es ++ [.ret t r]) f) = (if f u then _ else _) ++ (if asked P es f t then _ else _)
    rw [answers_ret t r es f]
    cases f u <;> rfl

theorem asked_ret (t : Nat) (r : PRes) : ∀ (es : List Ev) (f : Nat → Bool), asked P (es ++ [.ret t r]) f = asked P es f
  | [], f => rfl
  | .call u o :: es, f => asked_ret t r es _
  | .ret u x :: es, f => asked_ret t r es f

/-- Calls in progress are in the history. -/
theorem Atomic.known (h : Atomic faulty R m0 a es) (P : POp → Bool) : ∀ t op v, a.now t = some (op, v) →
    Ev.call t op ∈ es ∧ asked P es (fun _ => false) t = P op := by
  induction h with
  | init => exact nofun
  | call r h ih =>
    rename_i a es t op
    intro u op' v hu
    rw [asked_call]
    dsimp only
    have hu : (if u = t then some (op, none) else a.now u) = some (op', v) := hu
    by_cases e : u = t
    · rw [if_pos e] at hu ⊢
      injection hu with hu
      injection hu with hu
      subst hu e
      exact ⟨by simp, rfl⟩
    · rw [if_neg e] at hu ⊢
      exact ⟨List.mem_append_left _ (ih u op' v hu).1, (ih u op' v hu).2⟩
  | moment r h hd ih =>
    rename_i a es t op m' x
    intro u op' v hu
    have hu : (if u = t then some (op, some (a.names, m')) else a.now u) = some (op', v) := hu
    by_cases e : u = t
    · rw [if_pos e] at hu
      injection hu with hu
      injection hu with hu
      subst hu e
      exact ih u op _ h
    · rw [if_neg e] at hu
      exact ih u op' v hu
  | others r h ih => exact ih
  | ret r h hd ih =>
    rename_i a es t op m1 m2 x
    intro u op' v hu
    rw [asked_ret]
    have hu : (if u = t then none else a.now u) = some (op', v) := hu
    by_cases e : u = t
    · rw [if_pos e] at hu
      exact nomatch hu
    · rw [if_neg e] at hu
      exact ⟨List.mem_append_left _ (ih u op' v hu).1, (ih u op' v hu).2⟩

/-- Calls change nothing but the paths they may change. -/
theorem does_keeps {op : POp} {m m' : Names} {r : PRes} (h : Does faulty op m m' r) {q : Bytes} (hq : ∀ p ∈ changing op, cstr p ≠ q) : m' q = m q := by
  have putne : ∀ {m : Names} {p : Bytes} {v : Option Entry}, p ≠ q → (m.put p v) q = m q := fun hp => if_neg (Ne.symm hp)
  have app : ∀ {n : Bytes}, n ≠ q → Appears n m m' → m' q = m q := by
    rintro n hn (⟨i, -, h⟩ | ⟨-, -, i, -, h⟩)
    · rw [h]
    · rw [h]; exact putne hn
  have mk : ∀ {n : Bytes} {s : St}, n ≠ q → MakesFile faulty n m m' s → m' q = m q := by
    rintro n s hn (⟨-, h⟩ | ⟨-, h, -⟩)
    · exact app hn h
    · rw [h]
  cases op with
  | newSequential n => rw [h.1]
  | newRandomAccess n => rw [h.1]
  | fileExists n => rw [h.1]
  | getChildren n => rw [h.1]
  | getFileSize n => rw [h.1]
  | newWritable n => obtain ⟨s, o, -, h⟩ := h; exact mk (hq n (by simp [changing])) h
  | newAppendable n => obtain ⟨s, o, -, h⟩ := h; exact mk (hq n (by simp [changing])) h
  | newLogger n =>
    obtain ⟨s, o, -, h | ⟨-, -, h⟩⟩ := h
    · exact mk (hq n (by simp [changing])) h
    · exact app (hq n (by simp [changing])) h
  | lockFile n =>
    obtain ⟨s, o, -, h | ⟨-, h⟩⟩ := h
    · exact mk (hq n (by simp [changing])) h
    · exact app (hq n (by simp [changing])) h
  | createDir n =>
    rcases h with ⟨-, -, -, i, -, h⟩ | ⟨s, -, -, h, -⟩
    · rw [h]; exact putne (hq n (by simp [changing]))
    · rw [h]
  | removeFile n =>
    rcases h with ⟨-, -, h⟩ | ⟨s, -, -, h, -⟩
    · rw [h]; exact putne (hq n (by simp [changing]))
    · rw [h]
  | removeDir n =>
    rcases h with ⟨-, -, -, h⟩ | ⟨s, -, -, h, -⟩
    · rw [h]; exact putne (hq n (by simp [changing]))
    · rw [h]
  | renameFile x b =>
    rcases h with ⟨-, -, i, -, ⟨-, h⟩ | ⟨-, h⟩⟩ | ⟨s, -, -, h, -⟩
    · rw [h]
    · rw [h, putne (hq x (by simp [changing])), putne (hq b (by simp [changing]))]
    · rw [h]
  | unlockFile n => rw [show m' = m from h]
  | seqRead n x => rw [show m' = m from h]
  | seqSkip n x => rw [show m' = m from h]
  | randRead n x y => rw [show m' = m from h]
  | write n x => rw [show m' = m from h]
  | delete n => rw [show m' = m from h]

/-! ## At most one wins -/

/-- A call in progress has won. -/
def Won (P : POp → Bool) (φ : Names → Prop) (v : Option (POp × Option (Names × Names))) : Prop :=
  ∃ op m1 m2, v = some (op, some (m1, m2)) ∧ P op = true ∧ ¬ φ m1 ∧ φ m2

structure Race (faulty : Prop) (P : POp → Bool) (φ : Names → Prop) (a : Atom) (es : List Ev) : Prop where
  le : wins P es ≤ 1
  one : wins P es = 1 → φ a.names ∧ ∀ t, ¬ Won P φ (a.now t)
  won : ∀ t, Won P φ (a.now t) → φ a.names ∧ ∀ u, Won P φ (a.now u) → u = t
  some : φ a.names → wins P es = 1 ∨ ∃ t, Won P φ (a.now t)
  acted : ¬ faulty → ∀ t op v, a.now t = Option.some (op, Option.some v) → P op = true → φ a.names
  answered : ¬ faulty → answers P es (fun _ => false) ≠ [] → φ a.names

theorem Atomic.race {φ : Names → Prop} (h : Atomic faulty R m0 a es) (h0 : ¬ φ m0) (hR : ∀ m m', R m m' → (φ m' ↔ φ m))
    (hP : ∀ op m m' r, P op = true → Does faulty op m m' r → (r = .status .ok ∧ ¬ φ m ∧ φ m') ∨ (r ≠ .status .ok ∧ m' = m ∧ (¬ faulty → φ m)))
    (hQ : ∀ t op, Ev.call t op ∈ es → P op = false → ∀ m m' r, Does faulty op m m' r → (φ m' ↔ φ m)) : Race faulty P φ a es := by
  induction h with
  | init =>
    refine ⟨Nat.zero_le _, fun h => (nomatch h), fun t ⟨_, _, _, h, _⟩ => (nomatch h), fun h => absurd h h0, fun _ t op v h => (nomatch h), fun _ h => absurd rfl h⟩
  | call r h ih =>
    rename_i a es t op
    obtain ⟨h1, h2, h3, h4, h5, h6⟩ := ih fun u o hm => hQ u o (List.mem_append_left _ hm)
    have hw : ∀ u, Won P φ (seat a.now t (Option.some (op, none)) u) ↔ Won P φ (a.now u) := by
      intro u
      show Won P φ (if u = t then _ else _) ↔ _
      by_cases e : u = t
      · rw [if_pos e, e, h]
        exact ⟨fun ⟨_, _, _, h, _⟩ => (nomatch h), fun ⟨_, _, _, h, _⟩ => nomatch h⟩
      · rw [if_neg e]
    have hn : wins P (es ++ [.call t op]) = wins P es := by unfold wins; rw [answers_call]
    refine ⟨by rw [hn]; exact h1, fun h => ⟨(h2 (hn ▸ h)).1, fun u hu => (h2 (hn ▸ h)).2 u ((hw u).1 hu)⟩,
      fun u hu => ⟨(h3 u ((hw u).1 hu)).1, fun v hv => (h3 u ((hw u).1 hu)).2 v ((hw v).1 hv)⟩,
      fun h => (h4 h).imp (fun h => by rw [hn]; exact h) (fun ⟨u, hu⟩ => ⟨u, (hw u).2 hu⟩), fun hf u o v hu hp => ?_, fun hf hne => ?_⟩
    · have hu : (if u = t then Option.some (op, none) else a.now u) = Option.some (o, Option.some v) := hu
      by_cases e : u = t
      · rw [if_pos e] at hu
        injection hu with hu
        injection hu with _ hu
        exact nomatch hu
      · rw [if_neg e] at hu
        exact h5 hf u o v hu hp
    · rw [answers_call] at hne
      exact h6 hf hne
  | moment r h hd ih =>
    rename_i a es t op m' x
    obtain ⟨h1, h2, h3, h4, h5, h6⟩ := ih hQ
    have hk := r.known P t op none h
    have hold : ¬ Won P φ (a.now t) := by
      rw [h]
      rintro ⟨_, _, _, h, _⟩
      exact nomatch h
    have hwu : ∀ u, u ≠ t → (Won P φ (seat a.now t (Option.some (op, Option.some (a.names, m'))) u) ↔ Won P φ (a.now u)) := by
      intro u e
      show Won P φ (if u = t then _ else _) ↔ _
      rw [if_neg e]
    have hwt : Won P φ (seat a.now t (Option.some (op, Option.some (a.names, m'))) t) ↔ (P op = true ∧ ¬ φ a.names ∧ φ m') := by
      show Won P φ (if t = t then _ else _) ↔ _
      rw [if_pos rfl]
      constructor
      · rintro ⟨o, m1, m2, h, h'⟩
        injection h with h
        injection h with ha hb
        injection hb with hb
        injection hb with hb hc
        subst ha hb hc
        exact h'
      · exact fun h => ⟨_, _, _, rfl, h⟩
    have hcase : (P op = true ∧ ¬ φ a.names ∧ φ m') ∨ ((φ m' ↔ φ a.names) ∧ (P op = true → ¬ faulty → φ m')) := by
      cases hp : P op with
      | true =>
        rcases hP op _ _ x hp hd with ⟨-, h1, h2⟩ | ⟨-, h1, h2⟩
        · exact .inl ⟨rfl, h1, h2⟩
        · rw [h1]
          exact .inr ⟨Iff.rfl, fun _ => h2⟩
      | false => exact .inr ⟨hQ t op hk.1 hp _ _ _ hd, nofun⟩
    rcases hcase with hw | ⟨hiff, hfin⟩
    · have hno : ∀ u, ¬ Won P φ (a.now u) := fun u hu => hw.2.1 (h3 u hu).1
      have hz : wins P es ≠ 1 := fun e => hw.2.1 (h2 e).1
      refine ⟨h1, fun e => absurd e hz, fun u hu => ⟨hw.2.2, fun v hv => ?_⟩, fun _ => .inr ⟨t, hwt.2 hw⟩, fun _ _ _ _ _ _ => hw.2.2, fun _ _ => hw.2.2⟩
      have : ∀ v, Won P φ (seat a.now t (Option.some (op, Option.some (a.names, m'))) v) → v = t := fun v hv =>
        Classical.byContradiction fun e => hno v ((hwu v e).1 hv)
      rw [this v hv, this u hu]
    · have hnt : ¬ (P op = true ∧ ¬ φ a.names ∧ φ m') := fun h => h.2.1 (hiff.1 h.2.2)
      have hw : ∀ u, Won P φ (seat a.now t (Option.some (op, Option.some (a.names, m'))) u) ↔ Won P φ (a.now u) := by
        intro u
        by_cases e : u = t
        · rw [e]
          exact ⟨fun h => absurd (hwt.1 h) hnt, fun h => absurd h hold⟩
        · exact hwu u e
      refine ⟨h1, fun e => ⟨hiff.2 (h2 e).1, fun u hu => (h2 e).2 u ((hw u).1 hu)⟩,
        fun u hu => ⟨hiff.2 (h3 u ((hw u).1 hu)).1, fun v hv => (h3 u ((hw u).1 hu)).2 v ((hw v).1 hv)⟩,
        fun h => (h4 (hiff.1 h)).imp id (fun ⟨u, hu⟩ => ⟨u, (hw u).2 hu⟩), fun hf u o v hu hp => ?_, fun hf hne => hiff.2 (h6 hf hne)⟩
      have hu : (if u = t then Option.some (op, Option.some (a.names, m')) else a.now u) = Option.some (o, Option.some v) := hu
      by_cases e : u = t
      · rw [if_pos e] at hu
        injection hu with hu
        injection hu with hu _
        subst hu
        exact hfin hp hf
      · rw [if_neg e] at hu
        exact hiff.2 (h5 hf u o v hu hp)
  | others r h ih =>
    obtain ⟨h1, h2, h3, h4, h5, h6⟩ := ih hQ
    have hi := hR _ _ h
    exact ⟨h1, fun e => ⟨hi.2 (h2 e).1, (h2 e).2⟩, fun u hu => ⟨hi.2 (h3 u hu).1, (h3 u hu).2⟩, fun h => h4 (hi.1 h),
      fun hf u o v hu hp => hi.2 (h5 hf u o v hu hp), fun hf hne => hi.2 (h6 hf hne)⟩
  | ret r h hd ih =>
    rename_i a es t op m1 m2 x
    obtain ⟨h1, h2, h3, h4, h5, h6⟩ := ih fun u o hm => hQ u o (List.mem_append_left _ hm)
    have hk := r.known P t op _ h
    have hwu : ∀ u, Won P φ (seat a.now t none u) ↔ (u ≠ t ∧ Won P φ (a.now u)) := by
      intro u
      show Won P φ (if u = t then _ else _) ↔ _
      by_cases e : u = t
      · rw [if_pos e]
        exact ⟨fun ⟨_, _, _, h, _⟩ => (nomatch h), fun h => absurd e h.1⟩
      · rw [if_neg e]
        exact ⟨fun h => ⟨e, h⟩, fun h => h.2⟩
    have hans : answers P (es ++ [.ret t x]) (fun _ => false) = answers P es (fun _ => false) ++ if P op then [x] else [] := by rw [answers_ret, hk.2]
    have hact : ¬ faulty → ∀ u o v, seat a.now t none u = Option.some (o, Option.some v) → P o = true → φ a.names := by
      intro hf u o v hu hp
      have hu : (if u = t then none else a.now u) = Option.some (o, Option.some v) := hu
      by_cases e : u = t
      · rw [if_pos e] at hu; exact nomatch hu
      · rw [if_neg e] at hu; exact h5 hf u o v hu hp
    have hansd : ¬ faulty → answers P (es ++ [.ret t x]) (fun _ => false) ≠ [] → φ a.names := by
      intro hf hne
      cases hp : P op with
      | true => exact h5 hf t op _ h hp
      | false =>
        rw [hans, hp] at hne
        exact h6 hf (by simpa using hne)
    by_cases hwin : P op = true ∧ x = .status .ok
    · obtain ⟨hp, hx⟩ := hwin
      have hw : Won P φ (a.now t) := by
        rcases hP op m1 m2 x hp hd with ⟨-, g1, g2⟩ | ⟨g, -, -⟩
        · exact ⟨op, m1, m2, h, hp, g1, g2⟩
        · exact absurd hx g
      have hz : wins P es = 0 := by
        have : wins P es ≠ 1 := fun e => (h2 e).2 t hw
        omega
      have hn : wins P (es ++ [.ret t x]) = 1 := by
        unfold wins
        rw [hans, hp, List.countP_append]
        show wins P es + _ = 1
        rw [hz, hx]
        rfl
      refine ⟨by rw [hn]; exact Nat.le_refl 1, fun _ => ⟨(h3 t hw).1, fun u hu => ?_⟩, fun u hu => ?_, fun _ => .inl hn, hact, hansd⟩
      · obtain ⟨e, hu⟩ := (hwu u).1 hu
        exact e ((h3 t hw).2 u hu)
      · obtain ⟨e, hu⟩ := (hwu u).1 hu
        exact absurd ((h3 t hw).2 u hu) e
    · have hn : wins P (es ++ [.ret t x]) = wins P es := by
        unfold wins
        rw [hans, List.countP_append]
        cases hp : P op with
        | false => rfl
        | true =>
          have : decide (x = .status .ok) = false := decide_eq_false fun e => hwin ⟨hp, e⟩
          simp [this]
      have hold : ¬ Won P φ (a.now t) := by
        rw [h]
        rintro ⟨o, n1, n2, hh, hp, g1, g2⟩
        injection hh with hh
        injection hh with ha hb
        injection hb with hb
        injection hb with hb hc
        subst ha hb hc
        rcases hP op m1 m2 x hp hd with ⟨g, -, -⟩ | ⟨-, g, -⟩
        · exact hwin ⟨hp, g⟩
        · rw [g] at g2; exact g1 g2
      refine ⟨by rw [hn]; exact h1, fun e => ⟨(h2 (hn ▸ e)).1, fun u hu => (h2 (hn ▸ e)).2 u ((hwu u).1 hu).2⟩,
        fun u hu => ⟨(h3 u ((hwu u).1 hu).2).1, fun v hv => (h3 u ((hwu u).1 hu).2).2 v ((hwu v).1 hv).2⟩,
        fun hφ => (h4 hφ).imp (fun e => by rw [hn]; exact e) (fun ⟨u, hu⟩ => ⟨u, (hwu u).2 ⟨?_, hu⟩⟩), hact, hansd⟩
      rintro rfl
      exact hold hu

/-- A path that nobody changes means the same at all moments. -/
theorem Atomic.steady {p : Bytes} (h : Atomic faulty R m0 a es) (hR : ∀ m m', R m m' → m' p = m p)
    (hes : ∀ t op, Ev.call t op ∈ es → ∀ q ∈ changing op, cstr q ≠ p) :
    a.names p = m0 p ∧ (∀ t op m1 m2, a.now t = some (op, some (m1, m2)) → m1 p = m0 p) ∧
      ∀ r ∈ answers P es (fun _ => false), ∃ op m1 m2, P op = true ∧ m1 p = m0 p ∧ Does faulty op m1 m2 r := by
  induction h with
  | init => exact ⟨rfl, nofun, nofun⟩
  | call r h ih =>
    rename_i a es t op
    obtain ⟨h1, h2, h3⟩ := ih fun u o hm => hes u o (List.mem_append_left _ hm)
    refine ⟨h1, fun u o m1 m2 hu => ?_, by rw [answers_call]; exact h3⟩
    have hu : (if u = t then some (op, none) else a.now u) = some (o, some (m1, m2)) := hu
    by_cases e : u = t
    · rw [if_pos e] at hu
      injection hu with hu
      injection hu with _ hu
      exact nomatch hu
    · rw [if_neg e] at hu
      exact h2 u o m1 m2 hu
  | moment r h hd ih =>
    rename_i a es t op m' x
    obtain ⟨h1, h2, h3⟩ := ih hes
    refine ⟨(does_keeps hd (hes t op (r.known (fun _ => true) t op _ h).1)).trans h1, fun u o m1 m2 hu => ?_, h3⟩
    have hu : (if u = t then some (op, some (a.names, m')) else a.now u) = some (o, some (m1, m2)) := hu
    by_cases e : u = t
    · rw [if_pos e] at hu
      injection hu with hu
      injection hu with _ hu
      injection hu with hu
      injection hu with hu _
      rw [← hu]
      exact h1
    · rw [if_neg e] at hu
      exact h2 u o m1 m2 hu
  | others r h ih =>
    obtain ⟨h1, h2, h3⟩ := ih hes
    exact ⟨(hR _ _ h).trans h1, h2, h3⟩
  | ret r h hd ih =>
    rename_i a es t op m1 m2 x
    obtain ⟨h1, h2, h3⟩ := ih fun u o hm => hes u o (List.mem_append_left _ hm)
    refine ⟨h1, fun u o n1 n2 hu => ?_, fun y hy => ?_⟩
    · have hu : (if u = t then none else a.now u) = some (o, some (n1, n2)) := hu
      by_cases e : u = t
      · rw [if_pos e] at hu
        exact nomatch hu
      · rw [if_neg e] at hu
        exact h2 u o n1 n2 hu
    · rw [answers_ret, (r.known P t op _ h).2] at hy
      rcases List.mem_append.1 hy with hy | hy
      · exact h3 y hy
      · cases hp : P op with
        | false => rw [hp] at hy; exact nomatch hy
        | true =>
          rw [hp] at hy
          rw [List.mem_singleton.1 hy]
          exact ⟨op, m1, m2, hp, h2 t op m1 m2 h, hd⟩

end Conc
end Posix
end Lsmdb
