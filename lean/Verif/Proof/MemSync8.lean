import Verif.Proof.MemSync7

/-!
# Who sees bytes knows the calls that wrote them: executions
-/

namespace Lsmdb
namespace MemConc
open MemEnv
open CacheConc (Tid Prog)

variable {N : Nat}

/-- A step that is no statement. -/
inductive Onward : Code → Code → Prop
  | lock {l : Lock} {k : Code} : Onward (.lock l k) k
  | unlock {l : Lock} {k : Code} : Onward (.unlock l k) k
  | free {i : Nat} {k : Code} : Onward (.free i k) k
  | gone {k : Code} : Onward (.gone k) k

/-- What a step does to its thread and to the sizes of the files. -/
inductive Kinds (w w' : World) (e : Option Ev) (t : Tid) : Prop
  | call (o : Op) (he : e = some (.call t o)) (hc : w'.pc t = .run (code o)) (hs : ∀ k, sizeAt w'.env k ≤ sizeAt w.env k)
  | act {β : Type} (f : Env → M (Env × β)) (next : β → Code) (b : β) (he : e = none) (hp : w.pc t = .run (.act f next))
      (eq : f w.env = .ok (w'.env, b)) (hc : w'.pc t = .run (next b))
  | other (k k' : Code) (he : e = none) (hp : w.pc t = .run k) (hc : w'.pc t = .run k') (hn : Onward k k')
      (hs : ∀ k, sizeAt w'.env k ≤ sizeAt w.env k)
  | ret (r : Res) (he : e = some (.ret t r)) (hp : w.pc t = .run (.ret r)) (hc : w'.pc t = .idle) (hs : ∀ k, sizeAt w'.env k ≤ sizeAt w.env k)

theorem step_kinds {w w' : World} {e : Option Ev} (s : Step w e w') {t : Tid} (ht : w'.pc t ≠ w.pc t) : Kinds w w' e t := by
  have mine : ∀ {u : Tid} {p : Pc} {w1 : World}, w1.pc = w.pc → w' = w1.at u p → u = t := by
    rintro u p w1 h3 rfl
    apply Classical.byContradiction
    intro hn
    exact ht (by rw [pc_at, if_neg (Ne.symm hn), h3])
  cases s with
  | @call u o h =>
    have := mine rfl rfl
    subst this
    exact .call o rfl (by rw [pc_at, if_pos rfl]) fun _ => Nat.le_refl _
  | @act u β f next e b h eq =>
    have := mine (w1 := { w with env := e }) rfl rfl
    subst this
    exact .act f next b rfl h eq (by rw [pc_at, if_pos rfl])
  | @lock u l next h hl free =>
    have := mine (w1 := w.own l (some u)) rfl rfl
    subst this
    exact .other _ next rfl h (by rw [pc_at, if_pos rfl]) .lock fun _ => Nat.le_refl _
  | @unlock u l next h hl mn =>
    have := mine (w1 := w.own l none) rfl rfl
    subst this
    exact .other _ next rfl h (by rw [pc_at, if_pos rfl]) .unlock fun _ => Nat.le_refl _
  | @free u i next h hl hr hb =>
    have := mine (w1 := { w with env := { w.env with files := w.env.files.set i none, freed := w.env.freed ++ [i] } }) rfl rfl
    subst this
    refine .other _ next rfl h (by rw [pc_at, if_pos rfl]) .free fun k => ?_
    show sizeAt { w.env with files := w.env.files.set i none, freed := w.env.freed ++ [i] } k ≤ sizeAt w.env k
    unfold sizeAt
    by_cases hik : i = k
    · subst hik
      obtain ⟨f, hf⟩ := hl
      simp only [List.getElem?_set_self (List.getElem?_eq_some_iff.mp hf).1]
      exact Nat.zero_le _
    · simp only [List.getElem?_set_ne hik]
      exact Nat.le_refl _
  | @gone u next h hl hm =>
    have := mine (w1 := { w with exists_ := false }) rfl rfl
    subst this
    exact .other _ next rfl h (by rw [pc_at, if_pos rfl]) .gone fun _ => Nat.le_refl _
  | @ret u r h =>
    have := mine rfl rfl
    subst this
    exact .ret r rfl h (by rw [pc_at, if_pos rfl]) fun _ => Nat.le_refl _

/-- A statement that makes a file longer does not ignore its contents. -/
theorem not_ignores_size {β : Type} {f : Env → M (Env × β)} {e e' : Env} {b : β} {k : Nat} (hf : f e = .ok (e', b)) (hl : Live e k)
    (hs : sizeAt e k < sizeAt e' k) : ¬ Ignores f e (.content k) := by
  intro h
  obtain ⟨s, h1⟩ := hl
  have h2 := h (.content k ⟨s.blocks, s.size⟩) rfl
  have h3 : (Change.content k ⟨s.blocks, s.size⟩).apply e = e := by
    simp only [Change.apply, h1]
    show setFile e k s = e
    unfold setFile
    have : e.files.set k (some s) = e.files := by
      apply List.ext_getElem?
      intro j
      rw [get_set _ h1]
      split
      · rename_i hj; subst hj; exact h1.symm
      · rfl
    rw [this]
  rw [h3, hf] at h2
  injection h2 with h2
  injection h2 with h2 _
  have h4 : sizeAt e' k ≤ s.size := by
    cases h5 : e'.files[k]? with
    | none => unfold sizeAt; rw [h5]; exact Nat.zero_le _
    | some y =>
      cases y with
      | none => unfold sizeAt; rw [h5]; exact Nat.zero_le _
      | some s' =>
        rw [h2]
        simp only [Change.apply, h5]
        rw [sizeAt_set h5, if_pos rfl]
        exact Nat.le_refl _
  rw [sizeAt_eq h1] at hs
  omega

/-- The memory at some time. -/
def Exec.Mem (x : Exec N) (e : Env) : Prop := ∃ m, m ≤ N ∧ (x.w m).env = e

/-- The call appends to the file `k`. -/
def Exec.Into (x : Exec N) (k : Nat) (o : Op) : Prop := ∃ h d, o = .append h d ∧ x.IsOf h k

/-- The bytes of the file `k` before step `m`: `c i` of them are from the call in step `i`. -/
structure Exec.Grown (x : Exec N) (k m : Nat) (c : Nat → Nat) : Prop where
  size : sizeAt (x.w m).env k ≤ ((List.range m).map c).sum
  from_ : ∀ i, c i ≠ 0 → ∃ t o j, x.ev i = some (.call t o) ∧ c i ≤ bytesOf o ∧ x.Into k o ∧ i < j ∧ j < m ∧ x.Accesses j t (.content k)
  code : ∀ u a, (x.w m).pc u = .run a → ∃ i o r, i < m ∧ x.ev i = some (.call u o) ∧ Grows x.Mem k (x.Into k o) r a ∧ c i + r ≤ bytesOf o

theorem sum_add (c : Nat → Nat) (a g : Nat) : ∀ m, a < m → ((List.range m).map fun i => if i = a then c i + g else c i).sum = ((List.range m).map c).sum + g
  | 0, h => absurd h (Nat.not_lt_zero a)
  | m + 1, h => by
    rw [List.range_succ, List.map_append, List.map_append, List.sum_append, List.sum_append]
    by_cases ha : a = m
    · subst ha
      have : (List.range a).map (fun i => if i = a then c i + g else c i) = (List.range a).map c :=
        List.map_congr_left fun i hi => if_neg (Nat.ne_of_lt (List.mem_range.mp hi))
      rw [this]
      simp
      omega
    · rw [sum_add c a g m (by omega)]
      simp [Ne.symm ha]
      omega

theorem sum_succ (c : Nat → Nat) (m : Nat) : ((List.range m).map c).sum ≤ ((List.range (m + 1)).map c).sum := by
  rw [List.range_succ, List.map_append, List.sum_append]
  exact Nat.le_add_right _ _

theorem next_grows {G : Env → Prop} {k r : Nat} {Q : Prop} {a a' : Code} (h : Onward a a') (hg : Grows G k Q r a) : Grows G k Q r a' := by
  cases h <;> exact hg

theorem next_blind {G : Env → Prop} {o : Op} {F : Nat → Prop} {a a' : Code} (h : Onward a a') (hg : Blind G o F a) : Blind G o F a' := by
  cases h <;> exact hg

theorem next_within {o : Op} {S : Nat} {a a' : Code} (h : Onward a a') (hg : Within o S a) : Within o S a' := by
  cases h <;> exact hg

theorem Exec.grown (x : Exec N) (k : Nat) : ∀ m, m ≤ N → ∃ c, x.Grown k m c
  | 0, _ => by
    refine ⟨fun _ => 0, ?_, fun i h => absurd rfl h, fun u a h => ?_⟩
    · rw [x.start]; exact Nat.le_refl _
    · rw [x.start] at h; cases h
  | m + 1, hm => by
    obtain ⟨c, I⟩ := x.grown k m (by omega)
    have s := x.step m (by omega)
    obtain ⟨t, ht, hoth, -⟩ := step_shape s
    have K := step_kinds s ht
    have fromUp : ∀ i, c i ≠ 0 → ∃ t o j, x.ev i = some (.call t o) ∧ c i ≤ bytesOf o ∧ x.Into k o ∧ i < j ∧ j < m + 1 ∧
        x.Accesses j t (.content k) := by
      intro i hi
      obtain ⟨t, o, j, h1, h2, h3, h4, h5, h6⟩ := I.from_ i hi
      exact ⟨t, o, j, h1, h2, h3, h4, by omega, h6⟩
    have codeOther : ∀ u a, u ≠ t → (x.w (m + 1)).pc u = .run a → ∃ i o r, i < m + 1 ∧ x.ev i = some (.call u o) ∧
        Grows x.Mem k (x.Into k o) r a ∧ c i + r ≤ bytesOf o := by
      intro u a hu h
      rw [hoth u hu] at h
      obtain ⟨i, o, r, h1, h2⟩ := I.code u a h
      exact ⟨i, o, r, by omega, h2⟩
    have sizeUp : (∀ k, sizeAt (x.w (m + 1)).env k ≤ sizeAt (x.w m).env k) → sizeAt (x.w (m + 1)).env k ≤ ((List.range (m + 1)).map c).sum :=
      fun h => Nat.le_trans (h k) (Nat.le_trans I.size (sum_succ c m))
    cases K with
    | call o he hc hs =>
      refine ⟨c, sizeUp hs, fromUp, fun u a hu => ?_⟩
      by_cases hut : u = t
      · subst hut
        rw [hc] at hu
        cases hu
        have hz : c m = 0 := by
          apply Classical.byContradiction
          intro hn
          obtain ⟨_, _, j, -, -, -, h4, h5, -⟩ := I.from_ m hn
          omega
        by_cases ho : ∃ h d, o = .append h d
        · obtain ⟨h, d, rfl⟩ := ho
          refine ⟨m, _, d.len, Nat.lt_succ_self m, he, grows_append h d ?_, by rw [hz]; exact Nat.le_of_eq (Nat.zero_add _)⟩
          rintro e ⟨n, hn, rfl⟩ ho
          exact ⟨h, d, rfl, n, _, hn, ho, rfl⟩
        · exact ⟨m, o, 0, Nat.lt_succ_self m, he, (flat_code o fun h d e => ho ⟨h, d, e⟩).grows, by omega⟩
      · exact codeOther u a hut hu
    | act f next b he hp eq hc =>
      obtain ⟨i, o, r, h1, h2, h3, h4⟩ := I.code t _ hp
      obtain ⟨g, g1, g2, g3, g4⟩ := h3 _ _ _ ⟨m, by omega, rfl⟩ eq
      by_cases hlt : sizeAt (x.w m).env k < sizeAt (x.w (m + 1)).env k
      · have hg : g ≠ 0 := by omega
        obtain ⟨hQ, hL⟩ := g3 hg
        have hacc : x.Accesses m t (.content k) := ⟨ht, hL, _, f, next, hp, not_ignores_size eq hL hlt⟩
        refine ⟨fun j => if j = i then c j + g else c j, ?_, fun j hj => ?_, fun u a hu => ?_⟩
        · have := sum_succ (fun j => if j = i then c j + g else c j) m
          rw [sum_add c i g m h1] at this
          have := I.size
          omega
        · by_cases hji : j = i
          · subst hji
            refine ⟨t, o, m, h2, ?_, hQ, h1, Nat.lt_succ_self m, hacc⟩
            rw [if_pos rfl]
            omega
          · rw [if_neg hji] at hj ⊢
            exact fromUp j hj
        · by_cases hut : u = t
          · subst hut
            rw [hc] at hu
            cases hu
            refine ⟨i, o, r - g, by omega, h2, g4, ?_⟩
            rw [if_pos rfl]
            omega
          · obtain ⟨i', o', r', k1, k2, k3, k4⟩ := codeOther u a hut hu
            refine ⟨i', o', r', k1, k2, k3, ?_⟩
            rw [if_neg ?_]
            · exact k4
            · rintro rfl
              rw [h2] at k2
              cases k2
              exact hut rfl
      · refine ⟨c, Nat.le_trans (Nat.le_of_not_lt hlt) (Nat.le_trans I.size (sum_succ c m)), fromUp, fun u a hu => ?_⟩
        by_cases hut : u = t
        · subst hut
          rw [hc] at hu
          cases hu
          exact ⟨i, o, r - g, by omega, h2, g4, by omega⟩
        · exact codeOther u a hut hu
    | other a a' he hp hc hn hs =>
      refine ⟨c, sizeUp hs, fromUp, fun u a hu => ?_⟩
      by_cases hut : u = t
      · subst hut
        rw [hc] at hu
        cases hu
        obtain ⟨i, o, r, h1, h2, h3, h4⟩ := I.code u _ hp
        exact ⟨i, o, r, by omega, h2, next_grows hn h3, h4⟩
      · exact codeOther u a hut hu
    | ret r he hp hc hs =>
      refine ⟨c, sizeUp hs, fromUp, fun u a hu => ?_⟩
      by_cases hut : u = t
      · subst hut
        rw [hc] at hu
        cases hu
      · exact codeOther u a hut hu

/-- A thread either has not looked at a file or has done so in an earlier step. -/
def Exec.Looked (x : Exec N) (m : Nat) : Prop :=
  ∀ u a, (x.w m).pc u = .run a → ∃ o, pending (hist x.ev m) u = some o ∧ (Blind x.Mem o (x.IsFor o) a ∨
    ∃ k j, j < m ∧ x.Accesses j u (.content k) ∧ x.IsFor o k ∧ Within o (sizeAt (x.w j).env k) a)

theorem Exec.looked (x : Exec N) : ∀ m, m ≤ N → x.Looked m
  | 0, _ => by
    intro u a h
    rw [x.start] at h
    cases h
  | m + 1, hm => by
    have I := x.looked m (by omega)
    have s := x.step m (by omega)
    obtain ⟨t, ht, hoth, -⟩ := step_shape s
    have K := step_kinds s ht
    have hh : hist x.ev (m + 1) = (x.ev m).toList ++ hist x.ev m := rfl
    intro u a hu
    by_cases hut : u = t
    · subst hut
      cases K with
      | call o he hc hs =>
        rw [hc] at hu
        cases hu
        refine ⟨o, by rw [hh, he]; exact if_pos rfl, .inl (blind_code o ?_ ?_)⟩
        · rintro h e ob h1 ⟨n, hn, rfl⟩ h3
          refine ⟨fun h' h4 => ?_, ?_⟩
          · rw [h1] at h4
            cases h4
            exact ⟨n, ob, hn, h3, rfl⟩
          · rintro n' rfl
            cases h1
        · rintro n e k rfl ⟨j, hj, rfl⟩ h3
          refine ⟨fun _ h => (nomatch h), fun n' h => ?_⟩
          cases h
          exact ⟨j, hj, h3⟩
      | act f next b he hp eq hc =>
        rw [hc] at hu
        cases hu
        obtain ⟨o, h1, h2⟩ := I u _ hp
        refine ⟨o, by rw [hh, he]; exact h1, ?_⟩
        rcases h2 with h2 | ⟨k, j, h3, h4, h5, h6⟩
        · rcases h2 _ _ _ ⟨m, by omega, rfl⟩ eq with h2 | ⟨k, k1, k2, k3, k4⟩
          · exact .inl h2
          · exact .inr ⟨k, m, Nat.lt_succ_self m, ⟨ht, k2, _, f, next, hp, k1⟩, k3, k4⟩
        · exact .inr ⟨k, j, by omega, h4, h5, h6 _ _ _ eq⟩
      | other a a' he hp hc hn hs =>
        rw [hc] at hu
        cases hu
        obtain ⟨o, h1, h2⟩ := I u _ hp
        refine ⟨o, by rw [hh, he]; exact h1, ?_⟩
        rcases h2 with h2 | ⟨k, j, h3, h4, h5, h6⟩
        · exact .inl (next_blind hn h2)
        · exact .inr ⟨k, j, by omega, h4, h5, next_within hn h6⟩
      | ret r he hp hc hs =>
        rw [hc] at hu
        cases hu
    · rw [hoth u hut] at hu
      obtain ⟨o, h1, h2⟩ := I u a hu
      refine ⟨o, by rw [hh, pending_other s ht hut]; exact h1, ?_⟩
      rcases h2 with h2 | ⟨k, j, h3, h4⟩
      · exact .inl h2
      · exact .inr ⟨k, j, by omega, h4⟩

theorem Exec.bytes_after (x : Exec N) {j : Nat} {u : Tid} {o : Op} {r : Res} (hj : j < N) (he : x.ev j = some (.ret u r))
    (hp : pending (hist x.ev j) u = some o) (hs : 0 < bytesSeen o r) :
    ∃ k, x.IsFor o k ∧ x.Appended k (bytesSeen o r) fun i => HappensBefore x.sync i j := by
  have s := x.step j hj
  obtain ⟨t, ht, -, -⟩ := step_shape s
  have K := step_kinds s ht
  rw [he] at K
  cases K with
  | call o he _ _ => cases he
  | act _ _ _ he _ _ _ => cases he
  | other _ _ he _ _ _ _ => cases he
  | ret r' he' hpc _ _ =>
    cases he'
    obtain ⟨o', h1, h2⟩ := x.looked j (by omega) u _ hpc
    rw [hp] at h1
    cases h1
    rcases h2 with h2 | ⟨k, l, h3, h4, h5, h6⟩
    · have : bytesSeen o r = 0 := h2
      omega
    · obtain ⟨c, I⟩ := x.grown k l (by omega)
      refine ⟨k, h5, c, l, by omega, Nat.le_trans h6 I.size, fun i hi => ?_⟩
      obtain ⟨v, o', l', k1, k2, ⟨h, d, rfl, k3⟩, k4, k5, k6⟩ := I.from_ i hi
      have a : HappensBefore x.sync l' l := x.accesses_ordered k5 (by omega) k6 h4 (fun h => nomatch h) (fun h => nomatch h)
      have hv : x.sync.thread i v := by
        have si := x.step i (by omega)
        obtain ⟨v', hv', -, -⟩ := step_shape si
        have Ki := step_kinds si hv'
        rw [k1] at Ki
        cases Ki with
        | call _ he _ _ => cases he; exact hv'
        | act _ _ _ he _ _ _ => cases he
        | other _ _ he _ _ _ _ => cases he
        | ret _ he _ _ _ => cases he
      exact ⟨((HappensBefore.program k4 hv k6.1).trans a).trans (.program h3 h4.1 ht), v, h, d, k1, k2, k3⟩

end MemConc
end Lsmdb
