import Verif.Proof.MemSync3

/-!
# Who finds a file knows the call that made it: executions
-/

namespace Lsmdb
namespace MemConc
open MemEnv
open CacheConc (Tid Prog)

variable {N : Nat}

/-- Code that adds no name. -/
def Never (n : Bytes) : Code → Prop
  | .ret _ => True
  | .act f next => ∀ e e' b, f e = .ok (e', b) → (mapFind e.map n = none → mapFind e'.map n = none) ∧ Never n (next b)
  | .lock _ next => Never n next
  | .unlock _ next => Never n next
  | .free _ next => Never n next
  | .gone next => Never n next

section
variable {n : Bytes} {k : Code} {β : Type} {f : Env → M (Env × β)} {i : Nat}

theorem never_same {next : β → Code} (hm : ∀ e e' b, f e = .ok (e', b) → e'.map = e.map) (a : ∀ b, Never n (next b)) :
    Never n (.act f next) := fun e e' b hf => ⟨fun h => by rw [hm e e' b hf]; exact h, a b⟩

theorem never_steps {p : Prog Content β} {k : β → Code} (a : ∀ b, Never n (k b)) : Never n (steps i p k) := by
  induction p with
  | done b => exact a b
  | step f next ih => exact never_same (fun e e' b hf => onContent_map hf) fun b => ih b

theorem decRefs_map {e e' : Env} {b : Unit} (hf : decRefs i e = .ok (e', b)) : e'.map = e.map := by
  unfold decRefs at hf
  cases h1 : getFile e (some i) with
  | error x => rw [h1] at hf; cases hf
  | ok y => rw [h1] at hf; cases hf; rfl

theorem testRefs_map {e e' : Env} {b : Bool} (hf : testRefs i e = .ok (e', b)) : e'.map = e.map := by
  unfold testRefs at hf
  cases h1 : getFile e (some i) with
  | error x => rw [h1] at hf; cases hf
  | ok y =>
    rw [h1] at hf
    have : (cassert (decide (y.2.refs ≥ 0)) >>= fun _ => (pure (e, decide (y.2.refs ≤ 0)) : M (Env × Bool))) = .ok (e', b) := hf
    cases h2 : cassert (decide (y.2.refs ≥ 0)) with
    | error x => rw [h2] at this; cases this
    | ok u => rw [h2] at this; cases this; rfl

theorem never_unref (a : Never n k) : Never n (unrefCode i k) := by
  show Never n (.act _ _)
  refine never_same (fun _ _ _ => decRefs_map) fun _ => never_same (fun _ _ _ => testRefs_map) fun b => ?_
  show Never n (if b then deleteCode i k else k)
  cases b
  · exact a
  · exact never_steps (k := fun _ => .unlock (.blocks i) (.free i k)) fun _ => a

theorem never_destroy : ∀ (fuel k : Nat) {c : Code}, Never n c → Never n (destroyLoopCode fuel k c)
  | 0, _, _, _ => fun _ _ _ hf => nomatch hf
  | fuel + 1, k, c, a => by
    refine never_same (fun e e' b he => by cases he; rfl) fun x => ?_
    cases x with
    | none => exact a
    | some y =>
      obtain ⟨m, p⟩ := y
      cases p with
      | none => exact fun _ _ _ hf => nomatch hf
      | some i => exact never_unref (never_destroy fuel _ a)

theorem never_destroyCode : Never n destroyCode := by
  refine never_same (fun e e' b he => by cases he; rfl) fun _ => never_destroy _ _ ?_
  exact fun e e' b he => ⟨fun _ => by cases he; rfl, trivial⟩

end

/-- Step `i` calls a method that can make a file of the name. -/
def Exec.Maker (x : Exec N) (n : Bytes) (i : Nat) : Prop := ∃ t o, x.ev i = some (.call t o) ∧ MakesName o n

/-- The threads know who made the name; those that do not have not found it. -/
structure Exec.Names (x : Exec N) (n : Bytes) (m : Nat) : Prop where
  map : mapFind (x.w m).env.map n ≠ none → ∃ i, x.Maker n i ∧ Has x.sync m ((x.w m).owner .env) .env i
  code : ∀ u c, (x.w m).pc u = .run c → (∃ i, x.Maker n i ∧ Knows x.sync m u i) ∨
    ∃ o h, pending (hist x.ev m) u = some o ∧ Asks n (fun r => ShowsName o r n) h c ∧ (h → (x.w m).owner .env = some u)
  last : ∀ u c, (x.w m).pc u = .run c → pending (hist x.ev m) u = some .destroyEnv → Never n c

/-- What a step does to its thread. -/
inductive Moves (w w' : World) (e : Option Ev) (t : Tid) : Prop
  | call (o : Op) (he : e = some (.call t o)) (hc : w'.pc t = .run (code o)) (hm : w'.env.map = w.env.map)
  | act {β : Type} (f : Env → M (Env × β)) (next : β → Code) (b : β) (he : e = none) (hp : w.pc t = .run (.act f next))
      (eq : f w.env = .ok (w'.env, b)) (hc : w'.pc t = .run (next b)) (ho : w'.owner = w.owner)
  | other (k k' : Code) (he : e = none) (hp : w.pc t = .run k) (hc : w'.pc t = .run k') (hm : w'.env.map = w.env.map)
      (ha : ∀ n (P : Res → Prop) h, Asks n P h k → (h → w.owner .env = some t) → ∃ h', Asks n P h' k' ∧ (h' → w'.owner .env = some t))
      (hd : ∀ n, Never n k → Never n k')
  | ret (r : Res) (he : e = some (.ret t r)) (hp : w.pc t = .run (.ret r)) (hc : w'.pc t = .idle) (hm : w'.env.map = w.env.map)

theorem step_moves {w w' : World} {e : Option Ev} (s : Step w e w') {t : Tid} (ht : w'.pc t ≠ w.pc t) : Moves w w' e t := by
  have mine : ∀ {u : Tid} {p : Pc} {w1 : World}, w1.pc = w.pc → w' = w1.at u p → u = t := by
    rintro u p w1 h3 rfl
    apply Classical.byContradiction
    intro hn
    exact ht (by rw [pc_at, if_neg (Ne.symm hn), h3])
  cases s with
  | @call u o h =>
    have := mine rfl rfl
    subst this
    exact .call o rfl (by rw [pc_at, if_pos rfl]) rfl
  | @act u β f next e b h eq =>
    have := mine (w1 := { w with env := e }) rfl rfl
    subst this
    exact .act f next b rfl h eq (by rw [pc_at, if_pos rfl]) rfl
  | @lock u l next h hl free =>
    have := mine (w1 := w.own l (some u)) rfl rfl
    subst this
    refine .other _ next rfl h (by rw [pc_at, if_pos rfl]) rfl (fun n P hh a ho => ⟨_, a, fun hx => ?_⟩) fun n a => a
    rw [own_at, owner_own]
    split
    · rfl
    · rename_i hne
      exact ho (hx.resolve_left (Ne.symm hne))
  | @unlock u l next h hl mn =>
    have := mine (w1 := w.own l none) rfl rfl
    subst this
    refine .other _ next rfl h (by rw [pc_at, if_pos rfl]) rfl (fun n P hh a ho => ⟨_, a, fun hx => ?_⟩) fun n a => a
    rw [own_at, owner_own, if_neg (Ne.symm hx.1)]
    exact ho hx.2
  | @free u i next h hl hr hb =>
    have := mine (w1 := { w with env := { w.env with files := w.env.files.set i none, freed := w.env.freed ++ [i] } }) rfl rfl
    subst this
    exact .other _ next rfl h (by rw [pc_at, if_pos rfl]) rfl (fun n P hh a ho => ⟨_, a, ho⟩) fun n a => a
  | @gone u next h hl hm =>
    have := mine (w1 := { w with exists_ := false }) rfl rfl
    subst this
    exact .other _ next rfl h (by rw [pc_at, if_pos rfl]) rfl (fun n P hh a ho => ⟨_, a, ho⟩) fun n a => a
  | @ret u r h =>
    have := mine rfl rfl
    subst this
    exact .ret r rfl h (by rw [pc_at, if_pos rfl]) rfl

/-- A statement that changes the map does not ignore it. -/
theorem not_ignores_map {β : Type} {f : Env → M (Env × β)} {e e' : Env} {b : β} (hf : f e = .ok (e', b)) (hm : e'.map ≠ e.map) :
    ¬ Ignores f e .map := by
  intro h
  have h1 := h (.map e.map) rfl
  have h2 : (Change.map e.map).apply e = e := rfl
  rw [h2, hf] at h1
  injection h1 with h1
  injection h1 with h1 _
  have h3 : e'.map = ((Change.map e.map).apply e').map := congrArg Env.map h1
  exact hm h3

theorem pending_other {w w' : World} {e : Option Ev} (s : Step w e w') {t u : Tid} (ht : w'.pc t ≠ w.pc t) (hu : u ≠ t) (H : Hist) :
    pending (e.toList ++ H) u = pending H u := by
  have M := step_moves s ht
  cases M with
  | call o he _ _ => subst he; exact if_neg (Ne.symm hu)
  | act _ _ _ he _ _ _ _ => subst he; rfl
  | other _ _ he _ _ _ _ _ => subst he; rfl
  | ret r he _ _ _ => subst he; exact if_neg (Ne.symm hu)

theorem Exec.names (x : Exec N) (n : Bytes) : ∀ m, m ≤ N → x.Names n m
  | 0, _ => by
    refine ⟨fun h => ?_, fun u c h => ?_, fun u c h => ?_⟩ <;> rw [x.start] at h
    · exact absurd rfl h
    · cases h
    · cases h
  | m + 1, hm => by
    have I := x.names n m (by omega)
    have s := x.step m (by omega)
    obtain ⟨t, ht, hoth, -⟩ := step_shape s
    have T := x.turn (n := m) (by omega) .env
    have M := step_moves s ht
    have up : ∀ {u : Tid}, (∃ i, x.Maker n i ∧ Knows x.sync m u i) → ∃ i, x.Maker n i ∧ Knows x.sync (m + 1) u i :=
      fun ⟨i, h1, h2⟩ => ⟨i, h1, h2.mono (Nat.le_succ m)⟩
    have upH : (∃ i, x.Maker n i ∧ Has x.sync m ((x.w m).owner .env) .env i) →
        ∃ i, x.Maker n i ∧ Has x.sync (m + 1) ((x.w (m + 1)).owner .env) .env i := fun ⟨i, h1, h2⟩ => ⟨i, h1, h2.step T⟩
    have keepPc : ∀ u c, u ≠ t → (x.w (m + 1)).pc u = .run c → (x.w m).pc u = .run c := fun u c hu h => by rw [← hoth u hu]; exact h
    have hh : hist x.ev (m + 1) = (x.ev m).toList ++ hist x.ev m := rfl
    have ownKeep : ∀ u, u ≠ t → (x.w m).owner .env = some u → (x.w (m + 1)).owner .env = some u := by
      intro u hu ho
      obtain ⟨v, hv, -, h2⟩ := step_shape s
      have := step_thread s ht hv
      subst this
      rcases h2 .env with h | ⟨h, -⟩ | ⟨h, -⟩
      · rw [h]; exact ho
      · rw [h] at ho; cases ho
      · rw [h] at ho; cases ho; exact absurd rfl hu
    have codeOther : ∀ u c, u ≠ t → (x.w (m + 1)).pc u = .run c → (∃ i, x.Maker n i ∧ Knows x.sync (m + 1) u i) ∨
        ∃ o h, pending (hist x.ev (m + 1)) u = some o ∧ Asks n (fun r => ShowsName o r n) h c ∧ (h → (x.w (m + 1)).owner .env = some u) := by
      intro u c hu hc
      rcases I.code u c (keepPc u c hu hc) with h | ⟨o, h, h1, h2, h3⟩
      · exact .inl (up h)
      · exact .inr ⟨o, h, by rw [hh, pending_other s ht hu]; exact h1, h2, fun hx => ownKeep u hu (h3 hx)⟩
    have lastOther : ∀ u c, u ≠ t → (x.w (m + 1)).pc u = .run c → pending (hist x.ev (m + 1)) u = some .destroyEnv → Never n c := by
      intro u c hu hc hp
      rw [hh, pending_other s ht hu] at hp
      exact I.last u c (keepPc u c hu hc) hp
    cases M with
    | call o he hc hmap =>
      have hp : pending (hist x.ev (m + 1)) t = some o := by rw [hh, he]; exact if_pos rfl
      refine ⟨fun h => upH (I.map (by rw [← hmap]; exact h)), fun u c hu => ?_, fun u c hu hd => ?_⟩
      · by_cases hut : u = t
        · subst hut
          rw [hc] at hu
          cases hu
          by_cases hn : MakesName o n
          · exact .inl ⟨m, ⟨u, o, he, hn⟩, .self ht⟩
          · exact .inr ⟨o, False, hp, asks_code o n hn, fun h => h.elim⟩
        · exact codeOther u c hut hu
      · by_cases hut : u = t
        · subst hut
          rw [hc] at hu
          cases hu
          rw [hp] at hd
          cases hd
          exact never_destroyCode
        · exact lastOther u c hut hu hd
    | act f next b he hp eq hc ho =>
      have hpend : ∀ u, pending (hist x.ev (m + 1)) u = pending (hist x.ev m) u := fun u => by rw [hh, he]; rfl
      have hcode := I.code t _ hp
      refine ⟨fun h => ?_, fun u c hu => ?_, fun u c hu hd => ?_⟩
      · by_cases hb : mapFind (x.w m).env.map n = none
        · have hne : (x.w (m + 1)).env.map ≠ (x.w m).env.map := fun e => h (by rw [e]; exact hb)
          have hnd : pending (hist x.ev m) t ≠ some .destroyEnv := fun hd => h ((I.last t _ hp hd _ _ _ eq).1 hb)
          have hacc : x.Accesses m t .map := ⟨ht, trivial, _, f, next, hp, not_ignores_map eq hne⟩
          have hown := x.access_held (by omega) hacc fun _ => hnd
          rcases hcode with ⟨i, h1, h2⟩ | ⟨o, hx, h1, h2, h3⟩
          · exact ⟨i, h1, .inr ⟨t, by rw [ho]; exact hown, h2.mono (Nat.le_succ m)⟩⟩
          · rcases h2 _ _ _ eq with ⟨-, h4⟩ | ⟨h4, -⟩
            · exact absurd hb h4
            · exact absurd (h4 hb) h
        · exact upH (I.map hb)
      · by_cases hut : u = t
        · subst hut
          rw [hc] at hu
          cases hu
          rcases hcode with h | ⟨o, hx, h1, h2, h3⟩
          · exact .inl (up h)
          · rcases h2 _ _ _ eq with ⟨h4, h5⟩ | ⟨-, h5⟩
            · obtain ⟨i, h6, h7⟩ := I.map h5
              exact .inl ⟨i, h6, ((x.guarded .env m (by omega)).knows h7 (h3 h4)).mono (Nat.le_succ m)⟩
            · exact .inr ⟨o, hx, by rw [hpend]; exact h1, h5, fun h => by rw [ho]; exact h3 h⟩
        · exact codeOther u c hut hu
      · by_cases hut : u = t
        · subst hut
          rw [hc] at hu
          cases hu
          rw [hpend] at hd
          exact (I.last u _ hp hd _ _ _ eq).2
        · exact lastOther u c hut hu hd
    | other k k' he hp hc hmap ha hd =>
      have hpend : ∀ u, pending (hist x.ev (m + 1)) u = pending (hist x.ev m) u := fun u => by rw [hh, he]; rfl
      refine ⟨fun h => upH (I.map (by rw [← hmap]; exact h)), fun u c hu => ?_, fun u c hu hd' => ?_⟩
      · by_cases hut : u = t
        · subst hut
          rw [hc] at hu
          cases hu
          rcases I.code u _ hp with h | ⟨o, hx, h1, h2, h3⟩
          · exact .inl (up h)
          · obtain ⟨h', h4, h5⟩ := ha n _ hx h2 h3
            exact .inr ⟨o, h', by rw [hpend]; exact h1, h4, h5⟩
        · exact codeOther u c hut hu
      · by_cases hut : u = t
        · subst hut
          rw [hc] at hu
          cases hu
          rw [hpend] at hd'
          exact hd n (I.last u _ hp hd')
        · exact lastOther u c hut hu hd'
    | ret r he hp hc hmap =>
      refine ⟨fun h => upH (I.map (by rw [← hmap]; exact h)), fun u c hu => ?_, fun u c hu hd => ?_⟩
      · by_cases hut : u = t
        · subst hut
          rw [hc] at hu
          cases hu
        · exact codeOther u c hut hu
      · by_cases hut : u = t
        · subst hut
          rw [hc] at hu
          cases hu
        · exact lastOther u c hut hu hd

theorem Exec.found_after (x : Exec N) {j : Nat} {u : Tid} {o : Op} {r : Res} {n : Bytes} (hj : j < N) (he : x.ev j = some (.ret u r))
    (hp : pending (hist x.ev j) u = some o) (hs : ShowsName o r n) :
    ∃ i t o', x.ev i = some (.call t o') ∧ MakesName o' n ∧ HappensBefore x.sync i j := by
  have s := x.step j hj
  obtain ⟨t, ht, -, -⟩ := step_shape s
  have M := step_moves s ht
  rw [he] at M
  cases M with
  | call o he _ _ => cases he
  | act _ _ _ he _ _ _ _ => cases he
  | other _ _ he _ _ _ _ _ => cases he
  | ret r' he' hpc _ _ =>
    cases he'
    rcases (x.names n j (by omega)).code u _ hpc with ⟨i, ⟨t, o', h1, h2⟩, h3⟩ | ⟨o', h, h1, h2, -⟩
    · exact ⟨i, t, o', h1, h2, h3.before ht⟩
    · rw [hp] at h1
      cases h1
      exact absurd hs h2

end MemConc
end Lsmdb
