import Verif.Proof.MemConc14

/-!
# Some runs
-/

namespace Lsmdb
namespace MemConc
open MemEnv Spec
open CacheConc (Tid)

variable {H : Hist} {w : World}

deriving instance DecidableEq for Op, Ev

theorem AllPermitted.nil : AllPermitted [] := by
  intro t o H0 h
  have := h.length_le
  simp at this

theorem AllPermitted.call {t : Tid} {o : Op} (h : AllPermitted H) (p : Permitted H o) : AllPermitted (.call t o :: H) := by
  intro u o' H0 hs
  rcases List.suffix_cons_iff.mp hs with e | hs
  · injection e with e1 e2
    injection e1 with e1 e3
    subst e2; subst e3
    exact p
  · exact h u o' H0 hs

theorem AllPermitted.ret {t : Tid} {x : Res} (h : AllPermitted H) : AllPermitted (.ret t x :: H) := by
  intro u o' H0 hs
  rcases List.suffix_cons_iff.mp hs with e | hs
  · injection e with e1 e2; cases e1
  · exact h u o' H0 hs

/-- A call of a method of the Env other than its destruction. -/
theorem permitted_env {o : Op} (ht : target o = none) (hd : o ≠ .destroyEnv) (h : ∀ t, Ev.call t .destroyEnv ∉ H) : Permitted H o :=
  ⟨by (intro x e; rw [ht] at e; cases e), by (intro x e; rw [ht] at e; cases e), by (intro x e; rw [ht] at e; cases e), fun _ => h,
    fun e => absurd e hd⟩

/-- A call of a method of a file object that nobody else uses. -/
theorem permitted_obj {o : Op} {h : Nat} (ht : target o = some h) (hk : ∃ t s, Ev.ret t (.opened s (some h)) ∈ H)
    (hd : ∀ t, Ev.call t (.delete h) ∉ H) (hs : ∀ t o', pending H t = some o' → target o' ≠ some h) : Permitted H o := by
  refine ⟨?_, ?_, ?_, ?_, ?_⟩
  · intro x e; rw [ht] at e; injection e with e; subst e; exact hk
  · intro x e; rw [ht] at e; injection e with e; subst e; exact hd
  · intro x e t o' hp e'
    rw [ht] at e; injection e with e; subst e
    exact absurd e' (hs t o' hp)
  · intro e; rw [ht] at e; cases e
  · intro e; rw [e] at ht; cases ht

/-- The next `n` steps of a thread. -/
def go (t : Tid) (n : Nat) : List Move := List.replicate n (.step t)

def bytes3 : Slice := Slice.ofBytes [1, 2, 3]

/-- Thread 1 creates a file and appends to it; in the middle of that thread 2 asks for its size, and waits with `mutex_` in hand for
`blocks_mutex_`. -/
def sizeMoves : List Move :=
  .call 1 (.newWritable [97]) :: go 1 13 ++ .call 1 (.append 0 bytes3) :: .call 2 (.getFileSize [97]) :: go 1 3 ++ go 2 3

def sizeHist : Hist := [.call 2 (.getFileSize [97]), .call 1 (.append 0 bytes3), .ret 1 (.opened .ok (some 0)), .call 1 (.newWritable [97])]

theorem sizeHist_permitted : AllPermitted sizeHist := by
  refine .call (.call (.ret (.call .nil (permitted_env rfl (by decide) ?_))) (permitted_obj (h := 0) rfl ⟨1, .ok, ?_⟩ ?_ ?_))
    (permitted_env rfl (by decide) ?_)
  all_goals simp +contextual [pending, target]

theorem sizeHist_careful : Careful sizeHist := by
  refine ⟨?_, ?_, ?_, ?_, ?_, ?_⟩
  · rintro t o h k o' s hm hn ⟨u, H0, hs, hp⟩
    simp only [sizeHist, List.mem_cons, List.not_mem_nil, or_false, Ev.call.injEq, reduceCtorEq, false_or] at hm
    simp only [sizeHist, List.suffix_cons_iff, List.cons.injEq, reduceCtorEq, false_and, false_or, Ev.ret.injEq, Res.opened.injEq,
      Option.some.injEq, List.suffix_nil, or_false] at hs
    obtain ⟨⟨rfl, rfl, rfl⟩, rfl⟩ := hs
    simp only [pending, if_true, Option.some.injEq] at hp
    subst hp
    rcases hm with ⟨rfl, rfl⟩ | ⟨rfl, rfl⟩ | ⟨rfl, rfl⟩
    · cases hn
    · cases hn; rfl
    · cases hn
  · intro t h d hm
    simp only [sizeHist, List.mem_cons, List.not_mem_nil, or_false, Ev.call.injEq, reduceCtorEq, false_or, and_false,
      Op.append.injEq] at hm
    obtain ⟨_, _, rfl⟩ := hm
    decide
  · decide
  · decide
  · intro t a b hm
    simp [sizeHist] at hm
  · intro t n H0 hs
    simp [sizeHist, List.suffix_cons_iff] at hs

theorem sizeRun : ∃ w, play World.init [] sizeMoves = some (w, sizeHist) ∧ w.owner .env = some 2 ∧ w.owner (.blocks 0) = some 1 := by
  have h : (play World.init [] sizeMoves).map (fun p => (p.2, p.1.owner .env, p.1.owner (.blocks 0))) =
      some (sizeHist, some 2, some 1) := by decide +kernel
  cases e : play World.init [] sizeMoves with
  | none => rw [e] at h; cases h
  | some p =>
    obtain ⟨w, H⟩ := p
    rw [e] at h
    simp only [Option.map_some, Option.some.injEq, Prod.mk.injEq] at h
    obtain ⟨rfl, h1, h2⟩ := h
    exact ⟨w, rfl, h1, h2⟩

/-- Thread 1 creates a file and appends to it; in the middle of that thread 2 removes the file; then the file object and the Env are
deleted. -/
def leakMoves : List Move :=
  .call 1 (.newWritable [97]) :: go 1 13 ++ .call 1 (.append 0 bytes3) :: .call 2 (.removeFile [97]) :: go 1 3 ++ go 2 11 ++ go 1 4 ++
    .call 1 (.delete 0) :: go 1 12 ++ .call 2 .destroyEnv :: go 2 5

def leakHist : Hist :=
  [.ret 2 .unit, .call 2 .destroyEnv, .ret 1 .unit, .call 1 (.delete 0), .ret 1 (.status .ok), .ret 2 (.status .ok),
   .call 2 (.removeFile [97]), .call 1 (.append 0 bytes3), .ret 1 (.opened .ok (some 0)), .call 1 (.newWritable [97])]

theorem leakHist_permitted : AllPermitted leakHist := by
  refine .ret (.call (.ret (.call (.ret (.ret (.call (.call (.ret (.call .nil (permitted_env rfl (by decide) ?_)))
    (permitted_obj (h := 0) rfl ⟨1, .ok, ?_⟩ ?_ ?_)) (permitted_env rfl (by decide) ?_)))) (permitted_obj (h := 0) rfl ⟨1, .ok, ?_⟩ ?_ ?_)))
    ⟨?_, ?_, ?_, ?_, ?_⟩)
  all_goals simp +contextual [pending, target]

theorem leakHist_careful : Careful leakHist := by
  refine ⟨?_, ?_, ?_, ?_, ?_, ?_⟩
  · rintro t o h k o' s hm hn ⟨u, H0, hs, hp⟩
    simp only [leakHist, List.mem_cons, List.not_mem_nil, or_false, Ev.call.injEq, reduceCtorEq, false_or] at hm
    simp only [leakHist, List.suffix_cons_iff, List.cons.injEq, reduceCtorEq, false_and, and_false, false_or, Ev.ret.injEq, Res.opened.injEq,
      Option.some.injEq, List.suffix_nil, or_false] at hs
    obtain ⟨⟨rfl, rfl, rfl⟩, rfl⟩ := hs
    simp only [pending, if_true, Option.some.injEq] at hp
    subst hp
    rcases hm with ⟨rfl, rfl⟩ | ⟨rfl, rfl⟩ | ⟨rfl, rfl⟩ | ⟨rfl, rfl⟩ | ⟨rfl, rfl⟩ <;> cases hn <;> rfl
  · intro t h d hm
    simp only [leakHist, List.mem_cons, List.not_mem_nil, or_false, Ev.call.injEq, reduceCtorEq, false_or, and_false,
      Op.append.injEq] at hm
    obtain ⟨_, _, rfl⟩ := hm
    decide
  · decide
  · decide
  · intro t a b hm
    simp [leakHist] at hm
  · intro t n H0 hs
    simp [leakHist, List.suffix_cons_iff] at hs

/-- The history and what a function says about the last state. -/
theorem play_of.{u} {α : Type u} {ms : List Move} {f : World → α} {H0 : Hist} {w0 : World} {y : α}
    (h : (play w0 H0 ms).map (fun p => (p.2, f p.1)) = some (H, y)) : ∃ w, play w0 H0 ms = some (w, H) ∧ f w = y := by
  cases e : play w0 H0 ms with
  | none => rw [e] at h; cases h
  | some p =>
    obtain ⟨w, H'⟩ := p
    rw [e] at h
    simp only [Option.map_some, Option.some.injEq, Prod.mk.injEq] at h
    obtain ⟨rfl, h1⟩ := h
    exact ⟨w, rfl, h1⟩

theorem leakRun : ∃ w, play World.init [] leakMoves = some (w, leakHist) ∧ w.env.freed = [0] :=
  play_of (f := fun w => w.env.freed) (by decide +kernel)

/-! ## Skip -/

def bytes4 : Slice := Slice.ofBytes [1, 2, 3, 4]

/-- Thread 1 creates a file of four bytes and reads two of them. -/
def skipMoves0 : List Move :=
  .call 1 (.newWritable [97]) :: go 1 13 ++ .call 1 (.append 0 bytes4) :: go 1 7 ++ .call 1 (.newSequential [97]) :: go 1 9 ++
    .call 1 (.seqRead 1 2) :: go 1 8

def skipHist0 : Hist :=
  [.ret 1 (.data .ok (some [1, 2])), .call 1 (.seqRead 1 2), .ret 1 (.opened .ok (some 1)), .call 1 (.newSequential [97]),
    .ret 1 (.status .ok), .call 1 (.append 0 bytes4), .ret 1 (.opened .ok (some 0)), .call 1 (.newWritable [97])]

/-- Thread 1 calls Skip and looks at the size; thread 2 creates the file again; Skip goes on and returns. -/
def skipMoves1 : List Move := .call 1 (.seqSkip 1 100) :: go 1 5 ++ .call 2 (.newWritable [97]) :: go 2 12 ++ go 1 5

def skipHist1 : Hist :=
  .ret 1 (.status .ok) :: .ret 2 (.opened .ok (some 2)) :: .call 2 (.newWritable [97]) :: .call 1 (.seqSkip 1 100) :: skipHist0

theorem skipHist1_permitted : AllPermitted skipHist1 := by
  refine .ret (.ret (.call (.call (.ret (.call (.ret (.call (.ret (.call (.ret (.call .nil (permitted_env rfl (by decide) ?_)))
    (permitted_obj (h := 0) rfl ⟨1, .ok, ?_⟩ ?_ ?_))) (permitted_env rfl (by decide) ?_)))
    (permitted_obj (h := 1) rfl ⟨1, .ok, ?_⟩ ?_ ?_))) (permitted_obj (h := 1) rfl ⟨1, .ok, ?_⟩ ?_ ?_)) (permitted_env rfl (by decide) ?_)))
  all_goals simp +contextual [pending, target, skipHist0]

theorem skipHist1_careful : Careful skipHist1 := by
  refine ⟨?_, ?_, ?_, ?_, ?_, ?_⟩
  · rintro t o h k o' s hm hn ⟨u, H0, hs, hp⟩
    simp only [skipHist1, skipHist0, List.mem_cons, List.not_mem_nil, or_false, Ev.call.injEq, reduceCtorEq, false_or] at hm
    simp only [skipHist1, skipHist0, List.suffix_cons_iff, List.cons.injEq, reduceCtorEq, false_and, and_false, false_or, Ev.ret.injEq,
      Res.opened.injEq, Option.some.injEq, List.suffix_nil, or_false] at hs
    rcases hs with ⟨⟨rfl, rfl, rfl⟩, rfl⟩ | ⟨⟨rfl, rfl, rfl⟩, rfl⟩ | ⟨⟨rfl, rfl, rfl⟩, rfl⟩ <;>
    simp only [pending, if_true, Option.some.injEq] at hp <;> subst hp <;>
    rcases hm with ⟨rfl, rfl⟩ | ⟨rfl, rfl⟩ | ⟨rfl, rfl⟩ | ⟨rfl, rfl⟩ | ⟨rfl, rfl⟩ | ⟨rfl, rfl⟩ <;> cases hn <;> rfl
  · intro t h d hm
    simp only [skipHist1, skipHist0, List.mem_cons, List.not_mem_nil, or_false, Ev.call.injEq, reduceCtorEq, false_or, and_false,
      Op.append.injEq] at hm
    obtain ⟨_, _, rfl⟩ := hm
    decide
  · decide
  · decide
  · intro t a b hm
    simp [skipHist1, skipHist0] at hm
  · intro t n H0 hs
    simp [skipHist1, skipHist0, List.suffix_cons_iff] at hs

/-- A schedule with a test at all times. -/
def playAll (test : World → Bool) : World → List Move → Bool
  | w, [] => test w
  | w, m :: ms => test w && match fire w m with
    | some (_, w') => playAll test w' ms
    | none => true

theorem playAll_first {test : World → Bool} {w : World} {ms : List Move} (h : playAll test w ms = true) : test w = true := by
  cases ms with
  | nil => exact h
  | cons m ms =>
    simp only [playAll, Bool.and_eq_true] at h
    exact h.1

theorem Path.trans {P : World → Prop} {w0 w1 w2 : World} {H0 H1 H2 : Hist} (p : Path P w0 H0 w1 H1) (q : Path P w1 H1 w2 H2) :
    Path P w0 H0 w2 H2 := by
  induction q with
  | refl _ => exact p
  | internal _ s h ih => exact .internal ih s h
  | call _ s pm h ih => exact .call ih s pm h
  | ret _ s h ih => exact .ret ih s h

theorem Path.mono {P Q : World → Prop} {w0 w1 : World} {H0 H1 : Hist} (p : Path P w0 H0 w1 H1) (imp : ∀ w, P w → Q w) :
    Path Q w0 H0 w1 H1 := by
  induction p with
  | refl h => exact .refl (imp _ h)
  | internal _ s h ih => exact .internal ih s (imp _ h)
  | call _ s pm h ih => exact .call ih s pm (imp _ h)
  | ret _ s h ih => exact .ret ih s (imp _ h)

theorem play_path {test : World → Bool} {ms : List Move} {w w' : World} {H H' : Hist} (h : play w H ms = some (w', H'))
    (ap : AllPermitted H') (ht : playAll test w ms = true) : Path (fun w => test w = true) w H w' H' := by
  have mono : ∀ {ms w H w' H'}, play w H ms = some (w', H') → H <:+ H' := by
    intro ms
    induction ms with
    | nil => intro w H w' H' h; injection h with h; injection h with h1 h2; rw [h2]
    | cons m ms ih =>
      intro w H w' H' h
      simp only [play] at h
      split at h
      · exact (List.suffix_cons _ _).trans (ih h)
      · exact ih h
      · cases h
  induction ms generalizing w H with
  | nil =>
    injection h with h
    injection h with h1 h2
    subst h1; subst h2
    exact .refl ht
  | cons m ms ih =>
    simp only [playAll, Bool.and_eq_true] at ht
    obtain ⟨t1, t2⟩ := ht
    simp only [play] at h
    split at h
    · rename_i e w1 hf
      rw [hf] at t2
      have hs := mono h
      cases e with
      | call t o => exact (Path.call (.refl t1) (fire_sound hf) (ap t o H hs) (playAll_first t2)).trans (ih h t2)
      | ret t x => exact (Path.ret (.refl t1) (fire_sound hf) (playAll_first t2)).trans (ih h t2)
    · rename_i w1 hf
      rw [hf] at t2
      exact (Path.internal (.refl t1) (fire_sound hf) (playAll_first t2)).trans (ih h t2)
    · cases h

/-- File 0 has at most four bytes. -/
def small (w : World) : Bool :=
  match w.env.files[0]? with
  | some (some f) => decide (f.size ≤ 4)
  | _ => false

theorem play_append {w w1 : World} {H H1 : Hist} {ms ms' : List Move} (h : play w H ms = some (w1, H1)) :
    play w H (ms ++ ms') = play w1 H1 ms' := by
  induction ms generalizing w H with
  | nil => injection h with h; injection h with h1 h2; rw [h1, h2]; rfl
  | cons m ms ih =>
    simp only [play, List.cons_append] at h ⊢
    split at h
    · exact ih h
    · exact ih h
    · cases h

theorem skipRun : ∃ w0 w1, Run w0 skipHist0 ∧ Quiet w0 ∧ w0.env.objs[1]? = some (some (.seq 0 2)) ∧
    Path (fun w => small w = true) w0 skipHist0 w1 skipHist1 ∧ w1.env.objs[1]? = some (some (.seq 0 102)) := by
  obtain ⟨w0, h1, h2⟩ := play_of (ms := skipMoves0) (w0 := World.init) (H0 := []) (H := skipHist0)
    (f := fun w => (w.env.objs[1]?, playAll small w skipMoves1, match w.pc 1 with | .idle => true | .run _ => false))
    (y := (some (some (.seq 0 2)), true, true)) (by decide +kernel)
  obtain ⟨w1, h3, h4⟩ := play_of (ms := skipMoves0 ++ skipMoves1) (w0 := World.init) (H0 := []) (H := skipHist1)
    (f := fun w => w.env.objs[1]?) (y := some (some (.seq 0 102))) (by decide +kernel)
  rw [play_append h1] at h3
  simp only [Prod.mk.injEq] at h2
  obtain ⟨g1, g2, g3⟩ := h2
  have suf : skipHist0 <:+ skipHist1 :=
    ((List.suffix_cons _ _).trans (List.suffix_cons _ _)).trans ((List.suffix_cons _ _).trans (List.suffix_cons _ _))
  have ap : AllPermitted skipHist0 := skipHist1_permitted.suffix suf
  have r := (play_run .init h1 ap).1
  refine ⟨w0, w1, r, ?_, g1, play_path h3 skipHist1_permitted g2, h4⟩
  obtain ⟨S, s⟩ := r.sim ((skipHist1_careful.disciplined skipHist1_permitted).suffix suf)
  intro t
  cases e : w0.pc t with
  | idle => rfl
  | run c =>
    exfalso
    obtain ⟨o, p, hn, _⟩ := s.run t c e
    have := s.pend t
    rw [hn] at this
    simp only [skipHist0, pending, Option.map_some] at this
    by_cases e1 : 1 = t
    · subst e1; rw [e] at g3; cases g3
    · simp only [if_neg e1] at this
      cases this

end MemConc
end Lsmdb
