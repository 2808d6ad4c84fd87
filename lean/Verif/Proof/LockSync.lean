import Verif.Spec.LockSync
import Verif.Proof.PosixLock
import Verif.Proof.HappensBefore
import Mathlib.Data.Nat.Init

/-!
# Who gets a lock knows the call that gave it back
-/

namespace Lsmdb
namespace PLock

variable {N : Nat}

theorem Exec.run (x : Exec N) : ∀ n, n ≤ N → Run (evs x.ev n) (x.s n)
  | 0, _ => by rw [x.start]; exact .nil
  | n + 1, hn => (x.run n (by omega)).step (x.step n (by omega)) (x.rules n (by omega))

theorem Exec.tab (x : Exec N) {n : Nat} (hn : n ≤ N) : Tab (held (evs x.ev n)) (x.s n) := tab_run (x.run n hn)

/-- On the way to a lock that is granted. -/
def Granting (n : Bytes) : Pc → Prop
  | .setlk m _ => m = n
  | .leaveLock m (some _) => m = n
  | _ => False

theorem Granting.owns {n : Bytes} {q : Pc} (h : Granting n q) : q.owns = some n := by
  unfold Granting at h
  split at h <;> first | exact h.elim | (subst h; rfl)

/-- Giving the handle back, before it is out of the table. -/
def Giving (a : Handle) (q : Pc) : Prop := q.owns = some a.name ∧ q.handle = some a

/-- What a step does to a thread that gives back a handle. -/
theorem giving_step {s s' : Sys} {e : Option Ev} (h : Step s e s') {t : Nat × Nat} {a : Handle} (g : Giving a (s.pc t))
    (h1 : ∀ p, e ≠ some (.exit p)) (h2 : e ≠ some (.unlockFails t a)) :
    Giving a (s'.pc t) ∨ (s.pc t = .remove a ∧ s'.pc t = .close a ∧ ∀ u, u ≠ t → s'.pc u = s.pc u) := by
  have other : ∀ {x : Sys} {u : Nat × Nat} {q : Pc}, x.pc = s.pc → u ≠ t → Giving a ((x.at u q).pc t) := by
    intro x u q hx hu
    rw [at_pc, if_neg (Ne.symm hu), hx]
    exact g
  cases h with
  | callLock u n h | openFails u n h | setlkFails u n f h | lockFails u n h | lockOk u n f h | callUnlock u l h | unlockOk u l h =>
    by_cases hu : u = t
    · subst hu; rw [h] at g; cases g.1 <;> cases g.2
    · exact .inl (other rfl hu)
  | openOk u n ino h =>
    by_cases hu : u = t
    · subst hu; rw [h] at g; cases g.1
    · exact .inl (other (x := { s with fresh := s.fresh + 1 }) rfl hu)
  | insert u n f h =>
    by_cases hu : u = t
    · subst hu; rw [h] at g; cases g.1
    · exact .inl (other (setTable_pc _ _ _ _) hu)
  | dupClose u n f h | failClose u n f h =>
    by_cases hu : u = t
    · subst hu; rw [h] at g; cases g.2
    · exact .inl (other (drop_pc _ _ _) hu)
  | setlkOk u n f h hf =>
    by_cases hu : u = t
    · subst hu; rw [h] at g; cases g.2
    · exact .inl (other (setLock_pc _ _ _) hu)
  | failRemove u n f h =>
    by_cases hu : u = t
    · subst hu; rw [h] at g; cases g.2
    · exact .inl (other (setTable_pc _ _ _ _) hu)
  | unlckOk u l h =>
    by_cases hu : u = t
    · subst hu; rw [h] at g
      left
      rw [at_pc, if_pos rfl]
      have := g.2; cases this
      exact ⟨rfl, rfl⟩
    · exact .inl (other (drop_pc _ _ _) hu)
  | unlckFails u l h =>
    by_cases hu : u = t
    · subst hu; rw [h] at g
      left
      rw [at_pc, if_pos rfl]
      have := g.2; cases this
      exact ⟨rfl, rfl⟩
    · exact .inl (other rfl hu)
  | remove u l h =>
    by_cases hu : u = t
    · subst hu
      right
      rw [h] at g
      have := g.2; cases this
      exact ⟨h, by rw [at_pc, if_pos rfl], fun v hv => by rw [at_pc, if_neg hv, setTable_pc]⟩
    · exact .inl (other (setTable_pc _ _ _ _) hu)
  | close u l h =>
    by_cases hu : u = t
    · subst hu; rw [h] at g; cases g.1
    · exact .inl (other (drop_pc _ _ _) hu)
  | unlockFails u l h =>
    by_cases hu : u = t
    · subst hu; rw [h] at g
      have := g.2; cases this
      exact absurd rfl h2
    · exact .inl (other rfl hu)
  | exit p => exact absurd rfl (h1 p)
  | otherClose p ino => left; rw [drop_pc]; exact g

/-- Where a thread comes from that is about to be granted a lock. -/
theorem granting_step {s s' : Sys} {e : Option Ev} (h : Step s e s') {t : Nat × Nat} {n : Bytes} (g : Granting n (s'.pc t)) :
    Granting n (s.pc t) ∨ (AtTable (s.pc t) ∧ s'.pc t ≠ s.pc t ∧ ∀ p, e ≠ some (.exit p)) := by
  have other : ∀ {x : Sys} {u : Nat × Nat} {q : Pc}, x.pc = s.pc → u ≠ t → Granting n ((x.at u q).pc t) → Granting n (s.pc t) := by
    intro x u q hx hu hg
    rw [at_pc, if_neg (Ne.symm hu), hx] at hg
    exact hg
  have own : ∀ {x : Sys} {q : Pc}, Granting n ((x.at t q).pc t) → Granting n q := by
    intro x q hg
    rw [at_pc, if_pos rfl] at hg
    exact hg
  cases h with
  | callLock u m h | openFails u m h | setlkFails u m f h | lockFails u m h | lockOk u m f h | callUnlock u l h | unlockOk u l h
  | unlckFails u l h | unlockFails u l h =>
    by_cases hu : u = t
    · subst hu; exact (own g).elim
    · exact .inl (other rfl hu g)
  | openOk u m ino h =>
    by_cases hu : u = t
    · subst hu; exact (own g).elim
    · exact .inl (other (x := { s with fresh := s.fresh + 1 }) rfl hu g)
  | insert u m f h =>
    by_cases hu : u = t
    · subst hu
      right
      rw [h]
      refine ⟨trivial, ?_, fun _ => nofun⟩
      intro he
      rw [he] at g
      exact g
    · exact .inl (other (setTable_pc _ _ _ _) hu g)
  | dupClose u m f h | failClose u m f h =>
    by_cases hu : u = t
    · subst hu; exact (own g).elim
    · exact .inl (other (drop_pc _ _ _) hu g)
  | setlkOk u m f h hf =>
    by_cases hu : u = t
    · subst hu
      left
      rw [h]
      have e := own (q := .leaveLock m (some f)) g
      exact e
    · exact .inl (other (setLock_pc _ _ _) hu g)
  | failRemove u m f h =>
    by_cases hu : u = t
    · subst hu; exact (own g).elim
    · exact .inl (other (setTable_pc _ _ _ _) hu g)
  | unlckOk u l h =>
    by_cases hu : u = t
    · subst hu; exact (own g).elim
    · exact .inl (other (drop_pc _ _ _) hu g)
  | remove u l h =>
    by_cases hu : u = t
    · subst hu; exact (own g).elim
    · exact .inl (other (setTable_pc _ _ _ _) hu g)
  | close u l h =>
    by_cases hu : u = t
    · subst hu; exact (own g).elim
    · exact .inl (other (drop_pc _ _ _) hu g)
  | exit p =>
    left
    simp only at g
    split at g
    · exact g.elim
    · exact g
  | otherClose p ino => left; rw [drop_pc] at g; exact g

/-- The call at step `i` that gives back the handle: it is under way, or the mutex of the table and everyone on the way to the next lock
of that name know it. -/
def Told (x : Exec N) (i : Nat) (t : Nat × Nat) (a : Handle) (n : Nat) : Prop :=
  (Giving a ((x.s n).pc t) ∧ Knows x.sync n t i) ∨
    (KnownTo x.sync n a.proc i ∧ ∀ k, Granting a.name ((x.s n).pc (a.proc, k)) → Knows x.sync n (a.proc, k) i)

theorem Exec.told (x : Exec N) {i j : Nat} {t : Nat × Nat} {a : Handle} (hj : j ≤ N) (hi : i < j)
    (he : x.ev i = some (.callUnlock t a)) (hx : ∀ k, i < k → k < j → ∀ p, x.ev k ≠ some (.exit p))
    (hf : ∀ k, i < k → k < j → x.ev k ≠ some (.unlockFails t a)) : ∀ n, i < n → n ≤ j → Told x i t a n := by
  have hp := (x.rules i (by omega) t a he).2
  intro n hn
  induction n, hn using Nat.le_induction with
  | base =>
    intro _
    left
    have s := x.step i (by omega)
    rw [he] at s
    have hpc : (x.s (i + 1)).pc t = .unlck a ∧ (x.s i).pc t = .idle := by
      generalize x.s (i + 1) = s' at s
      cases s with
      | callUnlock t l h => exact ⟨by rw [at_pc, if_pos rfl], h⟩
    refine ⟨by rw [hpc.1]; exact ⟨rfl, rfl⟩, Knows.self ⟨by rw [hpc.1, hpc.2]; exact nofun, by rw [he]; exact fun _ => nofun⟩⟩
  | succ n hn ih =>
    intro hnj
    have T := ih (by omega)
    have s := x.step n (by omega)
    have tb := x.tab (n := n) (by omega)
    rcases T with ⟨hg, hk⟩ | ⟨h1, h2⟩
    · rcases giving_step s hg (hx n (by omega) (by omega)) (hf n (by omega) (by omega)) with h | ⟨h3, h4, h5⟩
      · exact .inl ⟨h, hk.mono (Nat.le_succ n)⟩
      · right
        obtain ⟨tp, tk⟩ := t
        simp only at hp
        subst hp
        have ht : x.sync.thread n (a.proc, tk) := ⟨by rw [h3, h4]; exact nofun, hx n (by omega) (by omega)⟩
        refine ⟨hk.unlock ⟨tk, by rw [h3]; trivial, ht.1, ht.2⟩ ht, fun k hgr => ?_⟩
        exfalso
        by_cases hkt : k = tk
        · subst hkt
          rw [h4] at hgr
          exact hgr
        · rw [h5 _ (by intro e; injection e with _ e; exact hkt e)] at hgr
          exact hkt (tb.uniq _ _ _ _ hgr.owns hg.1)
    · right
      refine ⟨h1.mono (Nat.le_succ n), fun k hgr => ?_⟩
      rcases granting_step s hgr with h | ⟨h3, h4, h5⟩
      · exact (h2 k h).mono (Nat.le_succ n)
      · exact h1.lock ⟨k, h3, h4, h5⟩ ⟨h4, h5⟩

theorem Exec.lock_after (x : Exec N) {i j : Nat} {t u : Nat × Nat} {a h : Handle} (hj : j < N) (hi : i < j)
    (he : x.ev i = some (.callUnlock t a)) (hl : x.ev j = some (.lockOk u h)) (hproc : h.proc = a.proc) (hname : h.name = a.name)
    (hx : ∀ k, i < k → k < j → ∀ p, x.ev k ≠ some (.exit p))
    (hf : ∀ k, i < k → k < j → x.ev k ≠ some (.unlockFails t a)) : HappensBefore x.sync i j := by
  have T := x.told (Nat.le_of_lt hj) hi he hx hf j hi (Nat.le_refl j)
  have s := x.step j hj
  have tb := x.tab (n := j) (by omega)
  have hp := (x.rules i (by omega) t a he).2
  rw [hl] at s
  have hpc : ∃ k f, u = (h.proc, k) ∧ (x.s j).pc u = .leaveLock h.name (some f) ∧ (x.s (j + 1)).pc u = .idle := by
    generalize x.s (j + 1) = s' at s
    cases s with
    | lockOk u n f h => exact ⟨u.2, f, rfl, h, by rw [at_pc, if_pos rfl]⟩
  obtain ⟨k, f, hu, h1, h2⟩ := hpc
  rw [hproc] at hu
  subst hu
  rcases T with ⟨hg, -⟩ | ⟨-, hk⟩
  · exfalso
    obtain ⟨tp, tk⟩ := t
    simp only at hp
    subst hp
    have e : tk = k := tb.uniq _ _ _ a.name hg.1 (by rw [h1, hname]; rfl)
    subst e
    have := hg.2
    rw [h1] at this
    cases this
  · exact (hk k (by rw [h1]; exact hname)).before ⟨by rw [h1, h2]; exact nofun, by rw [hl]; exact fun _ => nofun⟩

theorem held_one (l : List Ev) (e : Ev) : held (l ++ [e]) = heldStep (held l) e := by
  simp [held, List.foldl_append]

/-- A lock that is held stays so until `UnlockFile` is called. -/
theorem Exec.given_back (x : Exec N) {g j : Nat} {t u : Nat × Nat} {a h : Handle} (hj : j < N) (hg : g < j)
    (hgot : x.ev g = some (.lockOk t a)) (hret : x.ev j = some (.lockOk u h)) (hproc : h.proc = a.proc) (hname : h.name = a.name)
    (hx : ∀ k, g < k → k < j → ∀ p, x.ev k ≠ some (.exit p)) : ∃ i t', g < i ∧ i < j ∧ x.ev i = some (.callUnlock t' a) := by
  have key : ∀ n, g < n → n ≤ j → a ∈ held (evs x.ev n) ∨ ∃ i t', g < i ∧ i < n ∧ x.ev i = some (.callUnlock t' a) := by
    intro n hn
    induction n, hn using Nat.le_induction with
    | base =>
      intro _
      left
      show a ∈ held (evs x.ev g ++ (x.ev g).toList)
      rw [hgot]
      simp [held_one, heldStep]
    | succ n hn ih =>
      intro hnj
      rcases ih (by omega) with h1 | ⟨i, t', h1, h2, h3⟩
      · cases hev : x.ev n with
        | none => left; simp only [evs, hev, Option.toList, List.append_nil]; exact h1
        | some e =>
          cases e with
          | callUnlock t' l =>
            by_cases hl : l = a
            · subst hl; exact .inr ⟨n, t', by omega, by omega, hev⟩
            · left
              simp only [evs, hev, Option.toList, held_one, heldStep, List.mem_filter]
              exact ⟨h1, by simpa using Ne.symm hl⟩
          | exit p => exact absurd hev (hx n (by omega) (by omega) p)
          | lockOk _ _ | unlockFails _ _ =>
            left
            simp only [evs, hev, Option.toList, held_one, heldStep]
            exact List.mem_cons_of_mem _ h1
          | callLock _ _ | lockFails _ _ | unlockOk _ _ | otherClose _ _ =>
            left
            simp only [evs, hev, Option.toList, held_one, heldStep]
            exact h1
      · exact .inr ⟨i, t', h1, by omega, h3⟩
  rcases key j hg (Nat.le_refl j) with h1 | h1
  · exfalso
    have tb := x.tab (n := j + 1) hj
    have := tb.pw
    simp only [evs, hret, Option.toList, held_one, heldStep, List.pairwise_cons] at this
    exact this.1 a h1 ⟨hproc, hname⟩
  · exact h1

/-- A run as a numbered execution. -/
theorem Run.exec {es : List Ev} {s : Sys} (r : Run es s) : ∃ (N : Nat) (x : Exec N), x.s N = s ∧ evs x.ev N = es := by
  induction r with
  | nil => exact ⟨0, ⟨fun _ => Sys.init, fun _ => none, rfl, fun i hi => absurd hi (Nat.not_lt_zero i),
      fun i hi => absurd hi (Nat.not_lt_zero i)⟩, rfl, rfl⟩
  | @step s s' es e r h' hu ih =>
    obtain ⟨N, x, rfl, rfl⟩ := ih
    have hh : ∀ n, n ≤ N → evs (fun i => if i = N then e else x.ev i) n = evs x.ev n := by
      intro n
      induction n with
      | zero => intro _; rfl
      | succ n ih =>
        intro hn
        simp only [evs]
        rw [ih (by omega), if_neg (by omega)]
    refine ⟨N + 1, ⟨fun i => if i = N + 1 then s' else x.s i, fun i => if i = N then e else x.ev i, ?_, ?_, ?_⟩, ?_, ?_⟩
    · rw [if_neg (by omega)]; exact x.start
    · intro i hi
      rw [if_neg (by omega : i ≠ N + 1)]
      by_cases hiN : i = N
      · subst hiN
        rw [if_pos rfl, if_pos rfl]
        exact h'
      · rw [if_neg hiN, if_neg (by omega)]
        exact x.step i (by omega)
    · intro i hi t l he
      rw [hh i (by omega)]
      by_cases hiN : i = N
      · subst hiN
        rw [if_pos rfl] at he
        exact hu t l he
      · rw [if_neg hiN] at he
        exact x.rules i (by omega) t l he
    · simp
    · show evs (fun i => if i = N then e else x.ev i) N ++ (if N = N then e else x.ev N).toList = _
      rw [if_pos rfl, hh N (Nat.le_refl N)]

/-- The step of an event. -/
theorem evs_split {ev : Nat → Option Ev} : ∀ {n : Nat} {l1 l2 : List Ev} {e : Ev}, evs ev n = l1 ++ e :: l2 →
    ∃ i, i < n ∧ ev i = some e ∧ evs ev i = l1
  | 0, l1, l2, e, h => by simp [evs] at h
  | n + 1, l1, l2, e, h => by
    simp only [evs] at h
    cases hev : ev n with
    | none =>
      rw [hev] at h
      simp only [Option.toList, List.append_nil] at h
      obtain ⟨i, h1, h2⟩ := evs_split h
      exact ⟨i, by omega, h2⟩
    | some e' =>
      rw [hev] at h
      rcases List.eq_nil_or_concat l2 with rfl | ⟨l2', z, rfl⟩
      · obtain ⟨h1, h2⟩ := List.append_inj' h rfl
        cases h2
        exact ⟨n, Nat.lt_succ_self n, hev, h1⟩
      · have h' : evs ev n ++ [e'] = (l1 ++ e :: l2') ++ [z] := by simpa using h
        obtain ⟨h1, h2⟩ := List.append_inj' h' rfl
        obtain ⟨i, h3, h4⟩ := evs_split h1
        exact ⟨i, by omega, h4⟩

theorem evs_mem {ev : Nat → Option Ev} {e : Ev} {k : Nat} (h : ev k = some e) : ∀ {n : Nat}, k < n → e ∈ evs ev n
  | n + 1, hk => by
    simp only [evs, List.mem_append]
    rcases Nat.lt_or_ge k n with h1 | h1
    · exact .inl (evs_mem h h1)
    · have : k = n := by omega
      subst this
      right; rw [h]; simp

theorem evs_length (ev : Nat → Option Ev) {i j : Nat} (h : i ≤ j) : (evs ev i).length ≤ (evs ev j).length := by
  induction h with
  | refl => exact Nat.le_refl _
  | step h ih => simp only [evs, List.length_append]; omega

end PLock
end Lsmdb
