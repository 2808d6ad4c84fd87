import Verif.Proof.MemConc15
import Verif.Props.MemEnv

/-!
# C80 to C82, C66: the in-memory Env used by many threads

`Run w H`: some number of threads use a new in-memory Env and its file objects; the clients follow the rules of `Permitted`; `H` are
the calls and returns so far and `w` is the state of the machine.  Threads interleave at every statement, also inside of the critical
sections.  `Disciplined H` (or `Careful H`, which does not mention an order of effects): the calls are ones that the interface
allows.
-/

namespace Lsmdb
namespace MemConc
open MemEnv Spec Props
open CacheConc (Tid)

variable {H : Hist} {w : World}

/-! ## C80 -/

/-- Clients that keep rules that each of them can check are disciplined. -/
theorem C80_careful (r : Run w H) (c : Careful H) : Disciplined H := c.disciplined r.permitted

/-- C80: every history of calls and returns is one of the atomic file system, in which each call takes effect at one moment between its
call and its return (`Skip` at two).  When no call is in progress, the Env answers every further sequence of calls as the atomic file
system does. -/
theorem C80_linearizable (r : Run w H) (d : Disciplined H) :
    ∃ a, Atomic a H ∧ (Quiet w → ∀ hist, a.fs.AllowedAll hist → ∃ e rs, MemEnv.run w.env hist = .ok (e, rs) ∧ a.fs.Answers hist rs) := by
  obtain ⟨S, s⟩ := r.sim d
  refine ⟨_, s.atom, fun q hist ha => ?_⟩
  obtain ⟨e, rs, h1, h2, _⟩ := run_ok (s.quiet q) hist ha
  exact ⟨e, rs, h1, h2⟩

/-- C80: no two calls return the same file object. -/
theorem C80_handles_distinct (r : Run w H) (d : Disciplined H) : (newHandles H).Nodup := by
  obtain ⟨S, s⟩ := r.sim d
  exact s.atom.fresh.nodup

/-- C80: if one file is created and any number of threads append to it, through one file object or through many, then, when no call is
in progress, the file is the concatenation, in some order, of all the slices: no append is lost, torn or mixed with another. -/
theorem C80_appends (r : Run w H) (c : Careful H) (h1 : creations H = 1) {n : Bytes} {x : Res} (hn : Returned H (.newWritable n) x)
    (hk : ∀ u, Ev.call u (.removeFile n) ∉ H ∧ (∀ b, Ev.call u (.renameFile n b) ∉ H) ∧ Ev.call u .destroyEnv ∉ H) (q : Quiet w)
    (ho : opens H + 3 < 2 ^ 31) :
    ∃ ds : List Slice, ds.Perm (appendedSlices H) ∧ readWhole w.env n = .ok (some (ds.map Slice.bytes).flatten) := by
  have d := C80_careful r c
  obtain ⟨S, s⟩ := r.sim d
  have i := s.atom.whole (by omega) d
  have hname := (s.atom.named n (fun u => (hk u).1) (fun u => (hk u).2.1) (fun u => (hk u).2.2)).1 ⟨x, hn⟩
  obtain ⟨ds, g1, _, g2⟩ := i.data
  have hnow : ∀ t, S.now t = none := fun t => (s.idle t (q t)).1
  have zero : ∀ {c : Op → Nat} {k : Nat}, Total S.now (ahead c) k → k = 0 := by
    rintro c k ⟨L, -, -, hs⟩
    rw [← hs]
    simp only [hnow, ahead]
    clear hs
    induction L with
    | nil => rfl
    | cons y L ih => simp only [List.map_cons, List.sum_cons, ih]
  refine ⟨ds, ?_, ?_⟩
  · rw [List.perm_iff_count]
    intro d'
    obtain ⟨k, T, hb⟩ := g2 d'
    rw [← costs_append, ← hb, zero T, Nat.add_zero]
  · have hop : S.fs.opened ≤ opens H := by
      have := (s.atom.bound (c := fun o => if (makes o).isSome then 1 else 0) (F := FS.opened) rfl ?_ (fun _ _ => rfl)).1
      · rw [costs_opens] at this
        exact this
      · intro fs o
        cases o <;> simp only [FS.next, makes] <;> (try split) <;> (try split) <;> simp [FS.withObj]
    rw [readWhole_eq (s.quiet q) (by omega)]
    cases e : S.fs.name n with
    | none => rw [show (⟨S.fs, S.now⟩ : Atom).fs.name n = none from e] at hname; cases hname
    | some j =>
      have hj : j < S.fs.made := i.name n j e
      obtain ⟨k, _, hb⟩ := i.made
      rw [costs_new, h1] at hb
      have hb' : S.fs.made + k ≤ 1 := hb
      have : j = 0 := by omega
      subst this
      simp only [Option.map_some]
      rw [show S.fs.data 0 = _ from g1]

/-! ## C81 -/

/-- C81: at no moment is the next step of a thread undefined behaviour (the use of freed memory, a null pointer, a bad index, unwritten
bytes, a mutex of a freed object, a mutex freed while held) or a failed assertion. -/
theorem C81_no_fault (r : Run w H) (d : Disciplined H) : ¬ Faulty w := by
  obtain ⟨S, s⟩ := r.sim d
  exact s.not_faulty d

/-- C81: no file is freed twice, at any time; and when no call is in progress, the files that were freed are exactly those that have no
name and no open file object. -/
theorem C81_freed (r : Run w H) (d : Disciplined H) :
    (∀ i, w.env.freed.count i ≤ 1) ∧
    ∃ a, Atomic a H ∧ (Quiet w → w.env.files.length = a.fs.made ∧
      ∀ i, i < a.fs.made → (a.fs.InUse i → w.env.freed.count i = 0) ∧ (¬ a.fs.InUse i → w.env.freed.count i = 1)) := by
  obtain ⟨S, s⟩ := r.sim d
  refine ⟨fun i => ?_, _, s.atom, fun q => ?_⟩
  · rw [← s.env, s.inv.file.gone i]
    split <;> omega
  · have hR := s.quiet q
    exact ⟨hR.made, fun i hi => freed_count hR i hi⟩

/-- C81: when the Env is destroyed, every file object that a call returned was deleted and no call is in progress, then every file that
was ever created was freed, exactly once. -/
theorem C81_no_leak (r : Run w H) (d : Disciplined H) (q : Quiet w) {u : Tid} (he : Ev.call u .destroyEnv ∈ H)
    (ho : ∀ h ∈ newHandles H, ∃ t, Ev.call t (.delete h) ∈ H) : w.env.freed.Perm (List.range w.env.files.length) := by
  obtain ⟨S, s⟩ := r.sim d
  have hR := s.quiet q
  have hnow : ∀ t, S.now t = none := fun t => (s.idle t (q t)).1
  have hname : ∀ n, S.fs.name n = none := by
    rcases s.atom.destroyed r.permitted he with h | ⟨v, h⟩
    · exact h
    · rw [show (⟨S.fs, S.now⟩ : Atom).now v = S.now v from rfl, hnow] at h; cases h
  have hobj : ∀ h, S.fs.obj h = none := by
    intro h
    cases e : S.fs.obj h with
    | none => rfl
    | some x =>
      exfalso
      obtain ⟨κ, o⟩ := s.atom.origin r.permitted
      have hlt := (o.obj h x e).1
      rcases s.atom.fresh.all h hlt with g | ⟨t, o', s', g⟩
      · obtain ⟨t, ht⟩ := ho h g
        rcases (s.atom.deleted r.permitted ht).2 with f | ⟨v, f⟩
        · rw [show (⟨S.fs, S.now⟩ : Atom).fs.obj h = S.fs.obj h from rfl, e] at f; cases f
        · rw [show (⟨S.fs, S.now⟩ : Atom).now v = S.now v from rfl, hnow] at f; cases f
      · rw [show (⟨S.fs, S.now⟩ : Atom).now t = S.now t from rfl, hnow] at g; cases g
  rw [List.perm_iff_count]
  intro i
  have hlen : w.env.files.length = S.fs.made := hR.made
  rw [List.count_range, hlen]
  by_cases hi : i < S.fs.made
  · rw [if_pos hi]
    refine (freed_count hR i hi).2 ?_
    rintro (⟨n, hn⟩ | ⟨h, x, hx, _⟩)
    · rw [hname] at hn; cases hn
    · rw [hobj] at hx; cases hx
  · rw [if_neg hi, ← s.env, s.inv.file.gone i, if_neg]
    rw [List.getElem?_eq_none (by rw [s.env, hlen]; omega)]
    simp

/-! ## C82 -/

/-- C82: the threads never block each other for good: while a call is in progress, some thread can take a step of a call. -/
theorem C82_no_deadlock (r : Run w H) (d : Disciplined H) (q : ¬ Quiet w) : ∃ e w', Step w e w' ∧ ∀ t o, e ≠ some (.call t o) := by
  obtain ⟨S, s⟩ := r.sim d
  obtain ⟨t, h⟩ := Classical.not_forall.mp q
  exact s.moves d h

/-- C82: from any moment on, however the threads are scheduled, the calls in progress take only finitely many steps. -/
theorem C82_terminates (r : Run w H) :
    ¬ ∃ f : Nat → World, f 0 = w ∧ ∀ n, ∃ e, Step (f n) e (f (n + 1)) ∧ ∀ t o, e ≠ some (.call t o) := by
  rintro ⟨f, rfl, hs⟩
  obtain ⟨N, hN⟩ := r.finite
  exact no_endless hN hs

/-- C82: at any moment all calls in progress can go on to return. -/
theorem C82_completes (r : Run w H) (d : Disciplined H) :
    ∃ w' H', Run w' (H' ++ H) ∧ Quiet w' ∧ ∀ e ∈ H', ∃ t x, e = Ev.ret t x := r.complete d

/-! ## C66 -/

/-- C66 is false of the code: there is a run in which a `Skip` (by thread 1, of file object 1, whose position is 2) returns OK and leaves
the position at 102, although the file, which is file 0, has at most 4 bytes at all moments from the call to the return. -/
theorem C66_torn_run :
    ∃ w0 H0 w1 H1, Run w0 H0 ∧ Quiet w0 ∧ w0.env.objs[1]? = some (some (.seq 0 2)) ∧
      Path (fun w => ∃ f, w.env.files[0]? = some (some f) ∧ f.size ≤ 4) w0 H0 w1 (.ret 1 (.status .ok) :: H1) ∧
      pending H1 1 = some (.seqSkip 1 100) ∧ Careful (.ret 1 (.status .ok) :: H1) ∧
      w1.env.objs[1]? = some (some (.seq 0 102)) := by
  obtain ⟨w0, w1, r, q, h1, p, h2⟩ := skipRun
  refine ⟨w0, skipHist0, w1, _, r, q, h1, ?_, rfl, skipHist1_careful, h2⟩
  have imp : ∀ w : World, small w = true → ∃ f, w.env.files[0]? = some (some f) ∧ f.size ≤ 4 := by
    intro w h
    unfold small at h
    split at h
    · rename_i f e; exact ⟨f, e, by simpa using h⟩
    · cases h
  exact p.mono imp

/-- C66 for clients that do not call `NewWritableFile` while a `Skip` is in progress: then `Skip`, too, takes effect at one moment
between its call and its return, and moves the position forward by the given amount but not beyond the end of the file as it is at that
moment (`FS.next`).  Missing: `NewWritableFile` at the same time, for which the claim is false (`C66_torn_run`). -/
theorem C66_apart_partial (r : Run w H) (d : Disciplined H) (hA : Apart H) :
    ∃ a, Strict a H ∧ (Quiet w → ∀ hist, a.fs.AllowedAll hist → ∃ e rs, MemEnv.run w.env hist = .ok (e, rs) ∧ a.fs.Answers hist rs) := by
  obtain ⟨S, s⟩ := r.sim d
  refine ⟨_, (s.atom.strict r.permitted hA).2, fun q hist ha => ?_⟩
  obtain ⟨e, rs, h1, h2, _⟩ := run_ok (s.quiet q) hist ha
  exact ⟨e, rs, h1, h2⟩

/-! ## The hypotheses are met -/

/-- A run in which thread 1 appends to a file while thread 2, which holds `mutex_`, waits for it to ask for the size. -/
example : ∃ w, Run w sizeHist ∧ Careful sizeHist ∧ Disciplined sizeHist ∧ ¬ Quiet w ∧ w.owner .env = some 2 ∧
    w.owner (.blocks 0) = some 1 := by
  obtain ⟨w, h1, h2, h3⟩ := sizeRun
  have r := (play_run .init h1 sizeHist_permitted).1
  have d := C80_careful r sizeHist_careful
  refine ⟨w, r, sizeHist_careful, d, fun q => ?_, h2, h3⟩
  obtain ⟨S, s⟩ := r.sim d
  have := s.inv.env.own 2 (by rw [← s.own] at h2; exact h2)
  exact this (congrArg View.env (s.idle 2 (q 2)).2)

/-- Completed, it satisfies the hypotheses of `C80_appends`; the file then reads as the bytes appended. -/
example : ∃ w H, Run w H ∧ Quiet w ∧ creations H = 1 ∧ readWhole w.env [97] = .ok (some [1, 2, 3]) := by
  obtain ⟨w, h1, h2, h3⟩ := sizeRun
  have r := (play_run .init h1 sizeHist_permitted).1
  have d := C80_careful r sizeHist_careful
  obtain ⟨w', H', r', q, hr⟩ := C82_completes r d
  have call : ∀ {t o}, Ev.call t o ∈ H' ++ sizeHist → Ev.call t o ∈ sizeHist := by
    intro t o hm
    rcases List.mem_append.mp hm with hm | hm
    · obtain ⟨u, x, e⟩ := hr _ hm; cases e
    · exact hm
  have cr : ∀ l : Hist, (∀ e ∈ l, ∃ t x, e = Ev.ret t x) → creations (l ++ sizeHist) = 1 ∧ opens (l ++ sizeHist) = 1 ∧
      appended (l ++ sizeHist) = 3 ∧ appendedSlices (l ++ sizeHist) = [bytes3] := by
    intro l
    induction l with
    | nil => intro _; exact ⟨rfl, rfl, rfl, rfl⟩
    | cons e l ih =>
      intro hl
      obtain ⟨t, x, rfl⟩ := hl e (List.mem_cons_self ..)
      exact ih fun e he => hl e (List.mem_cons_of_mem _ he)
  obtain ⟨c1, c2, c3, c4⟩ := cr H' hr
  have suf : sizeHist <:+ H' ++ sizeHist := List.suffix_append _ _
  have open0 : ∀ o s h, Returned (H' ++ sizeHist) o (.opened s (some h)) → o = .newWritable [97] := by
    rintro o s h ⟨t, H0, hs, hp⟩
    -- the calls in progress are Append and GetFileSize; only NewWritableFile returns a file object
    obtain ⟨S, s'⟩ := r'.sim (by
      have : ∀ l : Hist, (∀ e ∈ l, ∃ t x, e = Ev.ret t x) → Disciplined (l ++ sizeHist) := by
        intro l
        induction l with
        | nil => intro _; exact d
        | cons e l ih =>
          intro hl
          obtain ⟨t, x, rfl⟩ := hl e (List.mem_cons_self ..)
          exact (ih fun e he => hl e (List.mem_cons_of_mem _ he)).ret
      exact this H' hr)
    obtain ⟨κ, og⟩ := s'.atom.origin r'.permitted
    have h1 := (og.ret o s h ⟨t, H0, hs, hp⟩).2
    have hm : Ev.call t o ∈ sizeHist := call ((List.suffix_cons _ _).trans hs |>.subset (pending_mem hp))
    simp only [sizeHist, List.mem_cons, List.not_mem_nil, or_false, Ev.call.injEq, reduceCtorEq, false_or] at hm
    rcases hm with ⟨_, rfl⟩ | ⟨_, rfl⟩ | ⟨_, rfl⟩
    · cases h1
    · cases h1
    · rfl
  have hc : Careful (H' ++ sizeHist) := by
    refine ⟨?_, ?_, by rw [c3]; decide, by rw [c2]; decide, ?_, ?_⟩
    · intro t o h k o' s hm hn hret
      rw [open0 o' s h hret]
      have hm := call hm
      simp only [sizeHist, List.mem_cons, List.not_mem_nil, or_false, Ev.call.injEq, reduceCtorEq, false_or] at hm
      rcases hm with ⟨_, rfl⟩ | ⟨_, rfl⟩ | ⟨_, rfl⟩ <;> cases hn
      rfl
    · intro t h d' hm; exact sizeHist_careful.slices t h d' (call hm)
    · intro t a b hm; exact sizeHist_careful.rename t a b (call hm)
    · intro t n H0 hs
      have := call (hs.subset (List.mem_cons_self ..))
      simp [sizeHist] at this
  have hret : Returned (H' ++ sizeHist) (.newWritable [97]) (.opened .ok (some 0)) :=
    ⟨1, [.call 1 (.newWritable [97])], ((List.suffix_cons _ _).trans (List.suffix_cons _ _)).trans suf, rfl⟩
  obtain ⟨ds, h4, h5⟩ := C80_appends r' hc c1 hret (fun u => ⟨fun hm => by have := call hm; simp [sizeHist] at this,
    fun b hm => by (have := call hm; simp [sizeHist] at this), fun hm => by have := call hm; simp [sizeHist] at this⟩) q (by rw [c2]; decide)
  refine ⟨w', _, r', q, c1, ?_⟩
  rw [c4] at h4
  rw [h5, List.perm_singleton.mp h4]
  rfl

/-- A run in which thread 2 removes a file while thread 1 appends to it, and then the file object and the Env are deleted: the hypotheses
of `C81_no_leak` are met. -/
example : ∃ w, Run w leakHist ∧ Careful leakHist ∧ w.env.freed = [0] ∧ Ev.call 2 .destroyEnv ∈ leakHist ∧
    ∀ h ∈ newHandles leakHist, ∃ t, Ev.call t (.delete h) ∈ leakHist := by
  obtain ⟨w, h1, h2⟩ := leakRun
  refine ⟨w, (play_run .init h1 leakHist_permitted).1, leakHist_careful, h2, by simp [leakHist], ?_⟩
  intro h hm
  simp only [leakHist, newHandles, List.mem_cons, List.not_mem_nil, or_false] at hm
  subst hm
  exact ⟨1, by simp [leakHist]⟩

/-- The hypothesis of `C66_apart_partial` is met by a run in which a `Skip` is in progress. -/
example : ∃ w H, Run w H ∧ Disciplined H ∧ Apart H ∧ pending H 1 = some (.seqSkip 1 100) := by
  obtain ⟨w0, w1, r, q, _, _, _⟩ := skipRun
  have suf : (.call 1 (.seqSkip 1 100) :: skipHist0) <:+ skipHist1 :=
    (List.suffix_cons _ _).trans ((List.suffix_cons _ _).trans (List.suffix_cons _ _))
  refine ⟨w0.at 1 (.run (code (.seqSkip 1 100))), .call 1 (.seqSkip 1 100) :: skipHist0,
    .call r (.call _ (q 1)) (skipHist1_permitted _ _ _ suf), (skipHist1_careful.disciplined skipHist1_permitted).suffix suf, ?_, rfl⟩
  intro H' hs t u x n m hp hu
  simp only [skipHist0, List.suffix_cons_iff, List.suffix_nil] at hs
  rcases hs with rfl | rfl | rfl | rfl | rfl | rfl | rfl | rfl | rfl | rfl <;>
    simp only [pending] at hp hu <;> (repeat' split at hp) <;> (repeat' split at hu) <;> cases hp <;> cases hu

end MemConc
end Lsmdb
