import Verif.Proof.EnvMem
import Verif.Props.MemEnv

/-!
# C46 on the in-memory Env: WriteStringToFile and ReadFileToString
-/

namespace Lsmdb
namespace Iface

open MemEnv (St lit Op Res Obj step)
open Spec

variable {m : Type → Type} [Monad m] [LawfulMonad m] [Faults m]

theorem onFiles_ok {α : Type} {f : MemEnv.Env → M (α × MemEnv.Env)} {s : MemState} {a : α} {e : MemEnv.Env} (h : f s.env = .ok (a, e)) :
    (onFiles f : StateT MemState m α).run s = pure (a, { s with env := e }) := by
  show (onFiles f : StateT MemState m α) s = _
  simp [onFiles, h, ofM]

/-- A call on the files through the interface is the call of the history model. -/
theorem mem_newWritable {base : Env m} {s : MemState} {f : Bytes} {r : Ptr} {e : MemEnv.Env} {x : Nat}
    (h : step s.env (.newWritable f) = .ok (e, .opened .ok (some x))) :
    ((InMemoryEnv base).NewWritableFile f r).run s = pure ((.ok, .obj x), { s with env := e }) := by
  simp only [InMemoryEnv, memFiles]
  apply onFiles_ok
  simp only [step, bind, Except.bind] at h ⊢
  cases hx : MemEnv.NewWritableFile s.env f with
  | error er => rw [hx] at h; exact nomatch h
  | ok v =>
    rw [hx] at h
    obtain ⟨st, p, e'⟩ := v
    simp [pure, Except.pure] at h
    obtain ⟨rfl, rfl, rfl⟩ := h
    rfl

theorem mem_newSequential {base : Env m} {s : MemState} {f : Bytes} {r : Ptr} {e : MemEnv.Env} {st : St} {x : Option Nat}
    (h : step s.env (.newSequential f) = .ok (e, .opened st x)) :
    ((InMemoryEnv base).NewSequentialFile f r).run s = pure ((st, .of x), { s with env := e }) := by
  simp only [InMemoryEnv, memFiles]
  apply onFiles_ok
  simp only [step, bind, Except.bind] at h ⊢
  cases hx : MemEnv.NewSequentialFile s.env f with
  | error er => rw [hx] at h; exact nomatch h
  | ok v =>
    rw [hx] at h
    obtain ⟨st, p, e'⟩ := v
    simp [pure, Except.pure] at h
    obtain ⟨rfl, rfl, rfl⟩ := h
    rfl

theorem mem_append {s : MemState} {x : Nat} {d : Slice} {e : MemEnv.Env} {st : St} (h : step s.env (.append x d) = .ok (e, .status st)) :
    ((memFiles : Files (StateT MemState m)).append (.obj x) d).run s = pure (st, { s with env := e }) := by
  simp only [InMemoryEnv, memFiles]
  apply onFiles_ok
  simp only [step, bind, Except.bind, Ptr.deref] at h ⊢
  cases hx : MemEnv.wrAppend s.env x d with
  | error er => rw [hx] at h; exact nomatch h
  | ok v =>
    rw [hx] at h
    obtain ⟨st, e'⟩ := v
    simp [pure, Except.pure] at h
    obtain ⟨rfl, rfl⟩ := h
    rfl

theorem mem_nop {s : MemState} {x : Nat} {e : MemEnv.Env} {st : St} (h : step s.env (.close x) = .ok (e, .status st)) :
    ((memFiles : Files (StateT MemState m)).close (.obj x)).run s = pure (st, { s with env := e }) ∧
    ((memFiles : Files (StateT MemState m)).sync (.obj x)).run s = pure (st, { s with env := e }) := by
  constructor
  all_goals
    simp only [memFiles]
    apply onFiles_ok
    simp only [step, bind, Except.bind, Ptr.deref] at h ⊢
    cases hx : MemEnv.wrNop s.env x with
    | error er => rw [hx] at h; exact nomatch h
    | ok v =>
      rw [hx] at h
      simp [pure, Except.pure] at h
      obtain ⟨rfl, rfl⟩ := h
      rfl

theorem mem_delete {s : MemState} {x : Nat} {e : MemEnv.Env} (h : step s.env (.delete x) = .ok (e, .unit)) :
    ((memFiles : Files (StateT MemState m)).delete (.obj x)).run s = pure ((), { s with env := e }) := by
  simp only [InMemoryEnv, memFiles]
  apply onFiles_ok
  simp only [step, bind, Except.bind, Ptr.deref] at h ⊢
  cases hx : MemEnv.deleteObj s.env x with
  | error er => rw [hx] at h; exact nomatch h
  | ok v =>
    rw [hx] at h
    simp [pure, Except.pure] at h
    subst h
    rfl

theorem mem_seqRead {s : MemState} {x n : Nat} {e : MemEnv.Env} {st : St} {d : Option Bytes} (h : step s.env (.seqRead x n) = .ok (e, .data st d)) :
    ((memFiles : Files (StateT MemState m)).seqRead (.obj x) n).run s = pure ((st, d), { s with env := e }) := by
  simp only [InMemoryEnv, memFiles]
  apply onFiles_ok
  simp only [step, bind, Except.bind, Ptr.deref] at h ⊢
  cases hx : MemEnv.seqRead s.env x n with
  | error er => rw [hx] at h; exact nomatch h
  | ok v =>
    rw [hx] at h
    obtain ⟨st, d, e'⟩ := v
    simp [pure, Except.pure] at h
    obtain ⟨rfl, rfl, rfl⟩ := h
    rfl

theorem obj_fresh {e : MemEnv.Env} {fs : FS} (h : Reached e fs) : fs.obj fs.opened = none := by
  have hR := Props.reached_R h
  rw [hR.obj, List.getElem?_eq_none (by rw [hR.nobjs]; exact Nat.le_refl _)]
  rfl

/-- What the file system holds under a name. -/
def Spec.FS.read (fs : FS) (n : Bytes) : Option Bytes := (fs.name n).map fs.data

/-- C46: on the in-memory Env, WriteStringToFile and WriteStringToFileSync return OK and leave exactly the data under
the name, nothing else changed, and no file object open. -/
theorem C46_mem_write (base : Env m) (s : MemState) (fs : FS) (h : Reached s.env fs) (ho : fs.opened + 2 < 2 ^ 31)
    (data : Slice) (hw : data.WF) (hl : data.len < 2 ^ 64) (f : Bytes) (sync : Bool) :
    ∃ s' fs', (DoWriteStringToFile (InMemoryEnv base) memFiles data f sync).run s = pure (.ok, s') ∧
      Reached s'.env fs' ∧ fs'.opened = fs.opened + 1 ∧ Spec.FS.read fs' f = some data.bytes ∧
      (∀ g, g ≠ f → Spec.FS.read fs' g = Spec.FS.read fs g) ∧ ∀ x, fs'.obj x = fs.obj x := by
  have hR := Props.reached_R h
  have hfresh := obj_fresh h
  -- the file the name refers to after the open call
  obtain ⟨i, hi1, hi2, hi3, hi4, hi5, hi6⟩ : ∃ i, (fs.next (.newWritable f)).obj = upd fs.obj fs.opened (some (.wr i)) ∧
      (fs.next (.newWritable f)).data i = [] ∧ (fs.next (.newWritable f)).name f = some i ∧
      (fs.next (.newWritable f)).opened = fs.opened + 1 ∧
      (∀ g, g ≠ f → (fs.next (.newWritable f)).name g = fs.name g) ∧
      (∀ g, g ≠ f → ∀ j, fs.name g = some j → j ≠ i ∧ (fs.next (.newWritable f)).data j = fs.data j) := by
    cases hf : fs.name f with
    | none =>
      refine ⟨fs.made, by simp [FS.next, hf, FS.withObj], by simp [FS.next, hf, FS.withObj, upd], by simp [FS.next, hf, FS.withObj, upd],
        by simp [FS.next, hf, FS.withObj], fun g hg => by simp [FS.next, hf, FS.withObj, upd, hg], fun g hg j hj => ?_⟩
      have := hR.nameLt g j hj
      have hne : j ≠ fs.made := by omega
      exact ⟨hne, by simp [FS.next, hf, FS.withObj, upd, hne]⟩
    | some i =>
      refine ⟨i, by simp [FS.next, hf, FS.withObj], by simp [FS.next, hf, FS.withObj, upd], by simp [FS.next, hf, FS.withObj],
        by simp [FS.next, hf, FS.withObj], fun g hg => by simp [FS.next, hf, FS.withObj], fun g hg j hj => ?_⟩
      have hne : j ≠ i := by rintro rfl; exact hg (Props.names_injective hR hj hf)
      exact ⟨hne, by simp [FS.next, hf, FS.withObj, upd, hne]⟩
  obtain ⟨e1, r1, a1, b1, c1⟩ := Props.C40_continues h (.newWritable f) ho
  cases (b1 : r1 = _)
  have a1' := mem_newWritable (m := m) (base := base) (r := .uninit) a1
  generalize hfs1 : fs.next (.newWritable f) = fs1 at *
  have ob1 : fs1.obj fs.opened = some (.wr i) := by rw [hi1]; simp [upd]
  obtain ⟨e2, r2, a2, b2, c2⟩ := Props.C40_continues c1 (.append fs.opened data) ⟨hw, i, ob1, by rw [hi2]; simpa using hl⟩
  cases (b2 : r2 = _)
  have a2' := mem_append (m := m) (s := { s with env := e1 }) a2
  have n2 : fs1.next (.append fs.opened data) = { fs1 with data := upd fs1.data i (fs1.data i ++ data.bytes) } := by
    simp [FS.next, ob1]
  rw [n2, hi2] at c2
  generalize hfs2 : ({ fs1 with data := upd fs1.data i ([] ++ data.bytes) } : FS) = fs2 at *
  have ob2 : fs2.obj fs.opened = some (.wr i) := by rw [← hfs2]; exact ob1
  obtain ⟨e3, r3, a3, b3, c3⟩ := Props.C40_continues c2 (.close fs.opened) ⟨i, ob2⟩
  cases (b3 : r3 = _)
  obtain ⟨a3', a3''⟩ := mem_nop (m := m) (s := { s with env := e2 }) a3
  have c3 : Reached e3 fs2 := c3
  have hsync : ∃ e4, (sync = true → ((memFiles : Files (StateT MemState m)).sync (.obj fs.opened)).run { s with env := e2 }
      = pure (.ok, { s with env := e4 })) ∧ (sync = false → e4 = e2) ∧ Reached e4 fs2 := by
    cases sync
    · exact ⟨e2, fun h => (nomatch h), fun _ => rfl, c2⟩
    · exact ⟨e3, fun _ => a3'', fun h => (nomatch h), c3⟩
  obtain ⟨e4, a4, a4', c4⟩ := hsync
  obtain ⟨e5, r5, a5, b5, c5⟩ := Props.C40_continues c4 (.close fs.opened) ⟨i, ob2⟩
  cases (b5 : r5 = _)
  have a5' := (mem_nop (m := m) (s := { s with env := e4 }) a5).1
  have c5 : Reached e5 fs2 := c5
  obtain ⟨e6, r6, a6, b6, c6⟩ := Props.C40_continues c5 (.delete fs.opened) (by rw [FS.Allowed, ob2]; rfl)
  cases (b6 : r6 = _)
  have a6' := mem_delete (m := m) (s := { s with env := e5 }) a6
  refine ⟨{ s with env := e6 }, _, ?_, c6, ?_, ?_, ?_, ?_⟩
  · cases sync
    · have a4' := a4' rfl
      subst a4'
      simp only [DoWriteStringToFile, StateT.run_bind, a1', pure_bind, ne_eq, not_true_eq_false, if_false, a2', if_true,
        reduceCtorEq, and_false, a5', a6', StateT.run_pure]
    · have a4 := a4 rfl
      simp only [DoWriteStringToFile, StateT.run_bind, a1', pure_bind, ne_eq, not_true_eq_false, if_false, a2', if_true,
        and_self, a4, a5', a6', StateT.run_pure]
  · rw [← hfs2]; exact hi4
  · subst hfs2
    simp [Spec.FS.read, FS.next, hi3, upd]
  · intro g hg
    subst hfs2
    simp only [Spec.FS.read, FS.next, hi5 g hg]
    cases hj : fs.name g with
    | none => rfl
    | some j =>
      obtain ⟨x1, x2⟩ := hi6 g hg j hj
      simp [upd, x1, x2]
  · intro x
    subst hfs2
    simp only [FS.next, upd, hi1]
    split
    · next hx => rw [hx, hfresh]
    · rfl

/-- The loop of ReadFileToString on the in-memory Env. -/
theorem mem_readLoop (x : Nat) (c : Bytes) (i : Nat) : ∀ (k : Nat) (s : MemState) (fs : FS) (pos : Nat) (acc : Bytes),
    Reached s.env fs → fs.obj x = some (.seq i pos) → fs.data i = c → pos ≤ c.length → c.length - pos ≤ k * kBufferSize →
    ∀ fuel, k + 1 ≤ fuel → ∃ s' fs', (readLoop (memFiles : Files (StateT MemState m)) (.obj x) fuel acc).run s = pure ((.ok, acc ++ c.drop pos), s') ∧
      Reached s'.env fs' ∧ fs'.name = fs.name ∧ fs'.data = fs.data ∧ fs'.opened = fs.opened ∧ (fs'.obj x).isSome ∧
      ∀ y, y ≠ x → fs'.obj y = fs.obj y := by
  intro k
  induction k with
  | zero =>
    intro s fs pos acc h ho hd hp hk fuel hf
    obtain ⟨fuel, rfl⟩ : ∃ n, fuel = n + 1 := ⟨fuel - 1, by omega⟩
    have hpos : pos = c.length := by omega
    obtain ⟨e', r, a, b, d⟩ := Props.C40_continues h (.seqRead x kBufferSize) ⟨i, pos, ho⟩
    simp only [FS.Answer, ho, FS.readAnswer, hd, hp, if_true] at b
    subst b
    have a' := mem_seqRead (m := m) a
    have hnil : sub c pos kBufferSize = [] := by simp [sub, hpos]
    refine ⟨{ s with env := e' }, _, ?_, d, ?_, ?_, ?_, ?_, ?_⟩
    · subst hpos; simp [readLoop, StateT.run_bind, a', hnil]
    all_goals simp only [FS.next, ho, hd, hp, if_true]
    · simp [upd]
    · intro y hy; simp [upd, hy]
  | succ k ih =>
    intro s fs pos acc h ho hd hp hk fuel hf
    obtain ⟨fuel, rfl⟩ : ∃ n, fuel = n + 1 := ⟨fuel - 1, by omega⟩
    obtain ⟨e', r, a, b, d⟩ := Props.C40_continues h (.seqRead x kBufferSize) ⟨i, pos, ho⟩
    simp only [FS.Answer, ho, FS.readAnswer, hd, hp, if_true] at b
    subst b
    have a' := mem_seqRead (m := m) a
    by_cases hpos : pos = c.length
    · have hnil : sub c pos kBufferSize = [] := by simp [sub, hpos]
      refine ⟨{ s with env := e' }, _, ?_, d, ?_, ?_, ?_, ?_, ?_⟩
      · subst hpos; simp [readLoop, StateT.run_bind, a', hnil]
      all_goals simp only [FS.next, ho, hd, hp, if_true]
      · simp [upd]
      · intro y hy; simp [upd, hy]
    · have hlen : (sub c pos kBufferSize).length = min kBufferSize (c.length - pos) := by simp [sub]
      have hne : sub c pos kBufferSize ≠ [] := by
        intro h0
        rw [h0] at hlen
        simp [kBufferSize] at hlen
        omega
      have d' : Reached ({ s with env := e' } : MemState).env _ := d
      simp only [FS.next, ho, hd, hp, if_true] at d'
      have hmul : (k + 1) * kBufferSize = k * kBufferSize + kBufferSize := by rw [Nat.add_mul, Nat.one_mul]
      obtain ⟨s', fs', g1, g2, g3, g4, g5, g6, g7⟩ := ih { s with env := e' } _ (pos + (sub c pos kBufferSize).length) (acc ++ sub c pos kBufferSize) d'
        (by simp [upd]) hd (by omega) (by omega) fuel (by omega)
      refine ⟨s', fs', ?_, g2, g3, g4, g5, g6, ?_⟩
      · have hcat : sub c pos kBufferSize ++ c.drop (pos + (sub c pos kBufferSize).length) = c.drop pos := by
          rw [← List.drop_drop, hlen]
          have : (c.drop pos).drop (min kBufferSize (c.length - pos)) = (c.drop pos).drop kBufferSize := by
            rcases Nat.le_total kBufferSize (c.length - pos) with hl | hl
            · rw [Nat.min_eq_left hl]
            · rw [Nat.min_eq_right hl, List.drop_eq_nil_of_le (by simp), List.drop_eq_nil_of_le (by simpa using hl)]
          rw [this]
          exact List.take_append_drop _ _
        rw [readLoop]
        simp only [StateT.run_bind, a', pure_bind, ne_eq, not_true_eq_false, if_false, Option.getD_some, hne]
        rw [g1, List.append_assoc, hcat]
      · intro y hy
        rw [g7 y hy]
        simp [upd, hy]

/-- C46: on the in-memory Env, ReadFileToString of an existing file ends, returns OK and the whole contents, and changes nothing
and leaves no file object open. -/
theorem C46_mem_read (base : Env m) (s : MemState) (fs : FS) (h : Reached s.env fs) (ho : fs.opened + 2 < 2 ^ 31)
    (f c : Bytes) (hf : Spec.FS.read fs f = some c) :
    ∃ n, ∀ fuel, n ≤ fuel → ∃ s' fs', (ReadFileToString (InMemoryEnv base) memFiles fuel f).run s = pure ((.ok, c), s') ∧
      Reached s'.env fs' ∧ fs'.opened = fs.opened + 1 ∧ (∀ g, Spec.FS.read fs' g = Spec.FS.read fs g) ∧ ∀ x, fs'.obj x = fs.obj x := by
  refine ⟨c.length + 1, fun fuel hfuel => ?_⟩
  have hfresh := obj_fresh h
  cases hn : fs.name f with
  | none => simp [Spec.FS.read, hn] at hf
  | some i =>
  have hd : fs.data i = c := by simpa [Spec.FS.read, hn] using hf
  obtain ⟨e1, r1, a1, b1, c1⟩ := Props.C40_continues h (.newSequential f) ho
  simp only [FS.Answer, FS.openAnswer, hn] at b1
  subst b1
  have a1' := mem_newSequential (m := m) (base := base) (r := .uninit) a1
  simp only [FS.next, hn] at c1
  obtain ⟨s2, fs2, g1, g2, g3, g4, g5, g6, g7⟩ := mem_readLoop (m := m) fs.opened c i c.length { s with env := e1 } _ 0 [] c1
    (by simp [FS.withObj, upd]) hd (Nat.zero_le _) (by simp [kBufferSize]; omega) fuel hfuel
  obtain ⟨e6, r6, a6, b6, c6⟩ := Props.C40_continues g2 (.delete fs.opened) g6
  cases (b6 : r6 = _)
  have a6' := mem_delete (m := m) a6
  refine ⟨{ s2 with env := e6 }, _, ?_, c6, ?_, ?_, ?_⟩
  · simp only [ReadFileToString, StateT.run_bind, a1', pure_bind, Ptr.of, Ptr.value, ofM, StateT.run_pure, ne_eq, not_true_eq_false,
      if_false, g1, destroyUnique, reduceCtorEq, a6', List.nil_append, List.drop_zero]
  · exact g5
  · intro g
    simp only [Spec.FS.read, FS.next, g3, g4]
    rfl
  · intro x
    simp only [FS.next, upd]
    split
    · next hx => rw [hx, hfresh]
    · next hx =>
      rw [g7 x hx]
      simp [FS.withObj, upd, hx]

/-- C46: on the in-memory Env, ReadFileToString of a missing file fails, and changes nothing. -/
theorem C46_mem_missing (base : Env m) (s : MemState) (fs : FS) (h : Reached s.env fs) (f : Bytes) (hf : Spec.FS.read fs f = none) (fuel : Nat) :
    (ReadFileToString (InMemoryEnv base) memFiles fuel f).run s = pure ((FS.missing f, []), s) := by
  have hn : fs.name f = none := by simpa [Spec.FS.read] using hf
  have a1 := mem_newSequential (m := m) (base := base) (r := .uninit) (Props.C40_missing h f hn).2.1
  simp only [ReadFileToString, StateT.run_bind, a1, pure_bind, Ptr.of, Ptr.value, ofM, StateT.run_pure, ne_eq, FS.missing, reduceCtorEq,
    not_false_eq_true, if_true, destroyUnique]

/-- C46: on the in-memory Env, after WriteStringToFile(data, f), ReadFileToString(f) returns OK and exactly the data; likewise after
any later sequence of writes to other files. -/
theorem C46_mem_roundtrip (base : Env m) (s : MemState) (fs : FS) (h : Reached s.env fs) (others : List (Bytes × Slice))
    (ho : fs.opened + others.length + 4 < 2 ^ 31) (data : Slice) (hw : data.WF) (hl : data.len < 2 ^ 64) (f : Bytes) (sync : Bool)
    (hoth : ∀ o ∈ others, o.1 ≠ f ∧ o.2.WF ∧ o.2.len < 2 ^ 64) :
    ∃ n, ∀ fuel, n ≤ fuel → ∃ s', (do
      let s0 ← DoWriteStringToFile (InMemoryEnv base) memFiles data f sync
      let ss ← others.mapM fun o => DoWriteStringToFile (InMemoryEnv base) memFiles o.2 o.1 sync
      let (s1, d) ← ReadFileToString (InMemoryEnv base) memFiles fuel f
      return (s0, ss, s1, d) : StateT MemState m _).run s = pure ((.ok, others.map fun _ => .ok, .ok, data.bytes), s') := by
  obtain ⟨s1, fs1, a1, b1, c1, d1, -, -⟩ := C46_mem_write (m := m) base s fs h (by omega) data hw hl f sync
  have hmid : ∀ (os : List (Bytes × Slice)) (s : MemState) (fs : FS), Reached s.env fs → fs.opened + os.length + 2 < 2 ^ 31 →
      (∀ o ∈ os, o.1 ≠ f ∧ o.2.WF ∧ o.2.len < 2 ^ 64) → ∃ s' fs',
      (os.mapM fun o => DoWriteStringToFile (InMemoryEnv base) memFiles o.2 o.1 sync : StateT MemState m _).run s = pure (os.map fun _ => .ok, s') ∧
      Reached s'.env fs' ∧ fs'.opened = fs.opened + os.length ∧ Spec.FS.read fs' f = Spec.FS.read fs f := by
    intro os
    induction os with
    | nil => intro s fs h _ _; exact ⟨s, fs, by simp, h, rfl, rfl⟩
    | cons o os ih =>
      intro s fs h ho hall
      have ho' : fs.opened + (os.length + 1) + 2 < 2 ^ 31 := ho
      obtain ⟨q1, q2, q3⟩ := hall o (by simp)
      obtain ⟨s1, fs1, a1, b1, c1, d1, e1, -⟩ := C46_mem_write (m := m) base s fs h (by omega) o.2 q2 q3 o.1 sync
      obtain ⟨s2, fs2, a2, b2, c2, d2⟩ := ih s1 fs1 b1 (by omega) (fun o ho => hall o (by simp [ho]))
      refine ⟨s2, fs2, ?_, b2, by rw [c2, c1, List.length_cons]; omega, by rw [d2, e1 f (Ne.symm q1)]⟩
      simp only [List.mapM_cons, StateT.run_bind, a1, pure_bind, a2, StateT.run_pure, List.map_cons]
  obtain ⟨s2, fs2, a2, b2, c2, d2⟩ := hmid others s1 fs1 b1 (by omega) hoth
  obtain ⟨n, hn⟩ := C46_mem_read (m := m) base s2 fs2 b2 (by omega) f data.bytes (by rw [d2, d1])
  refine ⟨n, fun fuel hf => ?_⟩
  obtain ⟨s3, fs3, a3, -⟩ := hn fuel hf
  refine ⟨s3, ?_⟩
  simp only [StateT.run_bind, a1, pure_bind, a2, a3, StateT.run_pure]

/-- A fresh in-memory Env, and data of three bytes, satisfy the hypotheses. -/
example : Reached MemState.init.env FS.init ∧ FS.init.opened + 1 + 4 < 2 ^ 31 ∧ (Slice.ofBytes [1, 2, 3]).WF :=
  ⟨⟨[], [], trivial, rfl, rfl⟩, by decide, by simp [Slice.WF, Slice.ofBytes]⟩

/-- The same on a concrete run: two files, the first read back, though it was overwritten. -/
example : let base := brokenEnv; ((do
      let _ ← WriteStringToFile (InMemoryEnv base) memFiles (Slice.ofBytes [9, 9, 9, 9]) [97]
      let _ ← WriteStringToFile (InMemoryEnv base) memFiles (Slice.ofBytes [1, 2, 3]) [97]
      let _ ← WriteStringToFileSync (InMemoryEnv base) memFiles (Slice.ofBytes [4]) [98]
      ReadFileToString (InMemoryEnv base) memFiles 5 [97] : StateT MemState M _).run MemState.init).map Prod.fst =
    .ok (.ok, [1, 2, 3]) := by decide +kernel

end Iface
end Lsmdb
