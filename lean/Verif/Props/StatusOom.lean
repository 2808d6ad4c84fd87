import Verif.Proof.StatusOom

/-!
# C87: Status when memory runs out
-/

namespace Lsmdb
namespace Props
open Spec Status

/-- C87, violated: assigning an error to another Status that is an error, when memory has run out: the exception leaves the left side
with a pointer to its deleted buffer.  From then on asking for its kind reads deleted memory, and its destructor (which the language
runs anyway) deletes the buffer again. -/
theorem C87_assignment_dangles (ops : List (Op × Bool)) (e : SEnv) (ts : List Bool) (h : srunO (fun _ => none) ops = some (e, ts))
    (hs : Spared (fun _ => none) ops) (i j : Nat) (hij : i ≠ j) (k k' : Code) (msg msg' : Bytes)
    (hi : e i = some (.err k msg)) (hj : e j = some (.err k' msg')) :
    ∃ m m', runO Mem.init ops = .ok (m, ts) ∧ stepO m (.copyAssign i j) true = .ok (m', true) ∧
      (∀ c, isCode m' i c = .error .useAfterFree) ∧ ToString m' i = .error .useAfterFree ∧ step m' (.destroy i) = .error .doubleFree := by
  obtain ⟨m, hr, hinv⟩ := runO_inv inv_init h hs
  obtain ⟨p, hp, hrp⟩ := hinv.obj hi
  obtain ⟨q, hq, hrq⟩ := hinv.obj hj
  cases p with
  | none => cases hrp
  | some p =>
  cases q with
  | none => cases hrq
  | some q =>
    have hpq : p ≠ q := by rintro rfl; exact hij (hinv.own i j p hp hq)
    have hrq' : Repr (m.heap.set p none) (some q) (.err k' msg') := Repr.set (by simpa using Ne.symm hpq) hrq
    have hfree := free_eq hinv hp hi
    have hb := hrp.bound
    have hget : (m.heap.set p none)[p]? = some none := by rw [List.getElem?_set_self hb]
    have hg : Status.get { m with heap := m.heap.set p none } i = .ok (some p) := oom_get_of (m := { m with heap := m.heap.set p none }) hp
    have hload : load { m with heap := m.heap.set p none } p = .error .useAfterFree := by simp only [load, hget]
    have hcode : code { m with heap := m.heap.set p none } i = .error .useAfterFree := by
      simp only [code, hg, hload, bind, Except.bind]
    refine ⟨m, { m with heap := m.heap.set p none }, hr, ?_, ?_, ?_, ?_⟩
    · simp only [stepO, if_true, stepThrows, oom_get_of hp, oom_get_of hq, bind, Except.bind, hfree,
        copyThrows (m := { m with heap := m.heap.set p none }) hrq', pure, Except.pure]
      rw [if_pos (by simpa using hpq)]
    · intro c; simp only [isCode, hcode, bind, Except.bind]
    · simp only [Status.ToString, hg, hcode, bind, Except.bind]
    · simp only [step, hg, free, hget, bind, Except.bind]

/-- C87, except for those assignments: whatever operations run out of memory, nothing faults; exactly the operations that need memory
and do not get it throw; an operation that throws has no effect: at the end every live object reports the value it should have, no
buffer is shared, and no buffer is lost. -/
theorem C87_no_effect_partial (ops : List (Op × Bool)) (e : SEnv) (ts : List Bool) (h : srunO (fun _ => none) ops = some (e, ts))
    (hs : Spared (fun _ => none) ops) :
    ∃ m, runO Mem.init ops = .ok (m, ts) ∧
      (∀ i v, e i = some v → isOk m i = .ok (v == .ok) ∧ (∀ c, isCode m i c = .ok (v.isKind c)) ∧ ToString m i = .ok v.text) ∧
      (∀ p : Nat, (∃ b, m.heap[p]? = some (some b)) → ∃ i, m.objs i = some (some p)) ∧
      (∀ i j p, m.objs i = some (some p) → m.objs j = some (some p) → i = j) ∧
      ((∀ i, e i = none) → ∀ (p : Nat) b, m.heap[p]? = some b → b = none) := by
  obtain ⟨m, hr, hi⟩ := runO_inv inv_init h hs
  refine ⟨m, hr, fun i v hv => observe hi hv, fun p ⟨b, hb⟩ => hi.noleak p b hb, hi.own, ?_⟩
  intro hdead p b hb
  cases b with
  | none => rfl
  | some b =>
    obtain ⟨i, hp⟩ := hi.noleak p b hb
    rw [(hi.dead i).mpr (hdead i)] at hp; simp at hp

/-! ## Concrete cases -/

/-- Two errors, a failed construction, a failed copy, a failed assignment to an OK status. -/
def oomOps : List (Op × Bool) :=
  [(.mkErr 0 .notFound (Slice.ofBytes [65]) (Slice.ofBytes [66]), false), (.mkErr 1 .ioError (Slice.ofBytes [67]) .empty, true),
   (.mkErr 1 .ioError (Slice.ofBytes [67]) .empty, false), (.copyCtor 2 0, true), (.mkOk 2, true), (.copyAssign 2 1, true),
   (.copyAssign 2 1, false)]

example : (srunO (fun _ => none) oomOps).map (·.2) = some [false, true, false, true, false, true, false] ∧
    (srunO (fun _ => none) oomOps).map (fun r => [r.1 0, r.1 1, r.1 2]) =
      some [some (.err .notFound [65, 58, 32, 66]), some (.err .ioError [67]), some (.err .ioError [67])] := by decide

example : Spared (fun _ => none) oomOps := by
  simp only [oomOps, Spared]
  simp [sstepO, sstep, needsMemory, SVal.isErr, upd, Slice.WF, Slice.ofBytes, Slice.empty]
  rintro i j v rfl rfl h
  simp only [if_true, Option.some.injEq] at h
  subst h
  rfl

end Props
end Lsmdb
