import Verif.Proof.Status

/-!
# C15, C16: Status
-/

namespace Lsmdb
namespace Props
open Spec Status

/-- C15: any program of constructions, copies, assignments, moves and destructions of Status objects
runs without fault, and afterwards every live object reports exactly the value that value semantics
predicts: `ok()` exactly for OK; exactly the predicate of its kind is true; and it prints as specified
(kind prefix, first message, and `": "` plus the second message if that is not empty). -/
theorem C15_reports (ops : List Op) (e : SEnv) (h : srun (fun _ => none) ops = some e) :
    ∃ m, run Mem.init ops = .ok m ∧
      ∀ i v, e i = some v →
        isOk m i = .ok (v == .ok) ∧
        (∀ c, isCode m i c = .ok (v.isKind c)) ∧
        ToString m i = .ok v.text := by
  obtain ⟨m, hr, hi⟩ := run_inv inv_init ops h
  exact ⟨m, hr, fun i v hv => observe hi hv⟩

/-- C15, spelled out for a freshly built error: after any history, constructing `kind(m1, m2)` into a
new object `i` yields an object that is not ok, of exactly that kind, printing as
`prefix ++ m1 [++ ": " ++ m2]`; all other objects report what they reported before. -/
theorem C15_construct (ops : List Op) (e : SEnv) (h : srun (fun _ => none) ops = some e)
    (i : Nat) (hi : e i = none) (k : Code) (m1 m2 : Slice) (w1 : m1.WF) (w2 : m2.WF)
    (hsz : m1.len + m2.len + 7 < 2 ^ 32) :
    ∃ m m', run Mem.init ops = .ok m ∧ run Mem.init (ops ++ [.mkErr i k m1 m2]) = .ok m' ∧
      isOk m' i = .ok false ∧ (∀ c, isCode m' i c = .ok (decide (k = c))) ∧
      ToString m' i = .ok ((kindText k).toUTF8.toList ++
        (if m2.bytes = [] then m1.bytes else m1.bytes ++ [58, 32] ++ m2.bytes)) ∧
      ∀ j, j ≠ i → e j ≠ none → isOk m' j = isOk m j ∧ ToString m' j = ToString m j ∧
        ∀ c, isCode m' j c = isCode m j c := by
  obtain ⟨m, hr, hinv⟩ := run_inv inv_init ops h
  have hstep : sstep e (.mkErr i k m1 m2) =
      some (upd e i (some (.err k (joinMsg m1.bytes m2.bytes)))) := by
    rw [sstep, if_pos ⟨hi, w1, w2, hsz⟩]
  obtain ⟨m', hr', hinv'⟩ := step_inv hinv _ hstep
  have happ (m0 : Mem) (os : List Op) (o : Op) (m1 : Mem) (h1 : run m0 os = .ok m1) :
      run m0 (os ++ [o]) = step m1 o := by
    induction os generalizing m0 with
    | nil =>
      cases h1
      simp only [List.nil_append, run, bind, Except.bind]
      cases hx : step m1 o <;> rfl
    | cons x xs ih =>
      simp only [List.cons_append, run, bind, Except.bind] at h1 ⊢
      cases hx : step m0 x with
      | error f => rw [hx] at h1; simp at h1
      | ok m2 => rw [hx] at h1; exact ih m2 h1
  have hobs := observe hinv' (i := i) (v := .err k (joinMsg m1.bytes m2.bytes)) (upd_same _ _ _)
  refine ⟨m, m', hr, by rw [happ _ _ _ _ hr, hr'], hobs.1, hobs.2.1, hobs.2.2, ?_⟩
  intro j hj hne
  obtain ⟨v, hv⟩ := Option.ne_none_iff_exists'.mp hne
  have o1 := observe hinv hv
  have o2 := observe hinv' (i := j) (v := v) (by rw [upd_other _ _ hj]; exact hv)
  exact ⟨by rw [o1.1, o2.1], by rw [o1.2.2, o2.2.2], fun c => by rw [o1.2.1, o2.2.1]⟩

/-- C16: any program that respects object lifetimes runs without fault — no use of a deleted buffer,
no double delete, no access outside a buffer — and at every moment (every history is a prefix of
itself) each buffer not yet deleted belongs to exactly one live object, each live object's buffer is
not deleted; so once all objects are destroyed every buffer has been deleted. -/
theorem C16_ownership (ops : List Op) (e : SEnv) (h : srun (fun _ => none) ops = some e) :
    ∃ m, run Mem.init ops = .ok m ∧
      (∀ p : Nat, (∃ b, m.heap[p]? = some (some b)) ↔ ∃ i, m.objs i = some (some p)) ∧
      (∀ i j p, m.objs i = some (some p) → m.objs j = some (some p) → i = j) ∧
      ((∀ i, e i = none) → ∀ (p : Nat) b, m.heap[p]? = some b → b = none) := by
  obtain ⟨m, hr, hi⟩ := run_inv inv_init ops h
  refine ⟨m, hr, ?_, hi.own, ?_⟩
  · intro p
    constructor
    · rintro ⟨b, hb⟩; exact hi.noleak p b hb
    · rintro ⟨i, hp⟩
      cases hv : e i with
      | none => rw [(hi.dead i).mpr hv] at hp; simp at hp
      | some v =>
        obtain ⟨c, msg, _, _, hb⟩ := hi.val i _ v hp hv
        exact ⟨_, hb⟩
  · intro hdead p b hb
    cases b with
    | none => rfl
    | some b =>
      obtain ⟨i, hp⟩ := hi.noleak p b hb
      rw [(hi.dead i).mpr (hdead i)] at hp; simp at hp

/-- C15/C16, why the sizes are bounded: a message of 2^32 - 5 bytes makes the 32-bit size computation
wrap, and the constructor writes outside its (empty) array. -/
theorem C15_huge_message_overflows (k : Code) (m1 : Slice) (h : m1.len = 2 ^ 32 - 5) :
    buildState k m1 Slice.empty = .error .outOfBounds := by
  rw [buildState]
  have e0 : UInt32.ofNat m1.len + (if UInt32.ofNat Slice.empty.len ≠ 0 then
      2 + UInt32.ofNat Slice.empty.len else 0) + 5 = 0 := by
    rw [h]; decide
  simp only [e0]
  rfl

/-- A program with self-assignment, self-move and moves, meeting the hypotheses. -/
example : (srun (fun _ => none)
    [.mkErr 0 .notFound (Slice.ofBytes [65]) (Slice.ofBytes [66]), .mkOk 1, .copyAssign 1 0,
     .copyAssign 0 0, .moveAssign 1 1, .moveCtor 2 0, .destroy 0, .moveAssign 1 2]).isSome = true := by
  decide
example : (srun (fun _ => none)
    [.mkErr 0 .ioError (Slice.ofBytes [65]) Slice.empty, .copyCtor 1 0, .destroy 0]).map (· 1) =
    some (some (.err .ioError [65])) := by
  decide

end Props
end Lsmdb
