import Verif.Proof.MemEnv1

/-!
# GetChildren, and the refinement theorem for histories
-/

namespace Lsmdb
namespace MemEnv
open Spec Status

theorem childTest_eq (filename dir : Bytes) :
    childTest filename dir = .ok (decide (dir ++ [47] <+: filename)) := by
  unfold childTest
  by_cases hl : filename.length ≥ dir.length + 1
  · rw [if_pos hl]
    have hlt : dir.length < filename.length := hl
    have hrd : rd filename dir.length = .ok filename[dir.length] := by
      simp [rd, List.getElem?_eq_getElem hlt]
    rw [hrd]
    simp only [bind, Except.bind]
    have hsw := Slice.startsWith_eq (Slice.ofBytes filename) (Slice.ofBytes dir)
      (by simp [Slice.WF, Slice.ofBytes]) (by simp [Slice.WF, Slice.ofBytes])
    have hb : ∀ b : Bytes, (Slice.ofBytes b).bytes = b := by
      intro b; simp [Slice.bytes, Slice.ofBytes]
    rw [hb, hb] at hsw
    by_cases hc : filename[dir.length] = 47
    · rw [if_pos hc, hsw]
      congr 1
      rw [Bool.eq_iff_iff]
      simp only [decide_eq_true_eq]
      constructor
      · rintro ⟨t, rfl⟩
        cases t with
        | nil => simp at hlt
        | cons x t =>
          simp at hc
          subst hc
          exact ⟨t, by simp⟩
      · rintro ⟨t, rfl⟩
        exact ⟨47 :: t, by simp⟩
    · rw [if_neg hc]
      simp only [pure, Except.pure]
      congr 1
      symm
      rw [decide_eq_false_iff_not]
      rintro ⟨t, rfl⟩
      simp at hc
  · rw [if_neg hl]
    simp only [pure, Except.pure]
    congr 1
    symm
    rw [decide_eq_false_iff_not]
    rintro ⟨t, rfl⟩
    simp at hl

theorem childrenLoop_eq (dir : Bytes) (m : FileMap) (acc : List Bytes) :
    childrenLoop dir m acc = .ok (acc ++
      (m.filter (fun e => decide (dir ++ [47] <+: e.1))).map (fun e => e.1.drop (dir.length + 1))) := by
  induction m generalizing acc with
  | nil => simp [childrenLoop]
  | cons a r ih =>
    obtain ⟨k, v⟩ := a
    simp only [childrenLoop, childTest_eq, bind, Except.bind, List.filter_cons]
    by_cases h : dir ++ [47] <+: k
    · simp [h, ih]
    · simp [h, ih]

theorem strLt_append (p a b : Bytes) : strLt (p ++ a) (p ++ b) = strLt a b := by
  induction p with
  | nil => rfl
  | cons x p ih => simp [strLt, ih]

theorem children_sorted (dir : Bytes) {m : FileMap} (hs : Sorted m) :
    ((m.filter (fun e => decide (dir ++ [47] <+: e.1))).map
      (fun e => e.1.drop (dir.length + 1))).Pairwise lexLt := by
  rw [List.pairwise_map]
  refine List.Pairwise.imp_of_mem ?_ (List.Pairwise.filter _ hs)
  intro a b ha hb hab
  simp only [List.mem_filter, decide_eq_true_eq] at ha hb
  obtain ⟨s, hs⟩ := ha.2
  obtain ⟨t, ht⟩ := hb.2
  rw [← strLt_iff]
  rw [← hs, ← ht, strLt_append] at hab
  rw [← hs, ← ht]
  have e : dir.length + 1 = (dir ++ [(47 : UInt8)]).length := by simp
  rw [e, List.drop_left, List.drop_left]
  exact hab

theorem children_mem (dir : Bytes) {m : FileMap} (s : Bytes) :
    s ∈ (m.filter (fun e => decide (dir ++ [47] <+: e.1))).map (fun e => e.1.drop (dir.length + 1)) ↔
      (mapFind m (dir ++ 47 :: s)).isSome := by
  rw [mapFind_isSome_iff]
  have e : dir.length + 1 = (dir ++ [(47 : UInt8)]).length := by simp
  simp only [List.mem_map, List.mem_filter, decide_eq_true_eq]
  constructor
  · rintro ⟨a, ⟨ha, t, ht⟩, rfl⟩
    refine ⟨a, ha, ?_⟩
    rw [← ht, e, List.drop_left]
    simp
  · rintro ⟨a, ha, h⟩
    refine ⟨a, ⟨ha, s, by rw [h]; simp⟩, ?_⟩
    have : dir ++ 47 :: s = (dir ++ [47]) ++ s := by simp
    rw [h, this, e, List.drop_left]

theorem GetChildren_ok {e : Env} {fs : FS} (h : R e fs) (d : Bytes) :
    ∃ e' r, step e (.getChildren d) = .ok (e', r) ∧ fs.Answer (.getChildren d) r ∧
      R e' (fs.next (.getChildren d)) := by
  simp only [step, GetChildren, childrenLoop_eq, bind, Except.bind, pure, Except.pure, List.nil_append]
  refine ⟨_, _, rfl, ⟨_, rfl, children_sorted d h.sorted, ?_⟩, h⟩
  intro s
  rw [children_mem, h.name]
  simp

theorem FileExists_eq {e : Env} {fs : FS} (h : R e fs) (n : Bytes) :
    FileExists e n = (fs.name n).isSome := by
  simp [FileExists, h.name]

/-- One allowed call is answered rightly. -/
theorem step_ok {e : Env} {fs : FS} (h : R e fs) (o : Op) (ha : fs.Allowed o) :
    ∃ e' r, step e o = .ok (e', r) ∧ fs.Answer o r ∧ R e' (fs.next o) := by
  cases o with
  | newSequential n => exact NewSequentialFile_ok h ha n
  | newRandomAccess n => exact NewRandomAccessFile_ok h ha n
  | newWritable n => exact NewWritableFile_ok h ha n
  | newAppendable n => exact NewAppendableFile_ok h ha.1 n ha.2
  | fileExists n => exact ⟨e, _, rfl, by simp [FS.Answer, FileExists_eq h], h⟩
  | getChildren d => exact GetChildren_ok h d
  | removeFile n => exact RemoveFile_ok h n
  | createDir n => exact ⟨e, _, rfl, rfl, h⟩
  | removeDir n => exact ⟨e, _, rfl, rfl, h⟩
  | getFileSize n => exact GetFileSize_ok h n
  | renameFile a b => exact RenameFile_ok h a b ha
  | seqRead x n => obtain ⟨i, pos, hx⟩ := ha; exact seqRead_ok h hx
  | seqSkip x n => obtain ⟨i, pos, hx⟩ := ha; exact seqSkip_ok h hx
  | randRead x o n => obtain ⟨i, hx⟩ := ha; exact randRead_ok h hx
  | append x d => obtain ⟨hw, i, hx, hl⟩ := ha; exact append_ok h hw hx hl
  | close x =>
    obtain ⟨i, hx⟩ := ha
    exact ⟨e, .status .ok, by simp [step, wrNop_ok h hx, bind, Except.bind, pure, Except.pure], rfl, h⟩
  | flush x =>
    obtain ⟨i, hx⟩ := ha
    exact ⟨e, .status .ok, by simp [step, wrNop_ok h hx, bind, Except.bind, pure, Except.pure], rfl, h⟩
  | sync x =>
    obtain ⟨i, hx⟩ := ha
    exact ⟨e, .status .ok, by simp [step, wrNop_ok h hx, bind, Except.bind, pure, Except.pure], rfl, h⟩
  | delete x =>
    obtain ⟨o, hx⟩ := Option.isSome_iff_exists.1 ha
    exact delete_ok h hx
  | destroyEnv => exact destroyEnv_ok h

/-- A history of allowed calls is answered rightly. -/
theorem run_ok {e : Env} {fs : FS} (h : R e fs) (os : List Op) (ha : fs.AllowedAll os) :
    ∃ e' rs, run e os = .ok (e', rs) ∧ fs.Answers os rs ∧ R e' (fs.after os) := by
  induction os generalizing e fs with
  | nil => exact ⟨e, [], rfl, trivial, h⟩
  | cons o os ih =>
    obtain ⟨e1, r, h1, h2, h3⟩ := step_ok h o ha.1
    obtain ⟨e2, rs, h4, h5, h6⟩ := ih h3 ha.2
    refine ⟨e2, r :: rs, ?_, ⟨h2, h5⟩, h6⟩
    simp [run, h1, h4, bind, Except.bind, pure, Except.pure]

theorem inUse_iff {e : Env} {fs : FS} (h : R e fs) (i : Nat) : fs.InUse i ↔ 0 < cnt e i := by
  constructor
  · rintro (⟨n, hn⟩ | ⟨x, o, hx, rfl⟩)
    · exact h.cnt_name hn
    · exact h.cnt_obj hx
  · intro hc
    unfold cnt at hc
    rcases Nat.eq_zero_or_pos (cntMap e.map i) with h0 | h0
    · have : 0 < cntObj e.objs i := by omega
      unfold cntObj at this
      rw [List.countP_pos_iff] at this
      obtain ⟨o, ho, hm⟩ := this
      obtain ⟨x, hx⟩ := List.getElem?_of_mem ho
      cases o with
      | none => simp at hm
      | some o =>
        exact .inr ⟨x, o, by rw [h.obj, hx]; rfl, by simpa using hm⟩
    · unfold cntMap at h0
      have h0 := List.countP_pos_iff.1 h0
      obtain ⟨⟨k, v⟩, hk, hv⟩ := h0
      simp only [decide_eq_true_eq] at hv
      subst hv
      have := mapFind_of_mem h.sorted hk
      rw [h.name] at this
      cases hn : fs.name k with
      | none => rw [hn] at this; cases this
      | some j =>
        rw [hn] at this
        simp only [Option.map_some, Option.some.injEq] at this
        subst this
        exact .inl ⟨k, hn⟩

/-- Storage is released exactly when nobody refers to the file any more. -/
theorem freed_count {e : Env} {fs : FS} (h : R e fs) (i : Nat) (hi : i < fs.made) :
    (fs.InUse i → e.freed.count i = 0) ∧ (¬ fs.InUse i → e.freed.count i = 1) := by
  rw [inUse_iff h]
  rw [← h.made] at hi
  constructor
  · intro hc; obtain ⟨_, _, _, _, h4⟩ := h.files.pos i hi hc; exact h4
  · intro hc; exact (h.files.zero i hi (by omega)).2

theorem allowedAll_append (fs : FS) (h1 h2 : List Op) :
    fs.AllowedAll (h1 ++ h2) ↔ fs.AllowedAll h1 ∧ (fs.after h1).AllowedAll h2 := by
  induction h1 generalizing fs with
  | nil => simp [FS.AllowedAll, FS.after]
  | cons a l ih => simp [FS.AllowedAll, FS.after, ih, and_assoc]

theorem after_append (fs : FS) (h1 h2 : List Op) : fs.after (h1 ++ h2) = (fs.after h1).after h2 := by
  induction h1 generalizing fs with
  | nil => rfl
  | cons a l ih => exact ih (fs.next a)

theorem run_append {e e1 e2 : Env} {h1 h2 : List Op} {r1 r2 : List Res} (a : run e h1 = .ok (e1, r1))
    (b : run e1 h2 = .ok (e2, r2)) : run e (h1 ++ h2) = .ok (e2, r1 ++ r2) := by
  induction h1 generalizing e r1 with
  | nil => simp only [run] at a; cases a; exact b
  | cons o l ih =>
    simp only [run, bind, Except.bind] at a
    cases hs : step e o with
    | error f => rw [hs] at a; cases a
    | ok v =>
      rw [hs] at a
      simp only [] at a
      cases hr : run v.1 l with
      | error f => rw [hr] at a; cases a
      | ok w =>
        rw [hr] at a
        simp only [pure, Except.pure] at a
        cases a
        have := ih (r1 := w.2) (e := v.1) hr
        simp [run, hs, this, bind, Except.bind, pure, Except.pure]

theorem next_made_le (fs : FS) (o : Op) : fs.made ≤ (fs.next o).made := by
  cases o <;> simp only [FS.next, Nat.le_refl] <;> (repeat' split) <;>
    simp [FS.withObj]

end MemEnv
end Lsmdb
