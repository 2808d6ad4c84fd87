import Verif.Proof.MemEnv2
import Verif.Spec.MemEnvOom

/-!
# Lost files do not matter to the program

`Sim e e0`: the two states differ only in files that are released in `e0` and still allocated in `e`.
What the program does in `e0` without a fault it does in `e`.
-/

namespace Lsmdb
namespace MemEnv
open Spec Status

/-- The cell of one file is the same, or allocated in `e` and released in `e0`. -/
def CellSim (e e0 : Env) (i : Nat) : Prop :=
  (e.files[i]? = e0.files[i]? ∧ e.freed.count i = e0.freed.count i) ∨
  ((∃ f, e.files[i]? = some (some f)) ∧ e0.files[i]? = some none ∧ e.freed.count i = 0 ∧
    e0.freed.count i = 1)

/-- See above. -/
structure Sim (e e0 : Env) : Prop where
  map : e.map = e0.map
  objs : e.objs = e0.objs
  len : e.files.length = e0.files.length
  cell : ∀ i, CellSim e e0 i

theorem Sim.refl (e : Env) : Sim e e := ⟨rfl, rfl, rfl, fun _ => .inl ⟨rfl, rfl⟩⟩

theorem Sim.trans {a b c : Env} (h : Sim a b) (g : Sim b c) : Sim a c := by
  refine ⟨h.map.trans g.map, h.objs.trans g.objs, h.len.trans g.len, fun i => ?_⟩
  rcases h.cell i with h1 | ⟨⟨f, h1⟩, h2, h3, h4⟩ <;> rcases g.cell i with g1 | ⟨⟨f', g1⟩, g2, g3, g4⟩
  · exact .inl ⟨h1.1.trans g1.1, h1.2.trans g1.2⟩
  · exact .inr ⟨⟨f', by rw [h1.1, g1]⟩, g2, by rw [h1.2, g3], g4⟩
  · exact .inr ⟨⟨f, h1⟩, by rw [← g1.1]; exact h2, h3, by rw [← g1.2]; exact h4⟩
  · rw [h2] at g1; cases g1

/-- Same map change on both sides. -/
theorem Sim.withMap {e e0 : Env} (h : Sim e e0) (m : FileMap) :
    Sim { e with map := m } { e0 with map := m } := ⟨rfl, h.objs, h.len, h.cell⟩

theorem Sim.withObjs {e e0 : Env} (h : Sim e e0) (o : List (Option Obj)) :
    Sim { e with objs := o } { e0 with objs := o } := ⟨h.map, rfl, h.len, h.cell⟩

theorem getFile_live {e : Env} {p : Option Nat} {i : Nat} {f : FileState}
    (h : getFile e p = .ok (i, f)) : p = some i ∧ e.files[i]? = some (some f) := by
  unfold getFile at h
  cases p with
  | none => cases h
  | some j =>
    simp only [] at h
    cases hj : e.files[j]? with
    | none => rw [hj] at h; cases h
    | some v =>
      rw [hj] at h
      cases v with
      | none => cases h
      | some g => simp only [Except.ok.injEq, Prod.mk.injEq] at h; obtain ⟨rfl, rfl⟩ := h; exact ⟨rfl, hj⟩

/-- A file allocated in `e0` is the same in `e`. -/
theorem Sim.live {e e0 : Env} (h : Sim e e0) {i : Nat} {f : FileState}
    (hf : e0.files[i]? = some (some f)) :
    e.files[i]? = some (some f) ∧ e.freed.count i = e0.freed.count i := by
  rcases h.cell i with h1 | ⟨_, h2, _⟩
  · exact ⟨by rw [h1.1, hf], h1.2⟩
  · rw [hf] at h2; cases h2

theorem getFile_sim {e e0 : Env} (h : Sim e e0) {p : Option Nat} {i : Nat} {f : FileState}
    (hg : getFile e0 p = .ok (i, f)) : getFile e p = .ok (i, f) := by
  obtain ⟨rfl, hf⟩ := getFile_live hg
  simp [getFile, (h.live hf).1]

theorem getObj_sim {e e0 : Env} (h : Sim e e0) (x : Nat) : getObj e x = getObj e0 x := by
  unfold getObj; rw [h.objs]

theorem cell_set {files files0 : List (Option FileState)} {i j : Nat} {v : Option FileState} {f : FileState}
    (hf : files[i]? = some (some f)) (hf0 : files0[i]? = some (some f)) (hj : j = i) :
    (files.set i v)[j]? = (files0.set i v)[j]? := by
  subst hj
  rw [List.getElem?_set_self (List.getElem?_eq_some_iff.1 hf).1,
    List.getElem?_set_self (List.getElem?_eq_some_iff.1 hf0).1]

theorem setFile_sim {e e0 : Env} (h : Sim e e0) {i : Nat} {f : FileState}
    (hf : e0.files[i]? = some (some f)) (g : FileState) : Sim (setFile e i g) (setFile e0 i g) := by
  refine ⟨h.map, h.objs, by simp [setFile, h.len], fun j => ?_⟩
  by_cases hj : j = i
  · left
    refine ⟨cell_set (h.live hf).1 hf hj, ?_⟩
    subst hj; exact (h.live hf).2
  · rcases h.cell j with h1 | ⟨⟨f', h1⟩, h2, h3⟩
    · left
      exact ⟨by simp only [setFile]; rw [List.getElem?_set_ne (Ne.symm hj), List.getElem?_set_ne (Ne.symm hj)]; exact h1.1, h1.2⟩
    · right
      exact ⟨⟨f', by simp only [setFile]; rw [List.getElem?_set_ne (Ne.symm hj)]; exact h1⟩,
        by simp only [setFile]; rw [List.getElem?_set_ne (Ne.symm hj)]; exact h2, h3⟩

theorem bind_ok {α β : Type} {x : M α} {f : α → M β} {b : β} (h : (x >>= f) = .ok b) :
    ∃ a, x = .ok a ∧ f a = .ok b := by
  cases x with
  | error e => cases h
  | ok a => exact ⟨a, rfl, h⟩

theorem Ref_sim {e e0 e0' : Env} (h : Sim e e0) {p : Option Nat} (hr : Ref e0 p = .ok e0') :
    ∃ e', Ref e p = .ok e' ∧ Sim e' e0' := by
  unfold Ref at hr ⊢
  obtain ⟨⟨i, f⟩, h1, h2⟩ := bind_ok hr
  obtain ⟨hp, hf⟩ := getFile_live h1
  rw [getFile_sim h h1]
  simp only [] at h2
  simp only [bind, Except.bind]
  by_cases hc : f.refs + 1 > 2147483647
  · rw [if_pos hc] at h2; cases h2
  · rw [if_neg hc] at h2 ⊢
    cases h2
    exact ⟨_, rfl, setFile_sim h hf _⟩

theorem Unref_sim {e e0 e0' : Env} (h : Sim e e0) {p : Option Nat} (hr : Unref e0 p = .ok e0') :
    ∃ e', Unref e p = .ok e' ∧ Sim e' e0' := by
  unfold Unref at hr ⊢
  obtain ⟨⟨i, f⟩, h1, h2⟩ := bind_ok hr
  obtain ⟨hp, hf⟩ := getFile_live h1
  rw [getFile_sim h h1]
  obtain ⟨_, h3, h4⟩ := bind_ok h2
  simp only [] at h3 h4
  simp only [bind, Except.bind]
  rw [h3]
  simp only []
  by_cases hc : f.refs - 1 ≤ 0
  · rw [if_pos hc] at h4 ⊢
    cases h4
    refine ⟨_, rfl, ⟨h.map, h.objs, by simp [h.len], fun j => ?_⟩⟩
    by_cases hj : j = i
    · left
      refine ⟨cell_set (h.live hf).1 hf hj, ?_⟩
      subst hj
      simp only [List.count_append, (h.live hf).2]
    · have hji : i ≠ j := Ne.symm hj
      rcases h.cell j with h1 | ⟨⟨f', h1⟩, h2, h3⟩
      · left
        refine ⟨by simp only []; rw [List.getElem?_set_ne hji, List.getElem?_set_ne hji]; exact h1.1, ?_⟩
        simp only [List.count_append, h1.2]
      · right
        refine ⟨⟨f', by simp only []; rw [List.getElem?_set_ne hji]; exact h1⟩,
          by simp only []; rw [List.getElem?_set_ne hji]; exact h2, ?_⟩
        simp [List.count_append, h3, hji]
  · rw [if_neg hc] at h4 ⊢
    cases h4
    exact ⟨_, rfl, setFile_sim h hf _⟩

theorem newFile_sim {e e0 : Env} (h : Sim e e0) :
    (newFile e).1 = (newFile e0).1 ∧ Sim (newFile e).2 (newFile e0).2 := by
  refine ⟨by simp [newFile, h.len], ⟨h.map, h.objs, by simp [newFile, h.len], fun j => ?_⟩⟩
  rcases Nat.lt_or_ge j e.files.length with hj | hj
  · have hj0 : j < e0.files.length := by rw [← h.len]; exact hj
    rcases h.cell j with h1 | ⟨⟨f', h1⟩, h2, h3⟩
    · left
      simp only [newFile]
      rw [List.getElem?_append_left hj, List.getElem?_append_left hj0]; exact h1
    · right
      simp only [newFile]
      rw [List.getElem?_append_left hj, List.getElem?_append_left hj0]; exact ⟨⟨f', h1⟩, h2, h3⟩
  · left
    have hc : e.freed.count j = e0.freed.count j := by
      rcases h.cell j with h1 | ⟨⟨f', h1⟩, _⟩
      · exact h1.2
      · have := (List.getElem?_eq_some_iff.1 h1).1; omega
    refine ⟨?_, hc⟩
    simp only [newFile]
    rw [List.getElem?_append_right hj, List.getElem?_append_right (by rw [← h.len]; exact hj), h.len]

theorem newObj_sim {e e0 e0' : Env} (h : Sim e e0) {p : Option Nat} {mk : Nat → Obj} {x : Nat}
    (hr : newObj e0 p mk = .ok (x, e0')) : ∃ e', newObj e p mk = .ok (x, e') ∧ Sim e' e0' := by
  unfold newObj at hr ⊢
  obtain ⟨e1, h1, h2⟩ := bind_ok hr
  obtain ⟨e1', g1, g2⟩ := Ref_sim h h1
  rw [g1]
  simp only [bind, Except.bind]
  cases p with
  | none => cases h2
  | some i =>
    simp only [pure, Except.pure, Except.ok.injEq, Prod.mk.injEq] at h2
    obtain ⟨rfl, rfl⟩ := h2
    exact ⟨{ e1' with objs := e1.objs ++ [some (mk i)] }, by simp only [g2.objs]; rfl,
      ⟨g2.map, rfl, g2.len, g2.cell⟩⟩

theorem newObjO_sim {mem : Mem} {e e0 e0' : Env} (h : Sim e e0) {p : Option Nat} {mk : Nat → Obj} {r : Option Res}
    (hr : newObjO mem e0 p mk = .ok (e0', r)) : ∃ e', newObjO mem e p mk = .ok (e', r) ∧ Sim e' e0' := by
  unfold newObjO at hr ⊢
  by_cases hc : mem.object
  · rw [if_pos hc] at hr ⊢
    obtain ⟨⟨x, e1⟩, h1, h2⟩ := bind_ok hr
    obtain ⟨e1', g1, g2⟩ := newObj_sim h h1
    rw [g1]
    simp only [pure, Except.pure] at h2
    cases h2
    exact ⟨_, rfl, g2⟩
  · rw [if_neg hc] at hr ⊢
    cases hr
    exact ⟨e, rfl, h⟩

theorem RemoveFileInternal_sim {e e0 e0' : Env} (h : Sim e e0) {n : Bytes}
    (hr : RemoveFileInternal e0 n = .ok e0') : ∃ e', RemoveFileInternal e n = .ok e' ∧ Sim e' e0' := by
  unfold RemoveFileInternal at hr ⊢
  rw [h.map]
  cases hf : mapFind e0.map n with
  | none => rw [hf] at hr; cases hr; exact ⟨e, rfl, h⟩
  | some p =>
    rw [hf] at hr
    simp only [mapIndex_some hf] at hr ⊢
    obtain ⟨e1, h1, h2⟩ := bind_ok hr
    obtain ⟨e1', g1, g2⟩ := Unref_sim (h.withMap e0.map) h1
    rw [g1]
    cases h2
    exact ⟨_, rfl, ⟨by simp only [g2.map], g2.objs, g2.len, g2.cell⟩⟩

theorem unrefAll_sim : ∀ (m : FileMap) {e e0 e0' : Env}, Sim e e0 → unrefAll m e0 = .ok e0' →
    ∃ e', unrefAll m e = .ok e' ∧ Sim e' e0'
  | [], e, e0, e0', h, hr => by cases hr; exact ⟨e, rfl, h⟩
  | (_, p) :: r, e, e0, e0', h, hr => by
    unfold unrefAll at hr ⊢
    obtain ⟨e1, h1, h2⟩ := bind_ok hr
    obtain ⟨e1', g1, g2⟩ := Unref_sim h h1
    obtain ⟨e2, g3, g4⟩ := unrefAll_sim r g2 h2
    exact ⟨e2, by rw [g1]; exact g3, g4⟩

theorem returnSt_sim {mem : Mem} {e e0 e0' : Env} (h : Sim e e0) {s : St} {r : Res} {q : Option Res}
    (hr : returnSt mem e0 s r = (e0', q)) : ∃ e', returnSt mem e s r = (e', q) ∧ Sim e' e0' := by
  unfold returnSt at hr ⊢
  cases s with
  | ok => cases hr; exact ⟨e, rfl, h⟩
  | err c a b =>
    simp only [] at hr ⊢
    split at hr <;> rename_i hm <;> cases hr
    · exact ⟨e, by rw [if_pos hm], h⟩
    · exact ⟨e, by rw [if_neg hm], h⟩

theorem seqRead_sim {e e0 e0' : Env} (h : Sim e e0) {x n : Nat} {s : St} {d : Option Bytes}
    (hr : seqRead e0 x n = .ok (s, d, e0')) : ∃ e', seqRead e x n = .ok (s, d, e') ∧ Sim e' e0' := by
  unfold seqRead at hr ⊢
  rw [getObj_sim h]
  obtain ⟨o, h1, h2⟩ := bind_ok hr
  rw [h1]
  simp only [bind, Except.bind]
  cases o with
  | rand f => cases h2
  | wr f => cases h2
  | seq file pos =>
    simp only [] at h2 ⊢
    obtain ⟨⟨i, f⟩, h3, h4⟩ := bind_ok h2
    rw [getFile_sim h h3]
    obtain ⟨⟨s', d'⟩, h5, h6⟩ := bind_ok h4
    simp only [] at h5 ⊢
    rw [h5]
    simp only [] at h6 ⊢
    cases s' with
    | err c a b => cases h6; exact ⟨e, rfl, h⟩
    | ok =>
      cases d' with
      | none => cases h6; exact ⟨e, rfl, h⟩
      | some d' => cases h6; exact ⟨_, by rw [h.objs]; rfl, h.withObjs _⟩

theorem seqSkip_sim {e e0 e0' : Env} (h : Sim e e0) {x n : Nat} {s : St}
    (hr : seqSkip e0 x n = .ok (s, e0')) : ∃ e', seqSkip e x n = .ok (s, e') ∧ Sim e' e0' := by
  unfold seqSkip at hr ⊢
  rw [getObj_sim h]
  obtain ⟨o, h1, h2⟩ := bind_ok hr
  rw [h1]
  simp only [bind, Except.bind]
  cases o with
  | rand f => cases h2
  | wr f => cases h2
  | seq file pos =>
    simp only [] at h2 ⊢
    obtain ⟨⟨i, f⟩, h3, h4⟩ := bind_ok h2
    rw [getFile_sim h h3]
    simp only [] at h4 ⊢
    cases hk : skipCheck pos f.Size with
    | some s' => rw [hk] at h4; cases h4; exact ⟨e, rfl, h⟩
    | none => rw [hk] at h4; cases h4; exact ⟨_, by rw [h.objs]; rfl, h.withObjs _⟩

theorem randRead_sim {e e0 : Env} (h : Sim e e0) {x o n : Nat} {s : St} {d : Option Bytes}
    (hr : randRead e0 x o n = .ok (s, d)) : randRead e x o n = .ok (s, d) := by
  unfold randRead at hr ⊢
  rw [getObj_sim h]
  obtain ⟨ob, h1, h2⟩ := bind_ok hr
  rw [h1]
  simp only [bind, Except.bind]
  cases ob with
  | seq f p => cases h2
  | wr f => cases h2
  | rand file =>
    simp only [] at h2 ⊢
    obtain ⟨⟨i, f⟩, h3, h4⟩ := bind_ok h2
    rw [getFile_sim h h3]
    exact h4

/-- What the program does in `e0` without a fault it does in `e`. -/
theorem stepO_sim {mem : Mem} {e e0 e0' : Env} (h : Sim e e0) {o : Op} {r : Option Res}
    (hr : stepO mem e0 o = .ok (e0', r)) : ∃ e', stepO mem e o = .ok (e', r) ∧ Sim e' e0' := by
  have hm := h.map
  cases o with
  | newSequential n =>
    simp only [stepO, NewSequentialFileO, hm] at hr ⊢
    cases hf : mapFind e0.map n with
    | none =>
      rw [hf] at hr; simp only [Except.ok.injEq] at hr ⊢
      exact returnSt_sim h hr
    | some p =>
      rw [hf] at hr
      simp only [mapIndex_some hf] at hr ⊢
      exact newObjO_sim (h.withMap _) hr
  | newRandomAccess n =>
    simp only [stepO, NewRandomAccessFileO, hm] at hr ⊢
    cases hf : mapFind e0.map n with
    | none =>
      rw [hf] at hr; simp only [Except.ok.injEq] at hr ⊢
      exact returnSt_sim h hr
    | some p =>
      rw [hf] at hr
      simp only [mapIndex_some hf] at hr ⊢
      exact newObjO_sim (h.withMap _) hr
  | newWritable n =>
    simp only [stepO, NewWritableFileO] at hr ⊢
    obtain ⟨⟨e1, p⟩, h1, h2⟩ := bind_ok hr
    have key : ∃ e1', targetO mem e n = .ok (e1', p) ∧ Sim e1' e1 := by
      unfold targetO at h1 ⊢
      rw [hm]
      cases hf : mapFind e0.map n with
      | none =>
        rw [hf] at h1
        simp only [createO] at h1 ⊢
        by_cases hs : mem.state
        · rw [if_pos hs] at h1 ⊢
          obtain ⟨e2, h3, h4⟩ := bind_ok h1
          obtain ⟨hn1, hn2⟩ := newFile_sim h
          obtain ⟨e2', g1, g2⟩ := Ref_sim hn2 h3
          rw [hn1, g1]
          simp only [bind, Except.bind]
          by_cases hd : mem.node
          · rw [if_pos hd] at h4 ⊢
            cases h4
            exact ⟨_, rfl, ⟨by simp only [g2.map], g2.objs, g2.len, g2.cell⟩⟩
          · rw [if_neg hd] at h4 ⊢
            cases h4
            exact ⟨_, rfl, g2⟩
        · rw [if_neg hs] at h1 ⊢
          cases h1
          exact ⟨e, rfl, h⟩
      | some q =>
        rw [hf] at h1
        simp only [] at h1 ⊢
        obtain ⟨⟨i, f⟩, h3, h4⟩ := bind_ok h1
        rw [getFile_sim h h3]
        cases h4
        exact ⟨_, rfl, setFile_sim h (getFile_live h3).2 _⟩
    obtain ⟨e1', g1, g2⟩ := key
    rw [g1]
    simp only [bind, Except.bind]
    cases p with
    | none => cases h2; exact ⟨e1', rfl, g2⟩
    | some p => exact newObjO_sim g2 h2
  | newAppendable n =>
    simp only [stepO, NewAppendableFileO, hm] at hr ⊢
    by_cases hc : ((mapFind e0.map n).isSome || mem.node) = true
    · rw [if_pos hc] at hr ⊢
      cases hp : (mapIndex e0.map n).1 with
      | none =>
        rw [hp] at hr
        simp only [] at hr ⊢
        by_cases hs : mem.state
        · rw [if_pos hs] at hr ⊢
          obtain ⟨e2, h3, h4⟩ := bind_ok hr
          obtain ⟨hn1, hn2⟩ := newFile_sim (h.withMap (mapIndex e0.map n).2)
          obtain ⟨e2', g1, g2⟩ := Ref_sim hn2 h3
          rw [hn1, g1]
          exact newObjO_sim g2 h4
        · rw [if_neg hs] at hr ⊢
          cases hr
          exact ⟨_, rfl, h.withMap _⟩
      | some i =>
        rw [hp] at hr
        exact newObjO_sim (h.withMap _) hr
    · rw [if_neg hc] at hr ⊢
      cases hr
      exact ⟨e, rfl, h⟩
  | fileExists n =>
    simp only [stepO, step, FileExists, bind, Except.bind, pure, Except.pure, hm] at hr ⊢
    cases hr
    exact ⟨_, rfl, h⟩
  | getChildren d =>
    simp only [stepO, GetChildrenO, GetChildren, hm] at hr ⊢
    obtain ⟨⟨s, l⟩, h1, h2⟩ := bind_ok hr
    rw [h1]
    simp only [bind, Except.bind] at h2 ⊢
    split at h2 <;> rename_i hc <;> cases h2
    · exact ⟨e, by rw [if_pos hc]; rfl, h⟩
    · exact ⟨e, by rw [if_neg hc]; rfl, h⟩
  | removeFile n =>
    simp only [stepO, RemoveFileO, RemoveFile, hm] at hr ⊢
    cases hf : mapFind e0.map n with
    | none =>
      rw [hf] at hr
      simp only [bind, Except.bind, pure, Except.pure, Except.ok.injEq] at hr ⊢
      exact returnSt_sim h hr
    | some p =>
      rw [hf] at hr
      simp only [] at hr ⊢
      obtain ⟨⟨s, e1⟩, h1, h2⟩ := bind_ok hr
      obtain ⟨e2, h3, h4⟩ := bind_ok h1
      obtain ⟨e2', g1, g2⟩ := RemoveFileInternal_sim h h3
      rw [g1]
      cases h4
      cases h2
      exact ⟨e2', rfl, g2⟩
  | createDir n => cases hr; exact ⟨e, rfl, h⟩
  | removeDir n => cases hr; exact ⟨e, rfl, h⟩
  | getFileSize n =>
    simp only [stepO, GetFileSizeO, GetFileSize, hm] at hr ⊢
    cases hf : mapFind e0.map n with
    | none =>
      rw [hf] at hr
      simp only [bind, Except.bind, pure, Except.pure, Except.ok.injEq] at hr ⊢
      exact returnSt_sim h hr
    | some p =>
      rw [hf] at hr
      simp only [mapIndex_some hf] at hr ⊢
      obtain ⟨⟨s, v, e1⟩, h1, h2⟩ := bind_ok hr
      obtain ⟨⟨i, f⟩, h3, h4⟩ := bind_ok h1
      rw [getFile_sim (h.withMap e0.map) h3]
      cases h4
      cases h2
      exact ⟨_, rfl, h.withMap e0.map⟩
  | renameFile a b =>
    simp only [stepO, RenameFileO, hm] at hr ⊢
    cases hf : mapFind e0.map a with
    | none =>
      rw [hf] at hr; simp only [Except.ok.injEq] at hr ⊢
      exact returnSt_sim h hr
    | some p =>
      rw [hf] at hr
      simp only [] at hr ⊢
      obtain ⟨e1, h1, h2⟩ := bind_ok hr
      obtain ⟨e1', g1, g2⟩ := RemoveFileInternal_sim h h1
      rw [g1]
      simp only [bind, Except.bind, g2.map] at h2 ⊢
      split at h2 <;> rename_i hc <;> cases h2
      · exact ⟨_, by rw [if_pos hc]; rfl, g2.withMap _⟩
      · exact ⟨_, by rw [if_neg hc]; rfl, g2.withMap _⟩
  | seqRead x n =>
    simp only [stepO, seqReadO] at hr ⊢
    obtain ⟨⟨s, d, e1⟩, h1, h2⟩ := bind_ok hr
    obtain ⟨e1', g1, g2⟩ := seqRead_sim h h1
    rw [g1]
    simp only [bind, Except.bind, pure, Except.pure, Except.ok.injEq] at h2 ⊢
    exact returnSt_sim g2 h2
  | seqSkip x n =>
    simp only [stepO, seqSkipO] at hr ⊢
    obtain ⟨⟨s, e1⟩, h1, h2⟩ := bind_ok hr
    obtain ⟨e1', g1, g2⟩ := seqSkip_sim h h1
    rw [g1]
    simp only [bind, Except.bind, pure, Except.pure, Except.ok.injEq] at h2 ⊢
    exact returnSt_sim g2 h2
  | randRead x o n =>
    simp only [stepO, randReadO] at hr ⊢
    obtain ⟨⟨s, d⟩, h1, h2⟩ := bind_ok hr
    rw [randRead_sim h h1]
    simp only [bind, Except.bind, pure, Except.pure, Except.ok.injEq] at h2 ⊢
    exact returnSt_sim h h2
  | append x d =>
    simp only [stepO, wrAppendO] at hr ⊢
    rw [getObj_sim h]
    obtain ⟨ob, h1, h2⟩ := bind_ok hr
    rw [h1]
    simp only [bind, Except.bind]
    cases ob with
    | seq f p => cases h2
    | rand f => cases h2
    | wr file =>
      simp only [] at h2 ⊢
      obtain ⟨⟨i, f⟩, h3, h4⟩ := bind_ok h2
      rw [getFile_sim h h3]
      simp only [] at h4 ⊢
      obtain ⟨⟨f', b⟩, h5, h6⟩ := bind_ok h4
      rw [h5]
      cases h6
      exact ⟨_, rfl, setFile_sim h (getFile_live h3).2 _⟩
  | close x =>
    simp only [stepO, step, wrNop, getObj_sim h] at hr ⊢
    obtain ⟨⟨e1, r1⟩, h1, h2⟩ := bind_ok hr
    obtain ⟨s, h3, h4⟩ := bind_ok h1
    cases h4; cases h2
    exact ⟨e, by rw [h3]; rfl, h⟩
  | flush x =>
    simp only [stepO, step, wrNop, getObj_sim h] at hr ⊢
    obtain ⟨⟨e1, r1⟩, h1, h2⟩ := bind_ok hr
    obtain ⟨s, h3, h4⟩ := bind_ok h1
    cases h4; cases h2
    exact ⟨e, by rw [h3]; rfl, h⟩
  | sync x =>
    simp only [stepO, step, wrNop, getObj_sim h] at hr ⊢
    obtain ⟨⟨e1, r1⟩, h1, h2⟩ := bind_ok hr
    obtain ⟨s, h3, h4⟩ := bind_ok h1
    cases h4; cases h2
    exact ⟨e, by rw [h3]; rfl, h⟩
  | delete x =>
    simp only [stepO, step, deleteObj, getObj_sim h] at hr ⊢
    obtain ⟨⟨e1, r1⟩, h1, h2⟩ := bind_ok hr
    obtain ⟨e2, h3, h4⟩ := bind_ok h1
    obtain ⟨ob, h5, h6⟩ := bind_ok h3
    obtain ⟨e3, h7, h8⟩ := bind_ok h6
    obtain ⟨e3', g1, g2⟩ := Unref_sim h h7
    cases h8; cases h4; cases h2
    refine ⟨_, by rw [h5]; simp only [bind, Except.bind, g1]; rfl, ?_⟩
    exact ⟨g2.map, by simp only [g2.objs], g2.len, g2.cell⟩
  | destroyEnv =>
    simp only [stepO, step, destroyEnv, hm] at hr ⊢
    obtain ⟨⟨e1, r1⟩, h1, h2⟩ := bind_ok hr
    obtain ⟨e2, h3, h4⟩ := bind_ok h1
    obtain ⟨e3, h5, h6⟩ := bind_ok h3
    obtain ⟨e3', g1, g2⟩ := unrefAll_sim _ h h5
    cases h6; cases h4; cases h2
    exact ⟨_, by simp only [bind, Except.bind, g1]; rfl, g2.withMap _⟩

end MemEnv
end Lsmdb
