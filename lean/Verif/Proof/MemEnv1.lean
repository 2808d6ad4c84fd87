import Verif.Proof.MemMap

/-!
# The environment refines the file system specification
-/

namespace Lsmdb
namespace MemEnv
open Spec Status

/-- References to a file: names and open file objects. -/
def cnt (e : Env) (i : Nat) : Nat := cntMap e.map i + cntObj e.objs i

/-- The program state represents the file system. -/
structure R (e : Env) (fs : FS) : Prop where
  sorted : Sorted e.map
  name : ∀ n, mapFind e.map n = (fs.name n).map some
  one : ∀ i, cntMap e.map i ≤ 1
  made : e.files.length = fs.made
  nobjs : e.objs.length = fs.opened
  obj : ∀ h, fs.obj h = (e.objs[h]?).join
  nameLt : ∀ n i, fs.name n = some i → i < fs.made
  objLt : ∀ h o, fs.obj h = some o → o.file < fs.made
  files : FilesInv e.files e.freed fs.data (cnt e)
  small : ∀ i, (fs.data i).length < 2 ^ 64

theorem r_init : R Env.init FS.init := by
  refine ⟨List.Pairwise.nil, fun _ => rfl, fun _ => by simp [cntMap, Env.init], rfl, rfl,
    fun _ => by simp [FS.init, Env.init], fun _ _ h => (nomatch h), fun _ _ h => (nomatch h),
    ⟨fun i hi => by simp [Env.init] at hi, fun i hi => by simp [Env.init] at hi,
      fun _ _ => by simp [Env.init]⟩, fun _ => by simp [FS.init]⟩

theorem R.cnt_name {e fs} (h : R e fs) {n : Bytes} {i : Nat} (hn : fs.name n = some i) :
    0 < cnt e i := by
  have : mapFind e.map n = some (some i) := by rw [h.name, hn]; rfl
  have := cntMap_pos this
  unfold cnt; omega

theorem R.objs_some {e fs} (h : R e fs) {x : Nat} {o : Obj} (hx : fs.obj x = some o) :
    e.objs[x]? = some (some o) := by
  rw [h.obj] at hx
  cases hh : e.objs[x]? with
  | none => rw [hh] at hx; cases hx
  | some v => rw [hh] at hx; simp at hx; rw [hx]

theorem R.cnt_obj {e fs} (h : R e fs) {x : Nat} {o : Obj} (hx : fs.obj x = some o) :
    0 < cnt e o.file := by
  have := cntObj_pos (h.objs_some hx)
  unfold cnt; omega

theorem R.cnt_bound {e fs} (h : R e fs) (i : Nat) : cnt e i ≤ fs.opened + 1 := by
  have h1 := h.one i
  have h2 := cntObj_le e.objs i
  rw [h.nobjs] at h2
  unfold cnt; omega

theorem join_append {os : List (Option Obj)} (o : Obj) (x : Nat) :
    ((os ++ [some o])[x]?).join = if x = os.length then some o else (os[x]?).join := by
  by_cases h : x = os.length
  · subst h; simp
  · rw [if_neg h]
    rcases Nat.lt_or_ge x os.length with h1 | h1
    · rw [List.getElem?_append_left h1]
    · rw [List.getElem?_eq_none (by simp; omega), List.getElem?_eq_none h1]

theorem join_set {os : List (Option Obj)} {h : Nat} (hh : h < os.length) (o : Option Obj) (x : Nat) :
    ((os.set h o)[x]?).join = if x = h then o else (os[x]?).join := by
  by_cases e : x = h
  · subst e; rw [List.getElem?_set_self hh]; simp
  · rw [List.getElem?_set_ne (Ne.symm e), if_neg e]

/-- Opening a file object on a file that is referenced. -/
theorem newObj_ok {e : Env} {fs : FS} (h : R e fs) (ho : fs.opened + 2 < 2 ^ 31) {i : Nat}
    (hi : i < fs.made) (hc : 0 < cnt e i) {mk : Nat → Obj} (hmk : (mk i).file = i) :
    ∃ e', newObj e (some i) mk = .ok (fs.opened, e') ∧ R e' (fs.withObj (mk i)) := by
  have hb := h.cnt_bound i
  obtain ⟨fl, h1, h2, h3⟩ := Ref_ok h.files (by rw [h.made]; exact hi) hc (by omega)
  refine ⟨{ e with files := fl, objs := e.objs ++ [some (mk i)] }, ?_, ?_⟩
  · unfold newObj
    rw [h1]
    simp [bind, Except.bind, h.nobjs, pure, Except.pure]
  · refine ⟨h.sorted, h.name, h.one, ?_, ?_, ?_, h.nameLt, ?_, ?_, h.small⟩
    · simp only [FS.withObj]; rw [h2, h.made]
    · simp [FS.withObj, h.nobjs]
    · intro x
      simp only [FS.withObj]
      rw [join_append, h.nobjs, ← h.obj]
      rfl
    · intro x o hx
      simp only [FS.withObj] at hx ⊢
      unfold upd at hx
      split at hx
      · cases hx; rw [hmk]; exact hi
      · exact h.objLt x o hx
    · refine h3.congr ?_
      intro j _
      simp only [cnt, cntObj_append, hmk]
      unfold upd
      by_cases hj : j = i
      · subst hj; simp [cnt]; omega
      · simp [hj, Ne.symm hj, cnt]

theorem mapIndex_some {m : FileMap} {n : Bytes} {v : Option Nat} (h : mapFind m n = some v) :
    mapIndex m n = (v, m) := by simp [mapIndex, h]

theorem NewSequentialFile_ok {e : Env} {fs : FS} (h : R e fs) (ho : fs.opened + 2 < 2 ^ 31)
    (n : Bytes) :
    ∃ e' r, step e (.newSequential n) = .ok (e', r) ∧ fs.Answer (.newSequential n) r ∧
      R e' (fs.next (.newSequential n)) := by
  have hn := h.name n
  cases hf : fs.name n with
  | none =>
    rw [hf] at hn
    refine ⟨e, .opened (FS.missing n) none, ?_, ?_, ?_⟩
    · simp [step, NewSequentialFile, hn, bind, Except.bind, pure, Except.pure, notFound, lit,
        FS.missing]
    · simp [FS.Answer, FS.openAnswer, hf]
    · simpa [FS.next, hf] using h
  | some i =>
    rw [hf] at hn
    simp only [Option.map_some] at hn
    obtain ⟨e', h1, h2⟩ := newObj_ok h ho (h.nameLt n i hf) (h.cnt_name hf) (mk := fun i => .seq i 0) rfl
    refine ⟨e', .opened .ok (some fs.opened), ?_, ?_, ?_⟩
    · simp [step, NewSequentialFile, hn, mapIndex_some hn, h1, bind, Except.bind, pure, Except.pure]
    · simp [FS.Answer, FS.openAnswer, hf]
    · simpa [FS.next, hf] using h2

theorem NewRandomAccessFile_ok {e : Env} {fs : FS} (h : R e fs) (ho : fs.opened + 2 < 2 ^ 31)
    (n : Bytes) :
    ∃ e' r, step e (.newRandomAccess n) = .ok (e', r) ∧ fs.Answer (.newRandomAccess n) r ∧
      R e' (fs.next (.newRandomAccess n)) := by
  have hn := h.name n
  cases hf : fs.name n with
  | none =>
    rw [hf] at hn
    refine ⟨e, .opened (FS.missing n) none, ?_, ?_, ?_⟩
    · simp [step, NewRandomAccessFile, hn, bind, Except.bind, pure, Except.pure, notFound, lit,
        FS.missing]
    · simp [FS.Answer, FS.openAnswer, hf]
    · simpa [FS.next, hf] using h
  | some i =>
    rw [hf] at hn
    simp only [Option.map_some] at hn
    obtain ⟨e', h1, h2⟩ := newObj_ok h ho (h.nameLt n i hf) (h.cnt_name hf) (mk := .rand) rfl
    refine ⟨e', .opened .ok (some fs.opened), ?_, ?_, ?_⟩
    · simp [step, NewRandomAccessFile, hn, mapIndex_some hn, h1, bind, Except.bind, pure, Except.pure]
    · simp [FS.Answer, FS.openAnswer, hf]
    · simpa [FS.next, hf] using h2

/-- Replacing the contents of a file that is referenced. -/
theorem setFile_ok {e : Env} {fs : FS} (h : R e fs) {i : Nat} (hc : 0 < cnt e i)
    {f f' : FileState} {c : Bytes} (hf : e.files[i]? = some (some f)) (hr : f'.refs = f.refs)
    (hfi : FInv f' c) (hl : c.length < 2 ^ 64) :
    R (setFile e i f') { fs with data := upd fs.data i c } := by
  refine ⟨h.sorted, h.name, h.one, by simp [setFile, h.made], h.nobjs, h.obj, h.nameLt, h.objLt, ?_, ?_⟩
  · have hi : i < e.files.length := (List.getElem?_eq_some_iff.1 hf).1
    obtain ⟨g, g1, g2, _, _⟩ := h.files.pos i hi hc
    rw [hf] at g1; cases g1
    have := h.files.setFile hc (f' := f') (c := c) (k := cnt e i) hc (by rw [hr, g2]) hfi
    rw [upd_self_eq] at this
    exact this
  · intro j
    simp only [upd]
    split
    · exact hl
    · exact h.small j

theorem fresh_zero {e : Env} {fs : FS} (h : R e fs) {i : Nat} (hi : fs.made ≤ i) : cnt e i = 0 := by
  unfold cnt
  have h1 : cntMap e.map i = 0 := by
    unfold cntMap
    rw [List.countP_eq_zero]
    intro ⟨k, v⟩ hkv
    simp only [decide_eq_true_eq]
    rintro rfl
    have h1 : (mapFind e.map k).isSome := (mapFind_isSome_iff _ _).2 ⟨_, hkv, rfl⟩
    -- the key is unique in a sorted map
    have : mapFind e.map k = some (some i) := by
      have key : ∀ (m : FileMap), Sorted m → (k, some i) ∈ m → mapFind m k = some (some i) := by
        intro m
        induction m with
        | nil => intro _ h; cases h
        | cons a r ih =>
          obtain ⟨k', v'⟩ := a
          intro hs hm
          have hs' := List.pairwise_cons.1 hs
          simp only [mapFind]
          rcases List.mem_cons.1 hm with hm | hm
          · cases hm; simp
          · rw [if_neg]
            · exact ih hs'.2 hm
            · rintro rfl
              have := hs'.1 _ hm
              rw [strLt_irrefl] at this; cases this
      exact key _ h.sorted hkv
    rw [h.name] at this
    cases hn : fs.name k with
    | none => rw [hn] at this; cases this
    | some j =>
      rw [hn] at this
      simp only [Option.map_some, Option.some.injEq] at this
      have := h.nameLt k j hn
      omega
  have h2 : cntObj e.objs i = 0 := by
    unfold cntObj
    rw [List.countP_eq_zero]
    intro o ho
    simp only [decide_eq_true_eq]
    intro hm
    obtain ⟨x, hx⟩ := List.getElem?_of_mem ho
    cases o with
    | none => cases hm
    | some o =>
      have : fs.obj x = some o := by rw [h.obj, hx]; rfl
      have := h.objLt x o this
      simp at hm; omega
  omega

/-- A new name for a new, empty file. -/
theorem newName_ok {e : Env} {fs : FS} (h : R e fs) {n : Bytes} (hn : fs.name n = none) :
    ∃ e1, Ref (newFile e).2 (newFile e).1 = .ok e1 ∧ (newFile e).1 = some fs.made ∧
      R { e1 with map := mapSet e1.map n (some fs.made) }
        { fs with name := upd fs.name n (some fs.made), data := upd fs.data fs.made [],
                  made := fs.made + 1 } := by
  obtain ⟨h1, h2⟩ := newFile_ok h.files
  have hf : mapFind e.map n = none := by rw [h.name, hn]; rfl
  refine ⟨_, h1, by simp [newFile, h.made], ?_⟩
  refine ⟨sorted_mapSet h.sorted _ _, ?_, ?_, ?_, h.nobjs, h.obj, ?_, ?_, ?_, ?_⟩
  · intro x
    simp only []
    rw [mapFind_mapSet _ h.sorted]
    unfold upd
    by_cases hx : x = n
    · simp [hx]
    · simp [hx, h.name]
  · intro i
    simp only []
    rw [cntMap_set_new hf]
    have := h.one i
    by_cases hi : fs.made = i
    · subst hi
      have := fresh_zero h (Nat.le_refl fs.made)
      unfold cnt at this
      simp; omega
    · simp [hi]; exact this
  · simp [h.made]
  · intro x i hx
    simp only [upd] at hx
    split at hx
    · cases hx; exact Nat.lt_succ_self _
    · exact Nat.lt_succ_of_lt (h.nameLt x i hx)
  · intro x o hx; exact Nat.lt_succ_of_lt (h.objLt x o hx)
  · rw [← h.made]
    refine h2.congr ?_
    intro j hj
    simp only [cnt]
    rw [cntMap_set_new hf]
    unfold upd
    by_cases hj : j = e.files.length
    · subst hj
      have := fresh_zero h (i := e.files.length) (by rw [h.made]; exact Nat.le_refl _)
      unfold cnt at this
      simp; omega
    · simp [hj, Ne.symm hj, cnt]
  · intro i
    simp only [upd]
    split
    · simp
    · exact h.small i

theorem NewWritableFile_ok {e : Env} {fs : FS} (h : R e fs) (ho : fs.opened + 2 < 2 ^ 31)
    (n : Bytes) :
    ∃ e' r, step e (.newWritable n) = .ok (e', r) ∧ fs.Answer (.newWritable n) r ∧
      R e' (fs.next (.newWritable n)) := by
  have hn := h.name n
  cases hf : fs.name n with
  | none =>
    rw [hf] at hn
    obtain ⟨e1, h1, h2, h3⟩ := newName_ok h hf
    obtain ⟨e', h4, h5⟩ := newObj_ok h3 ho (i := fs.made) (Nat.lt_succ_self _)
      (h3.cnt_name (n := n) (by simp [upd])) (mk := .wr) rfl
    refine ⟨e', .opened .ok (some fs.opened), ?_, by simp [FS.Answer], by simpa [FS.next, hf] using h5⟩
    rw [h2] at h1
    simp only [step, NewWritableFile, hn, Option.map_none, bind, Except.bind, h2, h1, pure,
      Except.pure] at h4 ⊢
    rw [h4]
  | some i =>
    rw [hf] at hn
    simp only [Option.map_some] at hn
    obtain ⟨f, g1, g2, g3, g4⟩ := getFile_ok h.files (by rw [h.made]; exact h.nameLt n i hf) (h.cnt_name hf)
    have h3 := setFile_ok h (h.cnt_name hf) (f' := f.Truncate) g2 rfl (finv_truncate g4) (by simp)
    obtain ⟨e', h4, h5⟩ := newObj_ok h3 ho (i := i) (h.nameLt n i hf)
      (h3.cnt_name (n := n) hf) (mk := .wr) rfl
    refine ⟨e', .opened .ok (some fs.opened), ?_, by simp [FS.Answer], by simpa [FS.next, hf] using h5⟩
    simp only [step, NewWritableFile, hn, bind, Except.bind, g1, pure, Except.pure] at h4 ⊢
    rw [h4]

theorem NewAppendableFile_ok {e : Env} {fs : FS} (h : R e fs) (ho : fs.opened + 2 < 2 ^ 31)
    (n : Bytes) (hs : (fs.name n).isSome) :
    ∃ e' r, step e (.newAppendable n) = .ok (e', r) ∧ fs.Answer (.newAppendable n) r ∧
      R e' (fs.next (.newAppendable n)) := by
  have hn := h.name n
  obtain ⟨i, hf⟩ := Option.isSome_iff_exists.1 hs
  rw [hf] at hn
  simp only [Option.map_some] at hn
  obtain ⟨e', h4, h5⟩ := newObj_ok h ho (i := i) (h.nameLt n i hf)
    (h.cnt_name (n := n) hf) (mk := .wr) rfl
  refine ⟨e', .opened .ok (some fs.opened), ?_, by simp [FS.Answer], by simpa [FS.next, hf] using h5⟩
  simp only [step, NewAppendableFile, mapIndex_some hn, bind, Except.bind, pure, Except.pure] at h4 ⊢
  rw [h4]

/-- Removing a name. -/
theorem RemoveFileInternal_ok {e : Env} {fs : FS} (h : R e fs) (n : Bytes) :
    ∃ e', RemoveFileInternal e n = .ok e' ∧ R e' { fs with name := upd fs.name n none } := by
  have hn := h.name n
  unfold RemoveFileInternal
  cases hf : fs.name n with
  | none =>
    rw [hf] at hn
    simp only [Option.map_none] at hn
    rw [hn]
    refine ⟨e, rfl, ?_⟩
    have : upd fs.name n none = fs.name := by rw [← hf]; exact upd_self_eq _ _
    rw [this]; exact h
  | some i =>
    rw [hf] at hn
    simp only [Option.map_some] at hn
    rw [hn]
    simp only [mapIndex_some hn]
    obtain ⟨fl, fr, h1, h2, h3⟩ := Unref_ok h.files (by rw [h.made]; exact h.nameLt n i hf) (h.cnt_name hf)
    have h1' : Unref { e with map := e.map } (some i) = .ok { e with files := fl, freed := fr } := h1
    rw [h1']
    refine ⟨_, rfl, ?_⟩
    refine ⟨sorted_mapErase h.sorted n, ?_, ?_, by simp only []; rw [h2, h.made], h.nobjs, h.obj, ?_, h.objLt, ?_, h.small⟩
    · intro x
      simp only [mapFind_mapErase, upd]
      by_cases hx : x = n
      · simp [hx]
      · simp [hx, h.name]
    · intro j
      have := cntMap_erase h.sorted hn j
      have := h.one j
      simp only []; omega
    · intro x j hx
      simp only [upd] at hx
      split at hx
      · cases hx
      · exact h.nameLt x j hx
    · refine h3.congr ?_
      intro j _
      have := cntMap_erase h.sorted hn j
      simp only [cnt, upd]
      by_cases hj : j = i
      · subst hj; simp at this ⊢; omega
      · simp [hj, Ne.symm hj, cnt] at this ⊢; omega

theorem RemoveFile_ok {e : Env} {fs : FS} (h : R e fs) (n : Bytes) :
    ∃ e' r, step e (.removeFile n) = .ok (e', r) ∧ fs.Answer (.removeFile n) r ∧
      R e' (fs.next (.removeFile n)) := by
  obtain ⟨e', h1, h2⟩ := RemoveFileInternal_ok h n
  have hn := h.name n
  cases hf : fs.name n with
  | none =>
    rw [hf] at hn
    simp only [Option.map_none] at hn
    have h1' : RemoveFileInternal e n = .ok e := by simp [RemoveFileInternal, hn, pure, Except.pure]
    rw [h1'] at h1; cases h1
    exact ⟨e, .status (FS.missing n), by simp [step, RemoveFile, hn, bind, Except.bind, pure,
      Except.pure, notFound, lit, FS.missing], by simp [FS.Answer, hf], h2⟩
  | some i =>
    rw [hf] at hn
    simp only [Option.map_some] at hn
    exact ⟨e', .status .ok, by simp [step, RemoveFile, hn, h1, bind, Except.bind, pure, Except.pure],
      by simp [FS.Answer, hf], h2⟩

theorem GetFileSize_ok {e : Env} {fs : FS} (h : R e fs) (n : Bytes) :
    ∃ e' r, step e (.getFileSize n) = .ok (e', r) ∧ fs.Answer (.getFileSize n) r ∧
      R e' (fs.next (.getFileSize n)) := by
  have hn := h.name n
  cases hf : fs.name n with
  | none =>
    rw [hf] at hn
    simp only [Option.map_none] at hn
    exact ⟨e, .size (FS.missing n) none, by simp [step, GetFileSize, hn, bind, Except.bind, pure,
      Except.pure, notFound, lit, FS.missing], by simp [FS.Answer, hf], h⟩
  | some i =>
    rw [hf] at hn
    simp only [Option.map_some] at hn
    obtain ⟨f, g1, g2, g3, g4⟩ := getFile_ok h.files (by rw [h.made]; exact h.nameLt n i hf) (h.cnt_name hf)
    exact ⟨e, .size .ok (some (fs.data i).length), by
      simp [step, GetFileSize, hn, mapIndex_some hn, g1, FileState.Size, g4.size, bind, Except.bind,
        pure, Except.pure],
      by simp [FS.Answer, hf], h⟩

theorem RenameFile_ok {e : Env} {fs : FS} (h : R e fs) (a b : Bytes)
    (hab : a ≠ b ∨ fs.name a = none) :
    ∃ e' r, step e (.renameFile a b) = .ok (e', r) ∧ fs.Answer (.renameFile a b) r ∧
      R e' (fs.next (.renameFile a b)) := by
  have hn := h.name a
  cases hf : fs.name a with
  | none =>
    rw [hf] at hn
    simp only [Option.map_none] at hn
    exact ⟨e, .status (FS.missing a), by simp [step, RenameFile, hn, bind, Except.bind, pure,
      Except.pure, notFound, lit, FS.missing], by simp [FS.Answer, hf], by simpa [FS.next, hf] using h⟩
  | some i =>
    have hab : a ≠ b := by
      rcases hab with h | h
      · exact h
      · rw [hf] at h; cases h
    rw [hf] at hn
    simp only [Option.map_some] at hn
    obtain ⟨e1, h1, h2⟩ := RemoveFileInternal_ok h b
    have hfa : upd fs.name b none a = some i := by rw [upd_other _ _ hab]; exact hf
    have hn1 : mapFind e1.map a = some (some i) := by rw [h2.name]; simp only []; rw [hfa]; rfl
    have hn2 : mapFind e1.map b = none := by rw [h2.name]; simp only []; rw [upd_same]; rfl
    refine ⟨{ e1 with map := mapErase (mapSet e1.map b (some i)) a }, .status .ok, ?_, ?_, ?_⟩
    · simp [step, RenameFile, hn, h1, mapIndex_some hn1, bind, Except.bind, pure, Except.pure]
    · simp [FS.Answer, hf]
    · have hs1 := sorted_mapSet h2.sorted b (some i)
      have hfs : mapFind (mapSet e1.map b (some i)) a = some (some i) := by
        rw [mapFind_mapSet _ h2.sorted, if_neg hab, hn1]
      have hcnt : ∀ j, cntMap (mapErase (mapSet e1.map b (some i)) a) j = cntMap e1.map j := by
        intro j
        have h5 := cntMap_erase hs1 hfs j
        have h6 := cntMap_set_new hn2 (some i) j
        omega
      simp only [FS.next, hf, if_neg hab]
      refine ⟨sorted_mapErase hs1 a, ?_, ?_, h2.made, h2.nobjs, h2.obj, ?_, h2.objLt, ?_, h2.small⟩
      · intro x
        simp only [mapFind_mapErase, mapFind_mapSet _ h2.sorted, h2.name, upd]
        by_cases hx : x = a
        · simp [hx]
        · by_cases hy : x = b
          · simp [hx, hy, Ne.symm hab]
          · simp [hx, hy]
      · intro j; simp only []; rw [hcnt]; exact h2.one j
      · intro x j hx
        simp only [upd] at hx
        split at hx
        · cases hx
        · split at hx
          · cases hx; exact h.nameLt a i hf
          · exact h.nameLt x j hx
      · refine h2.files.congr ?_
        intro j _
        simp only [cnt, hcnt]

theorem unrefAll_ok : ∀ (m : FileMap) (e : Env) (data : Nat → Bytes),
    (∀ n v, (n, v) ∈ m → ∃ i, v = some i ∧ i < e.files.length) →
    FilesInv e.files e.freed data (fun i => cntMap m i + cntObj e.objs i) →
    ∃ fl fr, unrefAll m e = .ok { e with files := fl, freed := fr } ∧ fl.length = e.files.length ∧
      FilesInv fl fr data (fun i => cntObj e.objs i) := by
  intro m
  induction m with
  | nil =>
    intro e data _ hi
    refine ⟨e.files, e.freed, rfl, rfl, hi.congr ?_⟩
    intro i _; simp [cntMap]
  | cons a r ih =>
    obtain ⟨k, v⟩ := a
    intro e data hv hi
    obtain ⟨i, rfl, hil⟩ := hv k v (by simp)
    obtain ⟨fl, fr, h1, h2, h3⟩ := Unref_ok hi hil (by simp [cntMap]; omega)
    obtain ⟨fl', fr', h4, h5, h6⟩ := ih { e with files := fl, freed := fr } data
      (fun n v hn => by
        obtain ⟨j, hj, hjl⟩ := hv n v (List.mem_cons_of_mem _ hn)
        exact ⟨j, hj, by simp only []; omega⟩)
      (by
        refine h3.congr ?_
        intro j _
        simp only [upd, cntMap, List.countP_cons, decide_eq_true_eq, Option.some.injEq]
        by_cases hj : j = i
        · subst hj; simp
        · simp [hj, Ne.symm hj])
    refine ⟨fl', fr', ?_, by rw [h5]; exact h2, h6⟩
    rw [unrefAll, h1]
    simp only [bind, Except.bind]
    exact h4

theorem mapFind_of_mem {m : FileMap} (hs : Sorted m) {k : Bytes} {v : Option Nat} (hm : (k, v) ∈ m) :
    mapFind m k = some v := by
  induction m with
  | nil => cases hm
  | cons a r ih =>
    obtain ⟨k', v'⟩ := a
    have hs' := List.pairwise_cons.1 hs
    simp only [mapFind]
    rcases List.mem_cons.1 hm with hm | hm
    · cases hm; simp
    · rw [if_neg]
      · exact ih hs'.2 hm
      · rintro rfl
        have := hs'.1 _ hm
        rw [strLt_irrefl] at this; cases this

theorem destroyEnv_ok {e : Env} {fs : FS} (h : R e fs) :
    ∃ e' r, step e .destroyEnv = .ok (e', r) ∧ fs.Answer .destroyEnv r ∧ R e' (fs.next .destroyEnv) := by
  obtain ⟨fl, fr, h1, h2, h3⟩ := unrefAll_ok e.map e fs.data (by
    intro n v hm
    have := mapFind_of_mem h.sorted hm
    rw [h.name] at this
    cases hn : fs.name n with
    | none => rw [hn] at this; cases this
    | some i =>
      rw [hn] at this
      simp only [Option.map_some, Option.some.injEq] at this
      exact ⟨i, this.symm, by rw [h.made]; exact h.nameLt n i hn⟩) h.files
  refine ⟨{ e with files := fl, freed := fr, map := [] }, .unit, by simp only [step, destroyEnv, h1, bind, Except.bind, pure, Except.pure], rfl, ?_⟩
  refine ⟨List.Pairwise.nil, fun _ => rfl, fun _ => by simp [cntMap], by simp only []; rw [h2, h.made]; rfl,
    h.nobjs, h.obj, fun _ _ h => (nomatch h), h.objLt, ?_, h.small⟩
  refine h3.congr ?_
  intro j _; simp [cnt, cntMap]

/-- Replacing a file object by one on the same file (moving a position). -/
theorem setObj_ok {e : Env} {fs : FS} (h : R e fs) {x : Nat} {o o' : Obj} (hx : fs.obj x = some o)
    (hf : o'.file = o.file) :
    R { e with objs := e.objs.set x (some o') } { fs with obj := upd fs.obj x (some o') } := by
  have hxs := h.objs_some hx
  have hlt : x < e.objs.length := (List.getElem?_eq_some_iff.1 hxs).1
  refine ⟨h.sorted, h.name, h.one, h.made, by simp [h.nobjs], ?_, h.nameLt, ?_, ?_, h.small⟩
  · intro y
    simp only []
    rw [join_set hlt, ← h.obj]; rfl
  · intro y p hy
    simp only [upd] at hy
    split at hy
    · cases hy; rw [hf]; exact h.objLt x o hx
    · exact h.objLt y p hy
  · refine h.files.congr ?_
    intro j _
    have := cntObj_set hxs (some o') j
    simp only [Option.map_some, Option.some.injEq, hf] at this
    simp only [cnt]; omega

theorem seqRead_ok {e : Env} {fs : FS} (h : R e fs) {x n : Nat} {i pos : Nat}
    (hx : fs.obj x = some (.seq i pos)) :
    ∃ e' r, step e (.seqRead x n) = .ok (e', r) ∧ fs.Answer (.seqRead x n) r ∧
      R e' (fs.next (.seqRead x n)) := by
  have hxs := h.objs_some hx
  obtain ⟨f, g1, g2, g3, g4⟩ := getFile_ok h.files (by rw [h.made]; exact h.objLt x _ hx) (h.cnt_obj hx)
  simp only [Obj.file] at g1 g4
  have hr := Read_eq g4 (h.small i) pos n
  simp only [step, seqRead, getObj, hxs, bind, Except.bind, g1, hr, FS.Answer, FS.next, hx,
    FS.readAnswer]
  by_cases hp : pos ≤ (fs.data i).length
  · simp only [if_pos hp]
    exact ⟨_, _, rfl, rfl, setObj_ok h hx rfl⟩
  · simp only [if_neg hp, FS.beyond]
    exact ⟨_, _, rfl, rfl, h⟩

theorem seqSkip_ok {e : Env} {fs : FS} (h : R e fs) {x n : Nat} {i pos : Nat}
    (hx : fs.obj x = some (.seq i pos)) :
    ∃ e' r, step e (.seqSkip x n) = .ok (e', r) ∧ fs.Answer (.seqSkip x n) r ∧
      R e' (fs.next (.seqSkip x n)) := by
  have hxs := h.objs_some hx
  obtain ⟨f, g1, g2, g3, g4⟩ := getFile_ok h.files (by rw [h.made]; exact h.objLt x _ hx) (h.cnt_obj hx)
  simp only [Obj.file] at g1 g4
  have hsz : f.Size = (fs.data i).length := g4.size
  simp only [step, seqSkip, getObj, hxs, bind, Except.bind, g1, FS.Answer, FS.next, hx, hsz, skipCheck]
  by_cases hp : pos ≤ (fs.data i).length
  · have hs := h.small i
    have hm : skipMove pos (fs.data i).length n = min (pos + n) (fs.data i).length := by
      unfold skipMove
      have h1 : ((fs.data i).length + 2 ^ 64 - pos) % 2 ^ 64 = (fs.data i).length - pos := by
        have : (fs.data i).length + 2 ^ 64 - pos = ((fs.data i).length - pos) + 2 ^ 64 := by omega
        rw [this, Nat.add_mod_right, Nat.mod_eq_of_lt (by omega)]
      simp only [h1]
      split
      · rw [Nat.mod_eq_of_lt (by omega)]; omega
      · rw [Nat.mod_eq_of_lt (by omega)]; omega
    simp only [if_neg (show ¬ pos > (fs.data i).length by omega), if_pos hp, hm, pure, Except.pure]
    exact ⟨_, _, rfl, rfl, setObj_ok h hx rfl⟩
  · simp only [if_pos (show pos > (fs.data i).length by omega), if_neg hp, pure, Except.pure]
    exact ⟨_, _, rfl, rfl, h⟩

theorem randRead_ok {e : Env} {fs : FS} (h : R e fs) {x off n : Nat} {i : Nat}
    (hx : fs.obj x = some (.rand i)) :
    ∃ e' r, step e (.randRead x off n) = .ok (e', r) ∧ fs.Answer (.randRead x off n) r ∧
      R e' (fs.next (.randRead x off n)) := by
  have hxs := h.objs_some hx
  obtain ⟨f, g1, g2, g3, g4⟩ := getFile_ok h.files (by rw [h.made]; exact h.objLt x _ hx) (h.cnt_obj hx)
  simp only [Obj.file] at g1 g4
  have hr := Read_eq g4 (h.small i) off n
  simp only [step, randRead, getObj, hxs, bind, Except.bind, g1, hr, FS.Answer, FS.next, hx,
    FS.readAnswer]
  by_cases hp : off ≤ (fs.data i).length
  · simp only [if_pos hp]
    exact ⟨_, _, rfl, rfl, h⟩
  · simp only [if_neg hp]
    exact ⟨_, _, rfl, rfl, h⟩

theorem append_ok {e : Env} {fs : FS} (h : R e fs) {x : Nat} {d : Slice} {i : Nat} (hw : d.WF)
    (hx : fs.obj x = some (.wr i)) (hl : (fs.data i).length + d.len < 2 ^ 64) :
    ∃ e' r, step e (.append x d) = .ok (e', r) ∧ fs.Answer (.append x d) r ∧
      R e' (fs.next (.append x d)) := by
  have hxs := h.objs_some hx
  obtain ⟨f, g1, g2, g3, g4⟩ := getFile_ok h.files (by rw [h.made]; exact h.objLt x _ hx) (h.cnt_obj hx)
  simp only [Obj.file] at g1 g2 g4
  obtain ⟨f', a1, a2, a3⟩ := Append_eq g4 hw
  simp only [step, wrAppend, getObj, hxs, bind, Except.bind, g1, a1, FS.Answer, FS.next, hx, pure,
    Except.pure]
  refine ⟨_, _, rfl, rfl, setFile_ok h (h.cnt_obj hx) g2 a3 a2 ?_⟩
  rw [List.length_append, Slice.bytes_length hw]; exact hl

theorem wrNop_ok {e : Env} {fs : FS} (h : R e fs) {x i : Nat} (hx : fs.obj x = some (.wr i)) :
    wrNop e x = .ok .ok := by
  have hxs := h.objs_some hx
  simp [wrNop, getObj, hxs, bind, Except.bind, pure, Except.pure]

theorem delete_ok {e : Env} {fs : FS} (h : R e fs) {x : Nat} {o : Obj} (hx : fs.obj x = some o) :
    ∃ e' r, step e (.delete x) = .ok (e', r) ∧ fs.Answer (.delete x) r ∧ R e' (fs.next (.delete x)) := by
  have hxs := h.objs_some hx
  have hlt : x < e.objs.length := (List.getElem?_eq_some_iff.1 hxs).1
  obtain ⟨fl, fr, h1, h2, h3⟩ := Unref_ok h.files (by rw [h.made]; exact h.objLt x _ hx) (h.cnt_obj hx)
  refine ⟨{ e with files := fl, freed := fr, objs := e.objs.set x none }, .unit, ?_, rfl, ?_⟩
  · simp [step, deleteObj, getObj, hxs, h1, bind, Except.bind, pure, Except.pure]
  · refine ⟨h.sorted, h.name, h.one, by simp only []; rw [h2, h.made]; rfl, by simp [h.nobjs, FS.next], ?_,
      h.nameLt, ?_, ?_, h.small⟩
    · intro y
      simp only [FS.next]
      rw [join_set hlt, ← h.obj]; rfl
    · intro y p hy
      simp only [FS.next, upd] at hy
      split at hy
      · cases hy
      · exact h.objLt y p hy
    · refine h3.congr ?_
      intro j _
      have := cntObj_set hxs none j
      simp only [Option.map_none] at this
      simp only [cnt, upd]
      by_cases hj : j = o.file
      · subst hj; simp at this ⊢; omega
      · simp [hj, Ne.symm hj, cnt] at this ⊢; omega

end MemEnv
end Lsmdb
