import Verif.Proof.MemFile
import Verif.Proof.Slice

/-!
# The name map, reference counts
-/

namespace Lsmdb
namespace MemEnv
open Spec Status

theorem strLt_iff (a b : Bytes) : strLt a b = true ↔ lexLt a b := by
  rw [← cmpBytes_lt_iff]
  induction a generalizing b with
  | nil => cases b <;> simp [strLt, cmpBytes]
  | cons x xs ih =>
    cases b with
    | nil => simp [strLt, cmpBytes]
    | cons y ys =>
      simp only [strLt, cmpBytes]
      by_cases h1 : x < y
      · simp [h1]
      · by_cases h2 : y < x
        · simp [h1, h2]
        · simp [h1, h2, ih]

theorem strLt_irrefl (a : Bytes) : strLt a a = false := by
  induction a with
  | nil => rfl
  | cons x xs ih => simp [strLt, ih]

theorem strLt_total {a b : Bytes} (h1 : strLt a b = false) (h2 : a ≠ b) : strLt b a = true := by
  induction a generalizing b with
  | nil => cases b with
    | nil => exact absurd rfl h2
    | cons y ys => simp [strLt] at h1
  | cons x xs ih =>
    cases b with
    | nil => rfl
    | cons y ys =>
      simp only [strLt] at h1 ⊢
      by_cases hxy : x < y
      · simp [hxy] at h1
      · by_cases hyx : y < x
        · simp [hyx]
        · have := u8_eq_of_not_lt hxy hyx
          subst this
          simp only [hxy, if_false] at h1 ⊢
          exact ih h1 (fun e => h2 (by rw [e]))

theorem strLt_trans {a b c : Bytes} (h1 : strLt a b = true) (h2 : strLt b c = true) :
    strLt a c = true := by
  induction a generalizing b c with
  | nil => cases b with
    | nil => simp [strLt] at h1
    | cons y ys => cases c with
      | nil => simp [strLt] at h2
      | cons z zs => rfl
  | cons x xs ih =>
    cases b with
    | nil => simp [strLt] at h1
    | cons y ys =>
      cases c with
      | nil => simp [strLt] at h2
      | cons z zs =>
        simp only [strLt] at *
        by_cases hxy : x < y
        · by_cases hyz : y < z
          · have : x < z := by rw [UInt8.lt_iff_toNat_lt] at *; omega
            simp [this]
          · simp only [hyz, if_false] at h2
            by_cases hzy : z < y
            · simp [hzy] at h2
            · have := u8_eq_of_not_lt hyz hzy
              subst this; simp [hxy]
        · simp only [hxy, if_false] at h1
          by_cases hyx : y < x
          · simp [hyx] at h1
          · have := u8_eq_of_not_lt hxy hyx
            subst this
            simp only [hxy, if_false] at h1
            by_cases hyz : x < z
            · simp [hyz]
            · simp only [hyz, if_false] at h2 ⊢
              by_cases hzy : z < x
              · simp [hzy] at h2
              · simp only [hzy, if_false] at h2 ⊢
                exact ih h1 h2

/-- Sorted by key, no key twice. -/
def Sorted (m : FileMap) : Prop := m.Pairwise (fun a b => strLt a.1 b.1 = true)

theorem mapFind_mem {m : FileMap} {n : Bytes} {v : Option Nat} (h : mapFind m n = some v) :
    (n, v) ∈ m := by
  induction m with
  | nil => cases h
  | cons e r ih =>
    obtain ⟨k, w⟩ := e
    simp only [mapFind] at h
    by_cases hk : k = n
    · rw [if_pos hk] at h; cases h; subst hk; simp
    · rw [if_neg hk] at h; exact List.mem_cons_of_mem _ (ih h)

theorem mapFind_none {m : FileMap} {n : Bytes} (h : mapFind m n = none) : ∀ e ∈ m, e.1 ≠ n := by
  induction m with
  | nil => intro e he; cases he
  | cons e r ih =>
    obtain ⟨k, w⟩ := e
    simp only [mapFind] at h
    by_cases hk : k = n
    · rw [if_pos hk] at h; cases h
    · rw [if_neg hk] at h
      intro e he
      rcases List.mem_cons.1 he with rfl | he
      · exact hk
      · exact ih h e he

theorem mapFind_isSome_iff (m : FileMap) (n : Bytes) :
    (mapFind m n).isSome ↔ ∃ e ∈ m, e.1 = n := by
  cases h : mapFind m n with
  | none =>
    simp only [Option.isSome_none, Bool.false_eq_true, false_iff]
    rintro ⟨e, he, h2⟩; exact mapFind_none h e he h2
  | some v => simp only [Option.isSome_some, true_iff]; exact ⟨_, mapFind_mem h, rfl⟩

theorem mapFind_mapSet (m : FileMap) (hs : Sorted m) (n : Bytes) (v : Option Nat) (x : Bytes) :
    mapFind (mapSet m n v) x = if x = n then some v else mapFind m x := by
  induction m with
  | nil =>
    simp only [mapSet, mapFind]
    by_cases h : x = n
    · subst h; simp
    · simp [h, Ne.symm h]
  | cons e r ih =>
    obtain ⟨k, w⟩ := e
    have hs' := (List.pairwise_cons.1 hs)
    simp only [mapSet]
    by_cases h1 : strLt k n = true
    · rw [if_pos h1]
      simp only [mapFind, ih hs'.2]
      by_cases hk : k = x
      · subst hk
        have : k ≠ n := by rintro rfl; rw [strLt_irrefl] at h1; cases h1
        simp [this]
      · simp [hk]
    · rw [if_neg h1]
      by_cases h2 : k = n
      · subst h2
        rw [if_pos rfl]
        simp only [mapFind]
        by_cases h : x = k
        · subst h; simp
        · simp [h, Ne.symm h]
      · rw [if_neg h2]
        simp only [mapFind]
        by_cases h : x = n
        · subst h; simp
        · simp [h, Ne.symm h]

theorem mem_mapSet {m : FileMap} {n : Bytes} {v : Option Nat} {e : Bytes × Option Nat}
    (h : e ∈ mapSet m n v) : e = (n, v) ∨ e ∈ m := by
  induction m with
  | nil => simp [mapSet] at h; exact .inl h
  | cons f r ih =>
    obtain ⟨k, w⟩ := f
    simp only [mapSet] at h
    split at h
    · rcases List.mem_cons.1 h with rfl | h
      · simp
      · rcases ih h with h | h
        · exact .inl h
        · exact .inr (List.mem_cons_of_mem _ h)
    · split at h
      · rcases List.mem_cons.1 h with rfl | h
        · simp
        · exact .inr (List.mem_cons_of_mem _ h)
      · rcases List.mem_cons.1 h with rfl | h
        · simp
        · exact .inr h

theorem sorted_mapSet {m : FileMap} (hs : Sorted m) (n : Bytes) (v : Option Nat) :
    Sorted (mapSet m n v) := by
  induction m with
  | nil => simp [mapSet, Sorted]
  | cons e r ih =>
    obtain ⟨k, w⟩ := e
    have hs' := (List.pairwise_cons.1 hs)
    simp only [mapSet]
    split
    · rename_i h1
      refine List.pairwise_cons.2 ⟨fun x hx => ?_, ih hs'.2⟩
      rcases mem_mapSet hx with rfl | hx
      · exact h1
      · exact hs'.1 x hx
    · rename_i h1
      split
      · rename_i h2
        subst h2
        exact List.pairwise_cons.2 ⟨hs'.1, hs'.2⟩
      · rename_i h2
        have h3 : strLt n k = true := strLt_total (by simpa using h1) h2
        refine List.pairwise_cons.2 ⟨fun x hx => ?_, hs⟩
        rcases List.mem_cons.1 hx with rfl | hx
        · exact h3
        · exact strLt_trans h3 (hs'.1 x hx)

theorem sorted_mapErase {m : FileMap} (hs : Sorted m) (n : Bytes) : Sorted (mapErase m n) :=
  List.Pairwise.filter _ hs

theorem mapFind_mapErase (m : FileMap) (n x : Bytes) :
    mapFind (mapErase m n) x = if x = n then none else mapFind m x := by
  induction m with
  | nil => simp [mapErase, mapFind]
  | cons e r ih =>
    obtain ⟨k, w⟩ := e
    simp only [mapErase] at ih
    simp only [mapErase, List.filter_cons]
    by_cases hk : k = n
    · subst hk
      simp only [ne_eq, not_true, decide_false, Bool.false_eq_true, if_false, ih, mapFind]
      by_cases h : x = k
      · simp [h]
      · simp [h, Ne.symm h]
    · simp only [ne_eq, hk, not_false_eq_true, decide_true, if_true, mapFind, ih]
      by_cases h : k = x
      · subst h; simp [hk]
      · simp [h]

/-- How many names refer to file `i`. -/
def cntMap (m : FileMap) (i : Nat) : Nat := m.countP (fun e => decide (e.2 = some i))

theorem cntMap_set_new {m : FileMap} {n : Bytes} (h : mapFind m n = none) (v : Option Nat) (i : Nat) :
    cntMap (mapSet m n v) i = cntMap m i + if v = some i then 1 else 0 := by
  induction m with
  | nil => simp [mapSet, cntMap, List.countP_cons]
  | cons e r ih =>
    obtain ⟨k, w⟩ := e
    simp only [mapFind] at h
    have hk : k ≠ n := by intro hk; rw [if_pos hk] at h; cases h
    rw [if_neg hk] at h
    simp only [mapSet]
    split
    · have := ih h
      simp only [cntMap, List.countP_cons] at this ⊢
      rw [this]; omega
    · simp only [cntMap, List.countP_cons, decide_eq_true_eq]

theorem mapErase_absent {m : FileMap} {n : Bytes} (h : ∀ e ∈ m, e.1 ≠ n) : mapErase m n = m := by
  unfold mapErase
  rw [List.filter_eq_self]
  intro e he; simpa using h e he

theorem cntMap_erase {m : FileMap} (hs : Sorted m) {n : Bytes} {v : Option Nat}
    (h : mapFind m n = some v) (i : Nat) :
    cntMap (mapErase m n) i + (if v = some i then 1 else 0) = cntMap m i := by
  induction m with
  | nil => cases h
  | cons e r ih =>
    obtain ⟨k, w⟩ := e
    have hs' := (List.pairwise_cons.1 hs)
    simp only [mapFind] at h
    by_cases hk : k = n
    · rw [if_pos hk] at h; cases h; subst hk
      have hab : ∀ e ∈ r, e.1 ≠ k := by
        intro e he heq
        have := hs'.1 e he
        simp only [heq, strLt_irrefl] at this; cases this
      have := mapErase_absent hab
      unfold mapErase at this ⊢
      rw [List.filter_cons, if_neg (by simp), this]
      simp only [cntMap, List.countP_cons, decide_eq_true_eq]
    · rw [if_neg hk] at h
      have := ih hs'.2 h
      simp only [mapErase] at this ⊢
      rw [List.filter_cons, if_pos (by simpa using hk)]
      simp only [cntMap, List.countP_cons] at this ⊢
      omega

theorem cntMap_pos {m : FileMap} {n : Bytes} {i : Nat} (h : mapFind m n = some (some i)) :
    0 < cntMap m i := by
  unfold cntMap
  rw [List.countP_pos_iff]
  exact ⟨_, mapFind_mem h, by simp⟩

/-- How many file objects refer to file `i`. -/
def cntObj (os : List (Option Obj)) (i : Nat) : Nat :=
  os.countP (fun o => decide (o.map Obj.file = some i))

theorem cntObj_append (os : List (Option Obj)) (o : Obj) (i : Nat) :
    cntObj (os ++ [some o]) i = cntObj os i + if o.file = i then 1 else 0 := by
  simp [cntObj, List.countP_append, List.countP_cons]

theorem cntObj_le (os : List (Option Obj)) (i : Nat) : cntObj os i ≤ os.length :=
  List.countP_le_length

theorem cntObj_set {os : List (Option Obj)} {h : Nat} {o : Obj} (hh : os[h]? = some (some o))
    (o' : Option Obj) (i : Nat) :
    cntObj (os.set h o') i + (if o.file = i then 1 else 0) =
      cntObj os i + (if o'.map Obj.file = some i then 1 else 0) := by
  induction os generalizing h with
  | nil => cases hh
  | cons a os ih =>
    cases h with
    | zero =>
      simp only [List.getElem?_cons_zero, Option.some.injEq] at hh
      subst hh
      simp only [List.set_cons_zero, cntObj, List.countP_cons, decide_eq_true_eq, Option.map_some,
        Option.some.injEq]
      omega
    | succ h =>
      simp only [List.getElem?_cons_succ] at hh
      have := ih hh
      simp only [List.set_cons_succ, cntObj, List.countP_cons] at this ⊢
      omega

theorem cntObj_pos {os : List (Option Obj)} {h : Nat} {o : Obj} (hh : os[h]? = some (some o)) :
    0 < cntObj os o.file := by
  unfold cntObj
  rw [List.countP_pos_iff]
  exact ⟨_, List.mem_of_getElem? hh, by simp⟩

/-- File storage against a reference count: a referenced file exists, with that count and the
contents; an unreferenced one has been deleted, once. -/
structure FilesInv (files : List (Option FileState)) (freed : List Nat) (data : Nat → Bytes)
    (cnt : Nat → Nat) : Prop where
  zero : ∀ i, i < files.length → cnt i = 0 → files[i]? = some none ∧ freed.count i = 1
  pos : ∀ i, i < files.length → 0 < cnt i →
    ∃ f, files[i]? = some (some f) ∧ f.refs = cnt i ∧ FInv f (data i) ∧ freed.count i = 0
  out : ∀ i, files.length ≤ i → freed.count i = 0

theorem FilesInv.congr {files freed data cnt cnt'} (h : FilesInv files freed data cnt)
    (e : ∀ i, i < files.length → cnt' i = cnt i) : FilesInv files freed data cnt' :=
  ⟨fun i hi h0 => h.zero i hi (by rw [← e i hi]; exact h0),
   fun i hi h0 => by rw [e i hi] at *; exact h.pos i hi h0, h.out⟩

theorem getFile_ok {e : Env} {data cnt} (h : FilesInv e.files e.freed data cnt) {i : Nat}
    (hi : i < e.files.length) (hc : 0 < cnt i) :
    ∃ f, getFile e (some i) = .ok (i, f) ∧ e.files[i]? = some (some f) ∧ f.refs = cnt i ∧
      FInv f (data i) := by
  obtain ⟨f, h1, h2, h3, _⟩ := h.pos i hi hc
  exact ⟨f, by simp [getFile, h1], h1, h2, h3⟩

/-- Replacing the state of a referenced file. -/
theorem FilesInv.setFile {files freed data cnt} (h : FilesInv files freed data cnt) {i : Nat}
    (hc : 0 < cnt i) {f' : FileState} {c : Bytes} {k : Nat} (hk : 0 < k)
    (hr : f'.refs = (k : Int)) (hf : FInv f' c) :
    FilesInv (files.set i (some f')) freed (upd data i c) (upd cnt i k) := by
  refine ⟨?_, ?_, ?_⟩
  · intro j hj h0
    rw [List.length_set] at hj
    by_cases e : j = i
    · subst e; rw [upd_same] at h0; omega
    · rw [upd_other _ _ e] at h0
      rw [List.getElem?_set_ne (Ne.symm e)]
      exact h.zero j hj h0
  · intro j hj h0
    rw [List.length_set] at hj
    by_cases e : j = i
    · subst e
      obtain ⟨f, _, _, _, h4⟩ := h.pos j hj hc
      refine ⟨f', by rw [List.getElem?_set_self hj], by rw [upd_same]; exact hr,
        by rw [upd_same]; exact hf, h4⟩
    · rw [upd_other _ _ e] at h0
      rw [List.getElem?_set_ne (Ne.symm e), upd_other _ _ e, upd_other _ _ e]
      exact h.pos j hj h0
  · intro j hj; rw [List.length_set] at hj; exact h.out j hj

theorem upd_self_eq {α β : Type} [DecidableEq α] (f : α → β) (a : α) : upd f a (f a) = f := by
  funext x; unfold upd; split
  · rename_i h; rw [h]
  · rfl

theorem Ref_ok {e : Env} {data cnt} (h : FilesInv e.files e.freed data cnt) {i : Nat}
    (hi : i < e.files.length) (hc : 0 < cnt i) (hb : cnt i + 1 < 2 ^ 31) :
    ∃ fl, Ref e (some i) = .ok { e with files := fl } ∧ fl.length = e.files.length ∧
      FilesInv fl e.freed data (upd cnt i (cnt i + 1)) := by
  obtain ⟨f, h1, h2, h3, h4⟩ := getFile_ok h hi hc
  refine ⟨e.files.set i (some { f with refs := f.refs + 1 }), ?_, by simp, ?_⟩
  · unfold Ref
    rw [h1]
    simp only [bind, Except.bind]
    rw [if_neg (by rw [h3]; omega)]
    rfl
  · have := h.setFile hc (f' := { f with refs := f.refs + 1 }) (c := data i) (k := cnt i + 1)
      (by omega) (by simp only [h3]; omega) (finv_refs h4 _)
    rw [upd_self_eq] at this
    exact this

theorem Unref_ok {e : Env} {data cnt} (h : FilesInv e.files e.freed data cnt) {i : Nat}
    (hi : i < e.files.length) (hc : 0 < cnt i) :
    ∃ fl fr, Unref e (some i) = .ok { e with files := fl, freed := fr } ∧
      fl.length = e.files.length ∧ FilesInv fl fr data (upd cnt i (cnt i - 1)) := by
  obtain ⟨f, h1, h2, h3, h4⟩ := getFile_ok h hi hc
  obtain ⟨f2, g1, _, _, g4⟩ := h.pos i hi hc
  unfold Unref
  rw [h1]
  simp only [bind, Except.bind]
  have ha : cassert (decide (f.refs - 1 ≥ 0)) = .ok () := by
    rw [h3]; simp only [cassert]; rw [if_pos (by simp; omega)]
  rw [ha]
  by_cases hz : f.refs - 1 ≤ 0
  · rw [if_pos hz]
    refine ⟨_, _, rfl, by simp, ?_⟩
    have h1c : cnt i = 1 := by omega
    refine ⟨?_, ?_, ?_⟩
    · intro j hj h0
      rw [List.length_set] at hj
      by_cases e : j = i
      · subst e; rw [List.getElem?_set_self hj]; simp [List.count_append, g4]
      · rw [upd_other _ _ e] at h0
        rw [List.getElem?_set_ne (Ne.symm e)]
        have := h.zero j hj h0
        rw [List.count_append, this.2]
        exact ⟨this.1, by simp [Ne.symm e]⟩
    · intro j hj h0
      rw [List.length_set] at hj
      by_cases e : j = i
      · subst e; rw [upd_same] at h0; omega
      · rw [upd_other _ _ e] at h0
        rw [List.getElem?_set_ne (Ne.symm e), upd_other _ _ e]
        obtain ⟨f, a, b, c, d⟩ := h.pos j hj h0
        exact ⟨f, a, b, c, by simp [List.count_append, d, Ne.symm e]⟩
    · intro j hj
      rw [List.length_set] at hj
      have : i ≠ j := by omega
      simp [List.count_append, h.out j hj, this]
  · rw [if_neg hz]
    refine ⟨_, e.freed, rfl, by simp, ?_⟩
    have := h.setFile hc (f' := { f with refs := f.refs - 1 }) (c := data i) (k := cnt i - 1)
      (by omega) (by simp only [h3]; omega) (finv_refs h4 _)
    rw [upd_self_eq] at this
    exact this

/-- `new FileState()` followed by `Ref()`. -/
theorem newFile_ok {e : Env} {data cnt} (h : FilesInv e.files e.freed data cnt) :
    Ref (newFile e).2 (newFile e).1 =
        .ok { e with files := e.files ++ [some { FileState.new with refs := 1 }] } ∧
      FilesInv (e.files ++ [some { FileState.new with refs := 1 }]) e.freed
        (upd data e.files.length []) (upd cnt e.files.length 1) := by
  constructor
  · simp [Ref, newFile, getFile, bind, Except.bind, setFile, pure, Except.pure, FileState.new]
  · refine ⟨?_, ?_, ?_⟩
    · intro j hj h0
      by_cases e' : j = e.files.length
      · subst e'; rw [upd_same] at h0; omega
      · rw [upd_other _ _ e'] at h0
        have hj' : j < e.files.length := by simp at hj; omega
        rw [List.getElem?_append_left hj']
        exact h.zero j hj' h0
    · intro j hj h0
      by_cases e' : j = e.files.length
      · subst e'
        refine ⟨_, by rw [List.getElem?_concat_length], by rw [upd_same]; rfl, ?_, h.out _ (Nat.le_refl _)⟩
        rw [upd_same]
        exact finv_refs finv_new 1
      · rw [upd_other _ _ e'] at h0
        have hj' : j < e.files.length := by simp at hj; omega
        rw [List.getElem?_append_left hj', upd_other _ _ e', upd_other _ _ e']
        exact h.pos j hj' h0
    · intro j hj; simp at hj; exact h.out j (by omega)

end MemEnv
end Lsmdb
