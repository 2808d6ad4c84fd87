import Verif.Proof.MemConc6

/-!
# The methods of the Env
-/

namespace Lsmdb
namespace MemConc
open MemEnv Spec
open CacheConc (Tid Prog)

variable {t : Tid} {o : Op} {p : Phase} {i : Nat}

/-- What the holder of `mutex_` knows, and nothing else. -/
abbrev inEnv (w : EV) : View := ⟨some w, none, none, none, none, none, none⟩

/-- What the holder of `mutex_` knows after a moment. -/
def EV.after (w : EV) (fs : FS) : EV :=
  { w with name := fs.name, opened := fs.opened, made := fs.made, fobj := fun k => fs.obj (w.nobjs + k) }

/-- The file system as the holder of `mutex_` knows it. -/
structure Knows (w : EV) (fs : FS) : Prop where
  name : fs.name = w.name
  opened : fs.opened = w.opened
  made : fs.made = w.made
  obj : ∀ k, fs.obj (w.nobjs + k) = w.fobj k
  data : ∀ j, w.nfiles ≤ j → fs.data j = []

theorem Knows.after {w : EV} {fs : FS} (h : Knows w fs) : w.after fs = w := by
  unfold EV.after
  rw [h.name, h.opened, h.made]
  have : (fun k => fs.obj (w.nobjs + k)) = w.fobj := funext h.obj
  rw [this]

theorem Pre.knows {v : View} {S : Sh} {w : EV} (hS : Pre t o v p S) (hE : v.env = some w) : Knows w S.fs := by
  rw [hS.ev hE]
  exact ⟨rfl, rfl, rfl, fun _ => rfl, fun j hj => hS.inv.fresh j hj⟩

/-- The call takes effect, by the holder of `mutex_`. -/
theorem ok_momentEnv {c : Code} {w : EV} (hc : ¬ c.IsRet) (hl : ∀ l k, c ≠ .lock l k) (hs : ¬ IsSkip o)
    (h : ∀ fs : FS, Knows w fs → fs.Allowed o → ∃ r, fs.Answer o r ∧ (fs.next o).data = fs.data ∧
      (∀ k, k < w.nobjs → (fs.next o).obj k = fs.obj k) ∧ Ok t o c (inEnv (w.after (fs.next o))) (.done r)) :
    Ok t o c (inEnv w) .start := by
  refine ok_moment hc (fun l k e => absurd e (hl l k)) fun S hS => ?_
  obtain ⟨r, h1, h2, h3, h4⟩ := h S.fs (hS.knows rfl) (hS.allowed (by intro r e; cases e))
  have hn : w.nobjs = S.e.objs.length := by rw [hS.ev (w := w) rfl]; rfl
  refine ⟨S.fs.next o, .done r, .op hs h1, ⟨?_, ?_, ?_, ?_⟩, fun hr => absurd rfl (hr r), ?_, h4⟩
  · intro e; cases e
  · intro k hk hne; exact absurd (h3 k (by rw [hn]; exact hk)) hne
  · intro j hj; rw [h2] at hj; exact absurd rfl hj
  · intro j hj; rw [h2] at hj; exact absurd rfl hj
  · intro _ _ _ e; cases e

/-! ## NewSequentialFile, NewRandomAccessFile -/

/-- The state after the call has taken effect and before the file object is made. -/
theorem after_withObj {w : EV} (hw : Clean w) {fs : FS} (hk : Knows w fs) (x : Obj) :
    w.after (fs.withObj x) =
      { w with opened := w.opened + 1, fobj := upd w.fobj 0 (some x) } := by
  unfold EV.after FS.withObj
  simp only [hk.name, hk.opened, hk.made]
  congr 1
  funext k
  rw [← hw.nobjs]
  by_cases e : k = 0
  · subst e; rw [upd_same]; exact upd_same _ _ _
  · rw [upd_other _ _ e, upd_other _ _ (by omega), hk.obj]

theorem clean_pushed {w : EV} (hw : Clean w) (x : Obj) :
    Clean { w with opened := w.opened + 1, nobjs := w.nobjs + 1, fobj := fun j => upd w.fobj 0 (some x) (j + 1) } := by
  refine ⟨hw.sorted, hw.find, ?_, hw.nfiles, hw.rname, hw.robj, ?_⟩
  · show w.nobjs + 1 = w.opened + 1
    rw [hw.nobjs]
  · intro k
    exact (upd_other w.fobj (a := 0) (x := k + 1) (some x) (Nat.succ_ne_zero k)).trans (hw.fobj _)

theorem open_ok {n : Bytes} {mk : Nat → Obj} (hmk : ∀ i, (mk i).file = i) (hT : target o = none) (hd : o ≠ .destroyEnv)
    (hs : ¬ IsSkip o) (hA : ∀ fs : FS, fs.Allowed o → fs.opened + 2 < 2 ^ 31) (hAns : ∀ (fs : FS) r, fs.openAnswer n r → fs.Answer o r)
    (hN : ∀ fs : FS, fs.next o = match fs.name n with | none => fs | some i => fs.withObj (mk i)) :
    Ok t o (openCode n mk) {} .start := by
  refine ok_lockEnv hT hd rfl rfl rfl fun w hw => ?_
  refine ok_momentEnv (by intro h; exact h) (by intro l k h; cases h) hs fun fs hk ha => ?_
  have hf := hw.find n
  have hn : fs.name n = w.name n := by rw [hk.name]
  cases e : w.name n with
  | none =>
    rw [e] at hf hn
    refine ⟨.opened (FS.missing n) none, hAns _ _ (by unfold FS.openAnswer; rw [hn]), ?_, ?_, ?_⟩
    · rw [hN, hn]
    · intro k _; rw [hN, hn]
    · rw [hN, hn]
      simp only [hk.after]
      refine ok_find ?_
      rw [hf]
      exact ok_leave hw hd (by intro s h e; cases e)
  | some i =>
    rw [e] at hf hn
    have hb := hA fs ha
    rw [hk.opened] at hb
    refine ⟨.opened .ok (some fs.opened), hAns _ _ (by unfold FS.openAnswer; rw [hn]), ?_, ?_, ?_⟩
    · rw [hN, hn]; rfl
    · intro k hk'
      rw [hN, hn]
      exact upd_other _ _ (by rw [hk.opened, ← hw.nobjs]; omega)
    · rw [hN, hn]
      simp only [after_withObj hw hk]
      refine ok_find ?_
      simp only [hf, Option.map_some]
      refine ok_index hf ?_
      refine ok_newObj (hmk i) (.inl ⟨_, n, rfl, (hw.rname n).trans e⟩) hw.robj (upd_same w.fobj 0 _) (by rw [hw.nobjs]; exact hb) ?_
      rw [hk.opened]
      have e2 : w.nobjs = w.opened := hw.nobjs
      simp only [e2]
      refine ok_leave (by have := clean_pushed hw (mk i); rw [e2] at this; exact this) hd ?_
      intro s h e
      injection e with _ e
      injection e with e
      subst e
      exact Nat.lt_succ_self _

/-! ## NewWritableFile, NewAppendableFile -/

theorem newAppendable_ok {n : Bytes} : Ok t (.newAppendable n) (newAppendableCode n) {} .start := by
  refine ok_lockEnv rfl (by intro h; cases h) rfl rfl rfl fun w hw => ?_
  refine ok_momentEnv (by intro h; exact h) (by intro l k h; cases h) (by intro h; exact h) fun fs hk ha => ?_
  have hf := hw.find n
  have hn : fs.name n = w.name n := by rw [hk.name]
  obtain ⟨hb, hs⟩ := ha
  rw [hk.opened] at hb
  cases e : w.name n with
  | none => rw [hn, e] at hs; cases hs
  | some i =>
    rw [e] at hf hn
    have hN : fs.next (.newAppendable n) = fs.withObj (.wr i) := by simp only [FS.next, hn]
    refine ⟨.opened .ok (some fs.opened), rfl, by rw [hN]; rfl, ?_, ?_⟩
    · intro k hk'
      rw [hN]
      exact upd_other _ _ (by rw [hk.opened, ← hw.nobjs]; omega)
    · rw [hN, after_withObj hw hk]
      refine ok_index hf ?_
      refine ok_newObj rfl (.inl ⟨_, n, rfl, (hw.rname n).trans e⟩) hw.robj (upd_same w.fobj 0 _) (by rw [hw.nobjs]; exact hb) ?_
      rw [hk.opened]
      have e2 : w.nobjs = w.opened := hw.nobjs
      simp only [e2]
      refine ok_leave (by have := clean_pushed hw (.wr i); rw [e2] at this; exact this) (by intro h; cases h) ?_
      intro s h e
      injection e with _ e
      injection e with e
      subst e
      exact Nat.lt_succ_self _

theorem newWritable_ok {n : Bytes} : Ok t (.newWritable n) (newWritableCode n) {} .start := by
  refine ok_lockEnv rfl (by intro h; cases h) rfl rfl rfl fun w hw => ?_
  have hf := hw.find n
  have e2 : w.nobjs = w.opened := hw.nobjs
  have hd : Op.newWritable n ≠ .destroyEnv := by intro h; cases h
  cases e : w.name n with
  | none =>
    rw [e] at hf
    refine ok_momentEnv (by intro h; exact h) (by intro l k h; cases h) (by intro h; exact h) fun fs hk ha => ?_
    have hn : fs.name n = none := by rw [hk.name]; exact e
    have hb : fs.opened + 2 < 2 ^ 31 := ha
    rw [hk.opened] at hb
    let fs1 : FS := { fs with name := upd fs.name n (some fs.made), data := upd fs.data fs.made [], made := fs.made + 1 }
    have hN : fs.next (.newWritable n) = fs1.withObj (.wr fs.made) := by simp only [FS.next, hn]; rfl
    refine ⟨.opened .ok (some fs.opened), rfl, ?_, ?_, ?_⟩
    · rw [hN]
      show upd fs.data fs.made [] = fs.data
      exact (upd_self (hk.data _ (by rw [hk.made, hw.nfiles]; exact Nat.le_refl _))).symm
    · intro k hk'
      rw [hN]
      exact upd_other _ _ (by show k ≠ fs.opened; rw [hk.opened, ← hw.nobjs]; omega)
    · rw [hN]
      have hwa : w.after (fs1.withObj (.wr fs.made)) =
          { w with name := upd w.name n (some w.nfiles), opened := w.opened + 1, made := w.made + 1,
                   fobj := upd w.fobj 0 (some (.wr w.nfiles)) } := by
        unfold EV.after FS.withObj
        simp only [fs1, hk.name, hk.opened, hk.made, hw.nfiles]
        congr 1
        funext k
        rw [← e2]
        by_cases ek : k = 0
        · subst ek; rw [upd_same]; exact upd_same _ _ _
        · rw [upd_other _ _ ek, upd_other _ _ (by omega), hk.obj]
      rw [hwa]
      refine ok_find ?_
      simp only [hf, Option.map_none]
      refine ok_alloc rfl rfl rfl ?_
      refine ok_refName (m := n) ((hw.rname n).trans e) ?_
      refine ok_map (b := ()) (m := mapSet w.map n (some w.nfiles)) rfl (fun e' he => ?_) ?_
      · simp only [assign, he]
      refine ok_newObj rfl (.inl ⟨_, n, rfl, upd_same _ _ _⟩) hw.robj (upd_same w.fobj 0 _) (by rw [e2]; exact hb) ?_
      rw [hk.opened]
      simp only [e2]
      refine ok_leave ⟨sorted_mapSet hw.sorted _ _, ?_, rfl, ?_, ?_, hw.robj, ?_⟩ hd ?_
      · intro m
        rw [mapFind_mapSet _ hw.sorted]
        by_cases em : m = n
        · subst em; rw [if_pos rfl]; simp only [upd_same]; rfl
        · rw [if_neg em]; simp only [upd_other _ _ em]; exact hw.find m
      · show w.nfiles + 1 = w.made + 1
        rw [hw.nfiles]
      · intro m
        by_cases em : m = n
        · subst em; simp only [upd_same]
        · simp only [upd_other _ _ em, hw.rname]
      · intro k
        exact (upd_other w.fobj (a := 0) (x := k + 1) (some (.wr w.nfiles)) (Nat.succ_ne_zero k)).trans (hw.fobj _)
      · intro s h e
        injection e with _ e
        injection e with e
        subst e
        exact Nat.lt_succ_self _
  | some i =>
    rw [e] at hf
    refine ok_find ?_
    simp only [hf, Option.map_some]
    have hj : Just (inEnv w) i := .inl ⟨_, n, rfl, (hw.rname n).trans e⟩
    refine ok_withBlocks hj rfl rfl rfl fun c d hc hl => ⟨(), ⟨[], 0⟩, run_truncate c, ?_⟩
    refine ok_moment (by intro h; exact h) (by intro l k h; cases h) fun S hS => ?_
    have hk : Knows w S.fs := hS.knows rfl
    have hn : S.fs.name n = some i := by rw [hk.name]; exact e
    have hb : S.fs.opened + 2 < 2 ^ 31 := hS.allowed (by intro r h; cases h)
    rw [hk.opened] at hb
    let fs1 : FS := { S.fs with data := upd S.fs.data i [] }
    have hN : S.fs.next (.newWritable n) = fs1.withObj (.wr i) := by simp only [FS.next, hn]; rfl
    have hno : w.nobjs = S.e.objs.length := by rw [hS.ev (w := w) rfl]; rfl
    have hdat : ∀ j, (fs1.withObj (.wr i)).data j ≠ S.fs.data j → j = i := by
      intro j hj
      refine Classical.byContradiction fun hne => hj ?_
      exact upd_other _ _ hne
    refine ⟨fs1.withObj (.wr i), .done (.opened .ok (some S.fs.opened)), ?_, ⟨?_, ?_, ?_, ?_⟩, fun hr => absurd rfl (hr _), ?_, ?_⟩
    · rw [← hN]; exact .op (by intro h; exact h) rfl
    · intro h; cases h
    · intro k hk' hne
      refine absurd (upd_other _ _ ?_) hne
      show k ≠ S.fs.opened
      rw [hk.opened, ← hw.nobjs, hno]
      omega
    · intro j hj; exact ⟨_, rfl, (hdat j hj).symm⟩
    · intro j hj
      rw [hdat j hj]
      show (upd S.fs.data i [] i).length < _
      rw [upd_same]
      exact Nat.two_pow_pos 64
    · intro _ _ _ h; cases h
    · have hwa : w.after (fs1.withObj (.wr i)) =
          { w with opened := w.opened + 1, fobj := upd w.fobj 0 (some (.wr i)) } := by
        unfold EV.after FS.withObj
        simp only [fs1, hk.name, hk.opened, hk.made]
        congr 1
        funext k
        rw [← e2]
        by_cases ek : k = 0
        · subst ek; rw [upd_same]; exact upd_same _ _ _
        · rw [upd_other _ _ ek, upd_other _ _ (by omega), hk.obj]
      have hva : (⟨some w, none, none, some ⟨i, ⟨[], 0⟩, d⟩, none, none, none⟩ : View).after (fs1.withObj (.wr i)) =
          ⟨some (w.after (fs1.withObj (.wr i))), none, none, some ⟨i, ⟨[], 0⟩, []⟩, none, none, none⟩ := by
        unfold View.after
        simp only [Option.map_some, Option.map_none]
        have : (fs1.withObj (.wr i)).data i = [] := upd_same _ _ _
        rw [this]
        rfl
      rw [hva, hwa]
      refine ok_unlockB rfl holds_nil ?_
      refine ok_newObj rfl (.inl ⟨_, n, rfl, (hw.rname n).trans e⟩) hw.robj (upd_same w.fobj 0 _) (by rw [e2]; exact hb) ?_
      rw [hk.opened]
      simp only [e2]
      refine ok_leave (by have := clean_pushed hw (.wr i); rw [e2] at this; exact this) hd ?_
      intro s h e
      injection e with _ e
      injection e with e
      subst e
      exact Nat.lt_succ_self _

/-! ## FileExists, GetChildren, CreateDir, RemoveDir -/

theorem fileExists_ok {n : Bytes} : Ok t (.fileExists n) (code (.fileExists n)) {} .start := by
  refine ok_lockEnv rfl (by intro h; cases h) rfl rfl rfl fun w hw => ?_
  refine ok_momentEnv (by intro h; exact h) (by intro l k h; cases h) (by intro h; exact h) fun fs hk ha => ?_
  refine ⟨_, rfl, rfl, fun _ _ => rfl, ?_⟩
  show Ok _ _ _ (inEnv (w.after fs)) _
  rw [hk.after]
  refine ok_find ?_
  have : (mapFind w.map n).isSome = (fs.name n).isSome := by rw [hw.find, hk.name]; simp
  rw [this]
  exact ok_leave hw (by intro h; cases h) (by intro s h e; cases e)

/-- The children listed from position `k` on. -/
def kids (dir : Bytes) (m : FileMap) : List Bytes :=
  (m.filter (fun e => decide (dir ++ [47] <+: e.1))).map (fun e => e.1.drop (dir.length + 1))

theorem childrenLoop_ok {dir : Bytes} {w : EV} (hw : Clean w) : ∀ fuel k result, w.map.length < k + fuel → k ≤ w.map.length →
    Ok t (.getChildren dir) (childrenLoopCode dir fuel k result) (inEnv w)
      (.done (.list .ok (result ++ kids dir (w.map.drop k)))) := by
  intro fuel
  induction fuel with
  | zero => intro k result h1 h2; omega
  | succ fuel ih =>
    intro k result h1 h2
    refine ok_map (m := w.map) (b := w.map[k]?) rfl (fun e he => by rw [← he]) ?_
    cases e : w.map[k]? with
    | none =>
      have : w.map.length ≤ k := List.getElem?_eq_none_iff.mp e
      rw [List.drop_eq_nil_of_le this]
      simp only [kids, List.filter_nil, List.map_nil, List.append_nil]
      exact ok_leave hw (by intro h; cases h) (by intro s h e; cases e)
    | some x =>
      obtain ⟨filename, q⟩ := x
      obtain ⟨hlt, hx⟩ := List.getElem?_eq_some_iff.mp e
      refine ok_map (m := w.map) (b := decide (dir ++ [47] <+: filename)) rfl (fun e he => ?_) ?_
      · have he' : e.map = w.map := he
        rw [← he']; simp only [childTest_eq]; rfl
      have hdrop : w.map.drop k = (filename, q) :: w.map.drop (k + 1) := by
        rw [← hx]; exact List.drop_eq_getElem_cons hlt
      have hk : result ++ kids dir (w.map.drop k) =
          (if decide (dir ++ [47] <+: filename) then result ++ [filename.drop (dir.length + 1)] else result) ++
            kids dir (w.map.drop (k + 1)) := by
        rw [hdrop]
        unfold kids
        rw [List.filter_cons]
        by_cases hp : dir ++ [47] <+: filename
        · simp only [hp, decide_true, if_true, List.map_cons, List.append_assoc, List.cons_append, List.nil_append]
        · simp only [hp, decide_false]
          rfl
      rw [hk]
      exact ih (k + 1) _ (by omega) hlt

theorem getChildren_ok {dir : Bytes} : Ok t (.getChildren dir) (getChildrenCode dir) {} .start := by
  refine ok_lockEnv rfl (by intro h; cases h) rfl rfl rfl fun w hw => ?_
  refine ok_momentEnv (by intro h; exact h) (by intro l k h; cases h) (by intro h; exact h) fun fs hk ha => ?_
  refine ⟨.list .ok (kids dir w.map), ⟨_, rfl, children_sorted dir hw.sorted, fun s => ?_⟩, rfl, fun _ _ => rfl, ?_⟩
  · unfold kids
    rw [children_mem, hw.find, hk.name]
    simp
  · show Ok _ _ _ (inEnv (w.after fs)) _
    rw [hk.after]
    refine ok_map (m := w.map) (b := w.map.length) rfl (fun e he => by rw [← he]) ?_
    have := childrenLoop_ok (t := t) (dir := dir) hw (w.map.length + 1) 0 [] (by omega) (Nat.zero_le _)
    simp only [List.drop_zero, List.nil_append] at this
    exact this

theorem nop_ok {r : Res} (hs : ¬ IsSkip o) (hr : ∀ r', r' = r → ∀ fs : FS, fs.Answer o r') (hN : ∀ fs : FS, fs.next o = fs) (hn : ∀ s h, r ≠ .opened s (some h)) :
    Ok t o (.act (fun e => .ok (e, ())) fun _ => .ret r) {} .start := by
  refine ok_moment (by intro h; exact h) (by intro l k h; cases h) fun S hS => ?_
  refine ⟨S.fs, .done r, ?_, Frame.refl _ _ _, fun h => absurd rfl (h r), ?_, ?_⟩
  · have := Moment.op (o := o) (r := r) hs (hr r rfl S.fs)
    rw [hN] at this
    exact this
  · intro s x e
    injection e with e
    exact absurd e (hn s x)
  · exact ok_read fun S _ => ⟨(), rfl, ok_ret (by intro x hx; cases hx)⟩

/-! ## RemoveFile, GetFileSize, RenameFile -/

theorem removeInternal_ok {n : Bytes} {w : EV} {k : Code} (hf : mapFind w.map n = (w.rname n).map some)
    (h : Ok t o k (inEnv { w with map := mapErase w.map n, rname := upd w.rname n none }) p) :
    Ok t o (removeInternalCode n k) (inEnv w) p := by
  refine ok_find ?_
  cases e : w.rname n with
  | none =>
    rw [e] at hf
    simp only [hf, Option.map_none]
    rw [← upd_self e, mapErase_absent (mapFind_none hf)] at h
    exact h
  | some i =>
    rw [e] at hf
    simp only [hf, Option.map_some]
    refine ok_index hf ?_
    refine ok_unrefName e ?_
    refine ok_map (b := ()) (m := mapErase w.map n) rfl (fun e' he => ?_) h
    simp only [erase, he]

theorem remove_ok {n : Bytes} : Ok t (.removeFile n) (removeCode n) {} .start := by
  have hd : Op.removeFile n ≠ .destroyEnv := by intro h; cases h
  refine ok_lockEnv rfl hd rfl rfl rfl fun w hw => ?_
  refine ok_momentEnv (by intro h; exact h) (by intro l k h; cases h) (by intro h; exact h) fun fs hk ha => ?_
  have hf := hw.find n
  refine ⟨_, rfl, rfl, fun _ _ => rfl, ?_⟩
  have hwa : w.after (fs.next (.removeFile n)) = { w with name := upd w.name n none } := by
    unfold EV.after FS.next
    simp only [hk.name, hk.opened, hk.made]
    have : (fun k => fs.obj (w.nobjs + k)) = w.fobj := funext hk.obj
    rw [this]
  rw [hwa, hk.name]
  refine ok_find ?_
  cases e : w.name n with
  | none =>
    rw [e] at hf
    simp only [hf, Option.map_none]
    have hu : upd w.name n none = w.name := (upd_self e).symm
    rw [hu]
    exact ok_leave hw hd (by intro s h e; cases e)
  | some i =>
    rw [e] at hf
    simp only [hf, Option.map_some]
    refine removeInternal_ok (by rw [hw.rname, e]; exact hf) ?_
    refine ok_leave ⟨sorted_mapErase hw.sorted _, ?_, hw.nobjs, hw.nfiles, ?_, hw.robj, hw.fobj⟩ hd (by intro s h e; cases e)
    · intro m
      rw [mapFind_mapErase]
      by_cases em : m = n
      · subst em; rw [if_pos rfl]; simp only [upd_same]; rfl
      · rw [if_neg em]; simp only [upd_other _ _ em]; exact hw.find m
    · intro m
      by_cases em : m = n
      · subst em; simp only [upd_same]
      · simp only [upd_other _ _ em, hw.rname]

theorem getFileSize_ok {n : Bytes} : Ok t (.getFileSize n) (getFileSizeCode n) {} .start := by
  have hd : Op.getFileSize n ≠ .destroyEnv := by intro h; cases h
  refine ok_lockEnv rfl hd rfl rfl rfl fun w hw => ?_
  have hf := hw.find n
  cases e : w.name n with
  | none =>
    rw [e] at hf
    refine ok_momentEnv (by intro h; exact h) (by intro l k h; cases h) (by intro h; exact h) fun fs hk ha => ?_
    have hn : fs.name n = none := by rw [hk.name]; exact e
    refine ⟨.size (FS.missing n) none, by simp only [FS.Answer, hn], rfl, fun _ _ => rfl, ?_⟩
    show Ok _ _ _ (inEnv (w.after fs)) _
    rw [hk.after]
    refine ok_find ?_
    simp only [hf, Option.map_none]
    exact ok_leave hw hd (by intro s h e; cases e)
  | some i =>
    rw [e] at hf
    refine ok_find ?_
    simp only [hf, Option.map_some]
    refine ok_index hf ?_
    have hj : Just (inEnv w) i := .inl ⟨_, n, rfl, (hw.rname n).trans e⟩
    refine ok_withBlocks hj rfl rfl rfl fun c d hc hl => ⟨c.size, c, run_size c, ?_⟩
    refine ok_moment (by intro h; exact h) (by intro l k h; cases h) fun S hS => ?_
    have hk : Knows w S.fs := hS.knows rfl
    have hn : S.fs.name n = some i := by rw [hk.name]; exact e
    have hdat : S.fs.data i = d := hS.data rfl
    refine ⟨S.fs, .done (.size .ok (some c.size)), ?_, Frame.refl _ _ _, fun h => absurd rfl (h _), (by intro s x e; cases e), ?_⟩
    · refine Moment.op (o := .getFileSize n) (by intro h; exact h) ?_
      simp only [FS.Answer, hn, hdat, holds_size hc]
    · have hva : (⟨some w, none, none, some ⟨i, c, d⟩, none, none, none⟩ : View).after S.fs =
          ⟨some (w.after S.fs), none, none, some ⟨i, c, d⟩, none, none, none⟩ := by
        unfold View.after
        simp only [Option.map_some, Option.map_none, hdat]
        rfl
      rw [hva, hk.after]
      refine ok_unlockB rfl hc ?_
      exact ok_leave hw hd (by intro s h e; cases e)

theorem rename_ok {a b : Bytes} : Ok t (.renameFile a b) (renameCode a b) {} .start := by
  have hd : Op.renameFile a b ≠ .destroyEnv := by intro h; cases h
  refine ok_lockEnv rfl hd rfl rfl rfl fun w hw => ?_
  refine ok_momentEnv (by intro h; exact h) (by intro l k h; cases h) (by intro h; exact h) fun fs hk ha => ?_
  have hf := hw.find a
  have hn : fs.name a = w.name a := by rw [hk.name]
  cases e : w.name a with
  | none =>
    rw [e] at hf hn
    have hN : fs.next (.renameFile a b) = fs := by simp only [FS.next, hn]
    refine ⟨.status (FS.missing a), by simp only [FS.Answer, hn]; rfl, by rw [hN], fun _ _ => by rw [hN], ?_⟩
    rw [hN, hk.after]
    refine ok_find ?_
    simp only [hf, Option.map_none]
    exact ok_leave hw hd (by intro s h e; cases e)
  | some i =>
    rw [e] at hf hn
    have hab : a ≠ b := by
      rcases ha with ha | ha
      · exact ha
      · rw [hn] at ha; cases ha
    have hN : fs.next (.renameFile a b) = { fs with name := upd (upd fs.name b (some i)) a none } := by
      simp only [FS.next, hn, if_neg hab]
    refine ⟨.status .ok, by simp only [FS.Answer, hn]; rfl, by rw [hN], fun _ _ => by rw [hN], ?_⟩
    have hwa : w.after { fs with name := upd (upd fs.name b (some i)) a none } =
        { w with name := upd (upd w.name b (some i)) a none } := by
      unfold EV.after
      simp only [hk.name, hk.opened, hk.made]
      have : (fun k => fs.obj (w.nobjs + k)) = w.fobj := funext hk.obj
      rw [this]
    rw [hN, hwa]
    refine ok_find ?_
    simp only [hf, Option.map_some]
    refine removeInternal_ok (by rw [hw.rname]; exact hw.find b) ?_
    have hf2 : mapFind (mapErase w.map b) a = some (some i) := by
      rw [mapFind_mapErase, if_neg hab]; exact hf
    refine ok_index hf2 ?_
    refine ok_moveName (a := a) (b := b) (i := i) (by intro h; exact h) (by intro l k h; cases h) rfl rfl ?_ (upd_same _ _ _) ⟨_, rfl⟩ ?_
    · exact (upd_other w.rname (a := b) (x := a) none hab).trans ((hw.rname a).trans e)
    refine ok_map (b := ()) (m := mapSet (mapErase w.map b) b (some i)) rfl (fun e' he => ?_) ?_
    · simp only [assign, he]
    refine ok_map (b := ()) (m := mapErase (mapSet (mapErase w.map b) b (some i)) a) rfl (fun e' he => ?_) ?_
    · simp only [erase, he]
    have hs1 := sorted_mapErase hw.sorted b
    have hs2 := sorted_mapSet hs1 b (some i)
    refine ok_leave ⟨sorted_mapErase hs2 _, ?_, hw.nobjs, hw.nfiles, ?_, hw.robj, hw.fobj⟩ hd (by intro s h e; cases e)
    · intro m
      rw [mapFind_mapErase, mapFind_mapSet _ hs1, mapFind_mapErase]
      by_cases em : m = a
      · subst em; rw [if_pos rfl]; simp only [upd_same]; rfl
      · rw [if_neg em]
        simp only [upd_other _ _ em]
        by_cases eb : m = b
        · subst eb; rw [if_pos rfl]; simp only [upd_same]; rfl
        · rw [if_neg eb, if_neg eb]; simp only [upd_other _ _ eb]; exact hw.find m
    · intro m
      by_cases em : m = a
      · subst em; simp only [upd_same]
      · simp only [upd_other _ _ em]
        by_cases eb : m = b
        · subst eb; simp only [upd_same]
        · simp only [upd_other _ _ eb, hw.rname]

end MemConc
end Lsmdb
