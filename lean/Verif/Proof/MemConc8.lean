import Verif.Proof.MemConc7

/-!
# The destruction of the Env, and the methods of the file objects
-/

namespace Lsmdb
namespace MemConc
open MemEnv Spec
open CacheConc (Tid Prog)

variable {t : Tid} {o : Op} {p : Phase} {i : Nat}

/-! ## ~InMemoryEnv -/

theorem destroyLoop_ok {w : EV} {nm : Bytes → Option Nat} {done : Code} (hs : Sorted w.map) (hf : ∀ n, mapFind w.map n = (nm n).map some)
    (hdone : Ok t o done (inEnv { w with rname := fun _ => none }) p) : ∀ fuel k (r : Bytes → Option Nat), w.map.length < k + fuel →
    k ≤ w.map.length → (∀ n, r n = if n ∈ (w.map.drop k).map Prod.fst then nm n else none) →
    Ok t o (destroyLoopCode fuel k done) (inEnv { w with rname := r }) p := by
  intro fuel
  induction fuel with
  | zero => intro k r h1 h2; omega
  | succ fuel ih =>
    intro k r h1 h2 hr
    refine ok_map (m := w.map) (b := w.map[k]?) rfl (fun e he => by
      have he' : e.map = w.map := he
      rw [← he']) ?_
    cases e : w.map[k]? with
    | none =>
      have : w.map.length ≤ k := List.getElem?_eq_none_iff.mp e
      rw [List.drop_eq_nil_of_le this] at hr
      have : r = fun _ => none := by
        funext n; rw [hr]; simp
      subst this
      exact hdone
    | some x =>
      obtain ⟨n, q⟩ := x
      obtain ⟨hlt, hx⟩ := List.getElem?_eq_some_iff.mp e
      have hdrop : w.map.drop k = (n, q) :: w.map.drop (k + 1) := by
        rw [← hx]; exact List.drop_eq_getElem_cons hlt
      have hmem : (n, q) ∈ w.map := by rw [← hx]; exact List.getElem_mem _
      have hfind : mapFind w.map n = some q := mapFind_of_mem hs hmem
      have hnm := hf n
      rw [hfind] at hnm
      cases en : nm n with
      | none => rw [en] at hnm; cases hnm
      | some j =>
        rw [en] at hnm
        injection hnm with hq
        subst hq
        have hrn : r n = some j := by
          rw [hr, if_pos, en]
          rw [hdrop]; simp
        refine ok_unrefName (m := n) hrn ?_
        refine ih (k + 1) (upd r n none) (by omega) hlt fun m => ?_
        by_cases em : m = n
        · subst em
          rw [upd_same, if_neg]
          intro hm
          obtain ⟨⟨a, b⟩, hab, rfl⟩ := List.mem_map.mp hm
          have hs' : Sorted (w.map.drop k) := hs.sublist (List.drop_sublist _ _)
          rw [hdrop] at hs'
          have hlt := List.rel_of_pairwise_cons hs' hab
          rw [strLt_irrefl] at hlt
          cases hlt
        · rw [upd_other _ _ em, hr, hdrop]
          simp [em]

theorem destroy_ok {w : EV} (hw : Clean w) : Ok t .destroyEnv (code .destroyEnv) (inEnv w) .start := by
  refine ok_momentEnv (by intro h; exact h) (by intro l k h; cases h) (by intro h; exact h) fun fs hk ha => ?_
  refine ⟨.unit, rfl, rfl, fun _ _ => rfl, ?_⟩
  have hwa : w.after (fs.next .destroyEnv) = { w with name := fun _ => none } := by
    unfold EV.after FS.next
    simp only [hk.opened, hk.made]
    have : (fun k => fs.obj (w.nobjs + k)) = w.fobj := funext hk.obj
    rw [this]
  rw [hwa]
  refine ok_map (m := w.map) (b := w.map.length) rfl (fun e he => by
    have he' : e.map = w.map := he
    rw [← he']) ?_
  refine destroyLoop_ok (w := { w with name := fun _ => none }) (nm := w.name) hw.sorted hw.find ?_ (w.map.length + 1) 0 w.rname
    (by show w.map.length < _; omega) (Nat.zero_le _) fun n => ?_
  · refine ok_map (b := ()) (m := []) rfl (fun e he => rfl) ?_
    refine ok_gone rfl ⟨List.Pairwise.nil, fun n => rfl, hw.nobjs, hw.nfiles, fun _ => rfl, hw.robj, hw.fobj⟩ rfl rfl
      (by intro s h e; cases e) ?_
    exact ok_ret (by intro x hx; cases hx)
  · rw [hw.rname]
    simp only [List.drop_zero]
    split
    · rfl
    · rename_i hn
      cases e : w.name n with
      | none => rfl
      | some i =>
        have := hw.find n
        rw [e] at this
        exact absurd (List.mem_map.mpr ⟨_, mapFind_mem this, rfl⟩) hn

/-! ## SequentialFile -/

/-- What the owner of file object `h` knows. -/
abbrev inObj (h : Nat) (c a : Option Obj) (r : Option Nat) : View := ⟨none, some ⟨h, c, a, r⟩, none, none, none, none, none⟩

/-- The same with `blocks_mutex_`. -/
abbrev inObjB (h : Nat) (c a : Option Obj) (r : Option Nat) (i : Nat) (k : Content) (d : Bytes) : View :=
  ⟨none, some ⟨h, c, a, r⟩, none, some ⟨i, k, d⟩, none, none, none⟩

theorem Pre.objs {v : View} {S : Sh} {x : OV} (hS : Pre t o v p S) (hv : v.obj = some x) :
    S.e.objs[x.h]? = some x.conc ∧ S.fs.obj x.h = x.abs := by
  obtain ⟨h1, h2, _⟩ := hS.inv.obj.snap t x (hS.vObj.trans hv)
  exact ⟨h1, h2⟩

theorem frame_obj {h : Nat} {c a' : Option Obj} {r : Option Nat} {b : Option BV} {n : Nat} (hh : h < n) (fs : FS) (a : Option Obj) :
    Frame ⟨none, some ⟨h, c, a', r⟩, none, b, none, none, none⟩ n fs { fs with obj := upd fs.obj h a } := by
  refine ⟨fun _ => ⟨rfl, rfl, rfl, fun k hk => upd_other _ _ (by omega)⟩, fun k _ hne => ⟨_, rfl, ?_⟩, fun _ h => absurd rfl h,
    fun _ h => absurd rfl h⟩
  refine Classical.byContradiction fun e => hne (upd_other _ _ (Ne.symm e))

theorem seqRead_ok {h n : Nat} {a : Option Obj} : Ok t (.seqRead h n) (seqReadCode h n) (inObj h a a (a.map Obj.file)) .start := by
  refine ok_read fun S hS => ?_
  obtain ⟨h1, h2⟩ := hS.objs (x := ⟨h, a, a, a.map Obj.file⟩) rfl
  have h1' : S.e.objs[h]? = some a := h1
  have h2' : S.fs.obj h = a := h2
  obtain ⟨i, pos, ha⟩ := hS.allowed (by intro r e; cases e)
  rw [h2'] at ha
  subst ha
  refine ⟨(i, pos), by simp only [getSeq, getObj, h1', bind, Except.bind]; rfl, ?_⟩
  clear h1 h2 h1' h2' hS S
  refine ok_withBlocks (.inr (.inl ⟨_, rfl, rfl⟩)) rfl rfl rfl fun c d hc hl => ⟨_, c, read_ok hc hl pos n, ?_⟩
  refine ok_moment (by intro h; exact h) (by intro l k h; cases h) fun S hS => ?_
  have h2 : S.fs.obj h = some (.seq i pos) := (hS.objs (x := ⟨h, _, some (.seq i pos), _⟩) rfl).2
  have h1 : h < S.e.objs.length := (List.getElem?_eq_some_iff.mp (hS.objs (x := ⟨h, _, some (.seq i pos), _⟩) rfl).1).1
  have hd : S.fs.data i = d := hS.data rfl
  by_cases hp : pos ≤ d.length
  · refine ⟨_, _, .op (o := .seqRead h n) (r := .data .ok (some (sub d pos n))) (by intro h; exact h) ?_, ?_, fun h => absurd rfl (h _),
      (by intro s x e; cases e), ?_⟩
    · simp only [FS.Answer, h2, FS.readAnswer, hd, if_pos hp]
    · simp only [FS.next, h2, hd, if_pos hp]
      exact frame_obj h1 _ _
    · have hva : (inObjB h (some (.seq i pos)) (some (.seq i pos)) (some i) i c d).after (S.fs.next (.seqRead h n)) =
          inObjB h (some (.seq i pos)) (some (.seq i (pos + (sub d pos n).length))) (some i) i c d := by
        simp only [FS.next, h2, hd, if_pos hp, View.after, Option.map_some, Option.map_none, upd_same]
      refine cast (congrArg (fun v => Ok _ _ _ v _) hva.symm) ?_
      refine ok_unlockB rfl hc ?_
      simp only [if_pos hp]
      refine ok_setObj (b := ()) (c := some (.seq i (pos + (sub d pos n).length))) rfl (fun e he => ?_) ?_
      · have he' : e.objs[h]? = some (some (.seq i pos)) := he
        simp only [setPos, getObj, he', bind, Except.bind]; rfl
      · refine ok_ret ?_
        intro x hx
        injection hx with hx
        subst hx
        exact ⟨rfl, rfl⟩
  · refine ⟨_, _, .op (o := .seqRead h n) (r := .data FS.beyond none) (by intro h; exact h) ?_, ?_, fun h => absurd rfl (h _),
      (by intro s x e; cases e), ?_⟩
    · simp only [FS.Answer, h2, FS.readAnswer, hd, if_neg hp]
    · simp only [FS.next, h2, hd, if_neg hp]
      exact Frame.refl _ _ _
    · have hva : (inObjB h (some (.seq i pos)) (some (.seq i pos)) (some i) i c d).after (S.fs.next (.seqRead h n)) =
          inObjB h (some (.seq i pos)) (some (.seq i pos)) (some i) i c d := by
        simp only [FS.next, h2, hd, if_neg hp, View.after, Option.map_some, Option.map_none]
      refine cast (congrArg (fun v => Ok _ _ _ v _) hva.symm) ?_
      refine ok_unlockB rfl hc ?_
      simp only [if_neg hp, FS.beyond]
      refine ok_ret ?_
      intro x hx
      injection hx with hx
      subst hx
      exact ⟨rfl, rfl⟩

theorem skipMove_eq {pos len n : Nat} (hp : pos ≤ len) (hl : len < 2 ^ 64) : skipMove pos len n = min (pos + n) len := by
  unfold skipMove
  have h1 : (len + 2 ^ 64 - pos) % 2 ^ 64 = len - pos := by
    have : len + 2 ^ 64 - pos = (len - pos) + 2 ^ 64 := by omega
    rw [this, Nat.add_mod_right, Nat.mod_eq_of_lt (by omega)]
  simp only [h1]
  split
  · rw [Nat.mod_eq_of_lt (by omega)]; omega
  · rw [Nat.mod_eq_of_lt (by omega)]; omega

theorem seqSkip_ok {h n : Nat} {a : Option Obj} : Ok t (.seqSkip h n) (seqSkipCode h n) (inObj h a a (a.map Obj.file)) .start := by
  refine ok_read fun S hS => ?_
  obtain ⟨h1, h2⟩ := hS.objs (x := ⟨h, a, a, a.map Obj.file⟩) rfl
  have h1' : S.e.objs[h]? = some a := h1
  have h2' : S.fs.obj h = a := h2
  obtain ⟨i, pos, ha⟩ := hS.allowed (by intro r e; cases e)
  rw [h2'] at ha
  subst ha
  refine ⟨(i, pos), by simp only [getSeq, getObj, h1', bind, Except.bind]; rfl, ?_⟩
  clear h1 h2 h1' h2' hS S
  refine ok_withBlocks (.inr (.inl ⟨_, rfl, rfl⟩)) rfl rfl rfl fun c d hc hl => ⟨_, c, run_size c, ?_⟩
  have hread : ∀ {next : Nat × Nat → Code} {p : Phase}, Ok t (.seqSkip h n) (next (i, pos)) (inObj h (some (.seq i pos)) (some (.seq i pos)) (some i)) p →
      Ok t (.seqSkip h n) (.act (getSeq h) next) (inObj h (some (.seq i pos)) (some (.seq i pos)) (some i)) p := by
    intro next p hk
    refine ok_read fun S hS => ⟨(i, pos), ?_, hk⟩
    have h1 : S.e.objs[h]? = some (some (.seq i pos)) := (hS.objs (x := ⟨h, some (.seq i pos), some (.seq i pos), _⟩) rfl).1
    simp only [getSeq, getObj, h1, bind, Except.bind]; rfl
  refine ok_moment (by intro h; exact h) (by intro l k h; cases h) fun S hS => ?_
  have h2 : S.fs.obj h = some (.seq i pos) := (hS.objs (x := ⟨h, _, some (.seq i pos), _⟩) rfl).2
  have hd : S.fs.data i = d := hS.data rfl
  have hva : (inObjB h (some (.seq i pos)) (some (.seq i pos)) (some i) i c d).after S.fs =
      inObjB h (some (.seq i pos)) (some (.seq i pos)) (some i) i c d := by
    simp only [View.after, Option.map_some, Option.map_none, h2, hd]
  by_cases hp : pos ≤ d.length
  · refine ⟨S.fs, .checked, .check rfl h2 (by rw [hd]; exact hp), Frame.refl _ _ _, fun _ => ⟨i, pos, h2⟩,
      (by intro s x e; cases e), ?_⟩
    refine cast (congrArg (fun v => Ok _ _ _ v _) hva.symm) ?_
    clear hva h2 hd hS S
    refine ok_unlockB rfl hc ?_
    refine hread ?_
    have : skipCheck pos c.size = none := by
      unfold skipCheck
      rw [if_neg]
      rw [holds_size hc]; omega
    simp only [this]
    refine ok_withBlocks (.inr (.inl ⟨_, rfl, rfl⟩)) rfl rfl rfl fun c d hc hl => ⟨_, c, run_size c, ?_⟩
    refine ok_moment (by intro h; exact h) (by intro l k h; cases h) fun S hS => ?_
    have h2 : S.fs.obj h = some (.seq i pos) := (hS.objs (x := ⟨h, _, some (.seq i pos), _⟩) rfl).2
    have h1 : h < S.e.objs.length := (List.getElem?_eq_some_iff.mp (hS.objs (x := ⟨h, _, some (.seq i pos), _⟩) rfl).1).1
    have hd : S.fs.data i = d := hS.data rfl
    refine ⟨_, _, .move (pos' := skipMove pos c.size n) rfl h2 ?_, frame_obj h1 _ _, fun h => absurd rfl (h _),
      (by intro s x e; cases e), ?_⟩
    · intro hle
      rw [hd] at hle ⊢
      rw [holds_size hc, skipMove_eq hle hl]
    · have hva : (inObjB h (some (.seq i pos)) (some (.seq i pos)) (some i) i c d).after
          { S.fs with obj := upd S.fs.obj h (some (.seq i (skipMove pos c.size n))) } =
          inObjB h (some (.seq i pos)) (some (.seq i (skipMove pos c.size n))) (some i) i c d := by
        simp only [View.after, Option.map_some, Option.map_none, hd, upd_same]
      refine cast (congrArg (fun v => Ok _ _ _ v _) hva.symm) ?_
      refine ok_unlockB rfl hc ?_
      refine ok_setObj (b := ()) (c := some (.seq i (skipMove pos c.size n))) rfl (fun e he => ?_) ?_
      · have he' : e.objs[h]? = some (some (.seq i pos)) := he
        simp only [setPos, getObj, he', bind, Except.bind]; rfl
      · refine ok_ret ?_
        intro x hx
        injection hx with hx
        subst hx
        exact ⟨rfl, rfl⟩
  · refine ⟨S.fs, .done (.status FS.skipBeyond), .beyond rfl h2 (by rw [hd]; omega), Frame.refl _ _ _, fun h => absurd rfl (h _),
      (by intro s x e; cases e), ?_⟩
    refine cast (congrArg (fun v => Ok _ _ _ v _) hva.symm) ?_
    refine ok_unlockB rfl hc ?_
    refine hread ?_
    have : skipCheck pos c.size = some FS.skipBeyond := by
      unfold skipCheck
      rw [if_pos]
      · rfl
      · rw [holds_size hc]; omega
    simp only [this]
    refine ok_ret ?_
    intro x hx
    injection hx with hx
    subst hx
    exact ⟨rfl, rfl⟩

/-! ## The deletion of a file object -/

theorem delete_ok {h : Nat} {a : Option Obj} : Ok t (.delete h) (deleteObjCode h) (inObj h a a (a.map Obj.file)) .start := by
  refine ok_moment (by intro h; exact h) (by intro l k h; cases h) fun S hS => ?_
  obtain ⟨h1, h2⟩ := hS.objs (x := ⟨h, a, a, a.map Obj.file⟩) rfl
  have h1' : S.e.objs[h]? = some a := h1
  have h2' : S.fs.obj h = a := h2
  have hlt : h < S.e.objs.length := (List.getElem?_eq_some_iff.mp h1').1
  have ha : (S.fs.obj h).isSome := hS.allowed (by intro r e; cases e)
  rw [h2'] at ha
  cases a with
  | none => cases ha
  | some x =>
  refine ⟨_, _, .op (o := .delete h) (r := .unit) (by intro h; exact h) rfl, frame_obj hlt _ _, fun h => absurd rfl (h _),
      (by intro s x e; cases e), ?_⟩
  have hva : (inObj h (some x) (some x) (some x.file)).after { S.fs with obj := upd S.fs.obj h none } =
      inObj h (some x) none (some x.file) := by
    simp only [View.after, Option.map_some, Option.map_none, upd_same]
  refine cast (congrArg (fun v => Ok _ _ _ v _) hva.symm) ?_
  refine ok_read fun S hS => ⟨x.file, ?_, ?_⟩
  · have h1 : S.e.objs[h]? = some (some x) := (hS.objs (x := ⟨h, some x, none, _⟩) rfl).1
    simp only [getObj, h1, bind, Except.bind]; rfl
  refine ok_unrefObj rfl ?_
  refine ok_setObj (b := ()) (c := none) rfl (fun e he => ?_) ?_
  · have he' : e.objs[h]? = some (some x) := he
    simp only [getObj, he', bind, Except.bind]; rfl
  · refine ok_ret ?_
    intro y hy
    injection hy with hy
    subst hy
    exact ⟨rfl, rfl⟩

/-! ## RandomAccessFile, WritableFile -/

/-- What a thread knows that uses file object `h` together with others. -/
abbrev inShare (h : Nat) (x : Obj) : View := ⟨none, none, some (h, x), none, none, none, none⟩

theorem Pre.shared {v : View} {S : Sh} {h : Nat} {x : Obj} (hS : Pre t o v p S) (hv : v.share = some (h, x)) :
    S.e.objs[h]? = some (some x) ∧ S.fs.obj h = some x := by
  obtain ⟨h1, h2, h3⟩ := hS.inv.obj.share t h x (hS.vShare.trans hv)
  have := (hS.inv.obj.free h h1 h3).1
  rw [h2] at this
  exact ⟨this, h2⟩

theorem randRead_ok {h off n : Nat} {x : Obj} : Ok t (.randRead h off n) (randReadCode h off n) (inShare h x) .start := by
  refine ok_read fun S hS => ?_
  obtain ⟨h1, h2⟩ := hS.shared rfl
  obtain ⟨i, ha⟩ := hS.allowed (by intro r e; cases e)
  rw [h2] at ha
  injection ha with ha
  subst ha
  refine ⟨i, by simp only [getRand, getObj, h1, bind, Except.bind]; rfl, ?_⟩
  clear h1 h2 hS S
  refine ok_withBlocks (.inr (.inr (.inl ⟨_, _, rfl, rfl⟩))) rfl rfl rfl fun c d hc hl => ⟨_, c, read_ok hc hl off n, ?_⟩
  refine ok_moment (by intro h; exact h) (by intro l k h; cases h) fun S hS => ?_
  have h2 : S.fs.obj h = some (.rand i) := (hS.shared rfl).2
  have hd : S.fs.data i = d := hS.data rfl
  have hva : (⟨none, none, some (h, .rand i), some ⟨i, c, d⟩, none, none, none⟩ : View).after S.fs =
      ⟨none, none, some (h, .rand i), some ⟨i, c, d⟩, none, none, none⟩ := by
    simp only [View.after, Option.map_some, Option.map_none, hd]
  refine ⟨S.fs, .done (if off ≤ d.length then .data .ok (some (sub d off n)) else .data FS.beyond none),
    .op (o := .randRead h off n) (by intro h; exact h) ?_, Frame.refl _ _ _, fun h => absurd rfl (h _), ?_, ?_⟩
  · simp only [FS.Answer, h2, FS.readAnswer, hd]
  · intro s x e
    split at e <;> cases e
  · refine cast (congrArg (fun v => Ok _ _ _ v _) hva.symm) ?_
    refine ok_unlockB rfl hc ?_
    by_cases hp : off ≤ d.length
    · simp only [if_pos hp]
      exact ok_ret (by intro x hx; cases hx)
    · simp only [if_neg hp]
      exact ok_ret (by intro x hx; cases hx)

theorem appendCall_ok {h : Nat} {data : Slice} {x : Obj} : Ok t (.append h data) (appendCode h data) (inShare h x) .start := by
  refine ok_read fun S hS => ?_
  obtain ⟨h1, h2⟩ := hS.shared rfl
  obtain ⟨hw, i, ha, hlen⟩ := hS.allowed (by intro r e; cases e)
  rw [h2] at ha
  injection ha with ha
  subst ha
  refine ⟨i, by simp only [getWr, getObj, h1, bind, Except.bind]; rfl, ?_⟩
  clear hlen h1 h2 hS S
  refine ok_withBlocks (.inr (.inr (.inl ⟨_, _, rfl, rfl⟩))) rfl rfl rfl fun c d hc hl => ?_
  obtain ⟨c', hrun, hc'⟩ := append_ok hc hw
  refine ⟨(), c', hrun, ?_⟩
  refine ok_moment (by intro h; exact h) (by intro l k h; cases h) fun S hS => ?_
  have h2 : S.fs.obj h = some (.wr i) := (hS.shared rfl).2
  have hd : S.fs.data i = d := hS.data rfl
  obtain ⟨_, j, ha, hlen⟩ := hS.allowed (by intro r e; cases e)
  rw [h2] at ha
  injection ha with ha
  injection ha with ha
  subst ha
  rw [hd] at hlen
  have hN : S.fs.next (.append h data) = { S.fs with data := upd S.fs.data i (d ++ data.bytes) } := by
    simp only [FS.next, h2, hd]
  have hdat : ∀ j, upd S.fs.data i (d ++ data.bytes) j ≠ S.fs.data j → j = i := by
    intro j hj
    refine Classical.byContradiction fun hne => hj ?_
    exact upd_other _ _ hne
  refine ⟨_, .done (.status .ok), .op (o := .append h data) (by intro h; exact h) rfl, ?_, fun h => absurd rfl (h _),
    (by intro s x e; cases e), ?_⟩
  · rw [hN]
    refine ⟨fun _ => ⟨rfl, rfl, rfl, fun _ _ => rfl⟩, fun _ _ h => absurd rfl h, fun j hj => ⟨_, rfl, (hdat j hj).symm⟩, fun j hj => ?_⟩
    rw [hdat j hj]
    show (upd S.fs.data i (d ++ data.bytes) i).length < _
    rw [upd_same, List.length_append]
    have := Slice.bytes_length hw
    omega
  · have hva : (⟨none, none, some (h, .wr i), some ⟨i, c', d⟩, none, none, none⟩ : View).after (S.fs.next (.append h data)) =
        ⟨none, none, some (h, .wr i), some ⟨i, c', d ++ data.bytes⟩, none, none, none⟩ := by
      rw [hN]
      simp only [View.after, Option.map_some, Option.map_none, upd_same]
    refine cast (congrArg (fun v => Ok _ _ _ v _) hva.symm) ?_
    refine ok_unlockB rfl hc' ?_
    exact ok_ret (by intro x hx; cases hx)

theorem nopObj_ok {h : Nat} {x : Obj} (hs : ¬ IsSkip o) (hr : ∀ fs : FS, fs.Answer o (.status .ok)) (hN : ∀ fs : FS, fs.next o = fs)
    (hA : ∀ fs : FS, fs.Allowed o → ∃ i, fs.obj h = some (.wr i)) : Ok t o (nopCode h) (inShare h x) .start := by
  refine ok_moment (by intro h; exact h) (by intro l k h; cases h) fun S hS => ?_
  obtain ⟨h1, h2⟩ := hS.shared rfl
  obtain ⟨i, ha⟩ := hA _ (hS.allowed (by intro r e; cases e))
  rw [h2] at ha
  injection ha with ha
  subst ha
  refine ⟨S.fs, .done (.status .ok), ?_, Frame.refl _ _ _, fun h => absurd rfl (h _), (by intro s x e; cases e), ?_⟩
  · have := Moment.op (o := o) (r := .status .ok) hs (hr S.fs)
    rw [hN] at this
    exact this
  · refine ok_read fun S hS => ⟨i, ?_, ok_ret (by intro x hx; cases hx)⟩
    obtain ⟨h1, h2⟩ := hS.shared rfl
    simp only [getWr, getObj, h1, bind, Except.bind]; rfl

/-! ## All calls -/

/-- The state in which a thread starts a call. -/
def Starts (o : Op) (v : View) : Prop :=
  match target o with
  | none => (o = .destroyEnv ∧ ∃ w, Clean w ∧ v = inEnv w) ∨ (o ≠ .destroyEnv ∧ v = {})
  | some h => (Shared o ∧ ∃ x, v = inShare h x) ∨ (¬ Shared o ∧ ∃ a, v = inObj h a a (a.map Obj.file))

theorem code_ok {v : View} (h : Starts o v) : Ok t o (code o) v .start := by
  cases o with
  | newSequential n => rcases h with ⟨h, _⟩ | ⟨_, rfl⟩; cases h; exact open_ok (fun _ => rfl) rfl (by intro h; cases h) (by intro h; exact h) (fun _ h => h) (fun _ _ h => h) (fun _ => rfl)
  | newRandomAccess n => rcases h with ⟨h, _⟩ | ⟨_, rfl⟩; cases h; exact open_ok (fun _ => rfl) rfl (by intro h; cases h) (by intro h; exact h) (fun _ h => h) (fun _ _ h => h) (fun _ => rfl)
  | newWritable n => rcases h with ⟨h, _⟩ | ⟨_, rfl⟩; cases h; exact newWritable_ok
  | newAppendable n => rcases h with ⟨h, _⟩ | ⟨_, rfl⟩; cases h; exact newAppendable_ok
  | fileExists n => rcases h with ⟨h, _⟩ | ⟨_, rfl⟩; cases h; exact fileExists_ok
  | getChildren d => rcases h with ⟨h, _⟩ | ⟨_, rfl⟩; cases h; exact getChildren_ok
  | removeFile n => rcases h with ⟨h, _⟩ | ⟨_, rfl⟩; cases h; exact remove_ok
  | createDir d => rcases h with ⟨h, _⟩ | ⟨_, rfl⟩; cases h; exact nop_ok (by intro h; exact h) (fun r' h fs => h) (fun _ => rfl) (by intro s h e; cases e)
  | removeDir d => rcases h with ⟨h, _⟩ | ⟨_, rfl⟩; cases h; exact nop_ok (by intro h; exact h) (fun r' h fs => h) (fun _ => rfl) (by intro s h e; cases e)
  | getFileSize n => rcases h with ⟨h, _⟩ | ⟨_, rfl⟩; cases h; exact getFileSize_ok
  | renameFile a b => rcases h with ⟨h, _⟩ | ⟨_, rfl⟩; cases h; exact rename_ok
  | seqRead x n =>
    rcases h with ⟨h, _⟩ | ⟨_, a, rfl⟩
    · exact absurd h id
    · exact seqRead_ok
  | seqSkip x n =>
    rcases h with ⟨h, _⟩ | ⟨_, a, rfl⟩
    · exact absurd h id
    · exact seqSkip_ok
  | delete x =>
    rcases h with ⟨h, _⟩ | ⟨_, a, rfl⟩
    · exact absurd h id
    · exact delete_ok
  | randRead x off n =>
    rcases h with ⟨_, a, rfl⟩ | ⟨h, _⟩
    · exact randRead_ok
    · exact absurd trivial h
  | append x d =>
    rcases h with ⟨_, a, rfl⟩ | ⟨h, _⟩
    · exact appendCall_ok
    · exact absurd trivial h
  | close x =>
    rcases h with ⟨_, a, rfl⟩ | ⟨h, _⟩
    · exact nopObj_ok (by intro h; exact h) (fun _ => rfl) (fun _ => rfl) (fun _ h => h)
    · exact absurd trivial h
  | flush x =>
    rcases h with ⟨_, a, rfl⟩ | ⟨h, _⟩
    · exact nopObj_ok (by intro h; exact h) (fun _ => rfl) (fun _ => rfl) (fun _ h => h)
    · exact absurd trivial h
  | sync x =>
    rcases h with ⟨_, a, rfl⟩ | ⟨h, _⟩
    · exact nopObj_ok (by intro h; exact h) (fun _ => rfl) (fun _ => rfl) (fun _ h => h)
    · exact absurd trivial h
  | destroyEnv =>
    rcases h with ⟨_, w, hw, rfl⟩ | ⟨h, _⟩
    · exact destroy_ok hw
    · exact absurd rfl h

end MemConc
end Lsmdb
