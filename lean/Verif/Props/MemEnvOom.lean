import Verif.Proof.MemEnvOom3
import Verif.Props.MemEnv

/-!
# C89: the in-memory Env when memory runs out
-/

namespace Lsmdb
namespace Props
open Spec MemEnv

theorem readWhole_sim {e e0 : Env} (h : Sim e e0) {n : Bytes} {v : Option Bytes}
    (hr : readWhole e0 n = .ok v) : readWhole e n = .ok v := by
  unfold readWhole at hr ⊢
  simp only [step, NewRandomAccessFile, h.map] at hr ⊢
  obtain ⟨⟨e1, r⟩, h1, h2⟩ := bind_ok hr
  have key : ∃ e1', (match mapFind e0.map n with
      | none => (pure (notFound n, none, e) : M (St × Option Nat × Env))
      | some _ => do
        let (h, e) ← newObj { e with map := (mapIndex e0.map n).2 } (mapIndex e0.map n).1 .rand
        return (.ok, some h, e)) >>= (fun x => pure (x.2.2, Res.opened x.1 x.2.1)) = .ok (e1', r) ∧ Sim e1' e1 := by
    cases hf : mapFind e0.map n with
    | none => rw [hf] at h1; cases h1; exact ⟨e, rfl, h⟩
    | some p =>
      rw [hf] at h1
      obtain ⟨⟨s, x, e2⟩, h3, h4⟩ := bind_ok h1
      obtain ⟨⟨y, e3⟩, h5, h6⟩ := bind_ok h3
      obtain ⟨e3', g1, g2⟩ := newObj_sim (h.withMap _) h5
      cases h6; cases h4
      exact ⟨e3', by simp only [g1, bind, Except.bind]; rfl, g2⟩
  obtain ⟨e1', g1, g2⟩ := key
  have g1' : ((match mapFind e0.map n with
      | none => (pure (notFound n, none, e) : M (St × Option Nat × Env))
      | some _ => do
        let (h, e) ← newObj { e with map := (mapIndex e0.map n).2 } (mapIndex e0.map n).1 .rand
        return (.ok, some h, e)) >>= (fun x => pure (x.2.2, Res.opened x.1 x.2.1))) = .ok (e1', r) := g1
  refine (congrArg (fun z => z >>= _) g1').trans ?_
  simp only [bind, Except.bind] at h2 ⊢
  cases r with
  | opened s x =>
    cases x with
    | none => exact h2
    | some x =>
      simp only [] at h2 ⊢
      obtain ⟨⟨e2, r2⟩, h3, h4⟩ := bind_ok h2
      obtain ⟨⟨s', d⟩, h5, h6⟩ := bind_ok h3
      rw [randRead_sim g2 h5]
      cases h6
      exact h4
  | _ => exact h2

theorem rl_shows {e : Env} {fs : FS} (h : RL e fs) : Shows e fs := by
  obtain ⟨e0, h1, h2⟩ := h
  intro ho n
  exact readWhole_sim h1 (readWhole_eq h2 ho n)

theorem rl_storage {e : Env} {fs : FS} (h : RL e fs) : StorageSafe e fs := by
  obtain ⟨e0, h1, h2⟩ := h
  intro i
  have hc : e.freed.count i ≤ e0.freed.count i := by
    rcases h1.cell i with h | ⟨_, _, h, _⟩ <;> omega
  rcases Nat.lt_or_ge i fs.made with hi | hi
  · obtain ⟨h3, h4⟩ := freed_count h2 i hi
    constructor
    · intro hu; have := h3 hu; omega
    · by_cases hu : fs.InUse i
      · have := h3 hu; omega
      · have := h4 hu; omega
  · have := h2.files.out i (by rw [h2.made]; exact hi)
    constructor
    · intro _; omega
    · omega

/-- C89, what holds whatever allocation fails at whatever call: for every history, with any shortages of memory, as
long as the client keeps the rules nothing faults, every call answers rightly or throws (only if memory ran out) and
leaves at most what `FS.Failed` lists; what the program shows to a reader is at every point the resulting file system;
storage in use is never released and none is released twice. -/
theorem C89_goes_well_partial (hist : List (Op × Mem)) : GoesWell Env.init FS.init hist := by
  suffices ∀ (hist : List (Op × Mem)) (e : Env) (fs : FS), RL e fs → GoesWell e fs hist from
    this hist _ _ r_init.rl
  intro hist
  induction hist with
  | nil => intro e fs h; exact ⟨rl_shows h, rl_storage h⟩
  | cons a os ih =>
    obtain ⟨o, m⟩ := a
    intro e fs h
    refine ⟨rl_shows h, rl_storage h, fun ha => ?_⟩
    obtain ⟨e', q, fs', h1, h2, h3, h4⟩ := stepO_rl m h o ha
    exact ⟨e', q, fs', h1, h2, h3, ih e' fs' h4⟩

/-- C89 is violated by `RenameFile`: when the entry for the new name cannot be allocated the call throws, but the
file that had the new name is gone; the source keeps its name and contents. -/
theorem C89_failed_rename_loses_target {e : Env} {fs : FS} (h : Reached e fs) (ho : fs.opened + 2 < 2 ^ 31)
    {a b : Bytes} {i j : Nat} (ha : fs.name a = some i) (hb : fs.name b = some j) (hab : a ≠ b) (mem : Mem)
    (hm : mem.node = false) :
    ∃ e', stepO mem e (.renameFile a b) = .ok (e', none) ∧ readWhole e b = .ok (some (fs.data j)) ∧
      readWhole e' b = .ok none ∧ readWhole e' a = .ok (some (fs.data i)) := by
  have hR := reached_R h
  obtain ⟨e', q, fs', h1, h2, _, h4⟩ := stepO_ok mem hR (.renameFile a b) (.inl hab)
  have hq : q = none := by
    have hn := hR.name a
    rw [ha] at hn
    simp only [Option.map_some] at hn
    obtain ⟨e1, g1, g2⟩ := RemoveFileInternal_ok hR b
    have hfa : upd fs.name b none a = some i := by rw [upd_other _ _ hab]; exact ha
    have hn1 : mapFind e1.map a = some (some i) := by rw [g2.name]; simp only []; rw [hfa]; rfl
    have hn2 : mapFind e1.map b = none := by rw [g2.name]; simp only []; rw [upd_same]; rfl
    simp only [stepO, RenameFileO, hn, g1, mapIndex_some hn1, bind, Except.bind, pure, Except.pure, hn2,
      Option.isSome_none, Bool.false_or, hm, Bool.false_eq_true, if_false] at h1
    cases h1; rfl
  subst hq
  refine ⟨e', h1, by rw [readWhole_eq hR ho, hb]; rfl, ?_, ?_⟩
  all_goals
    cases h2 with
    | nothing _ ht => rw [FS.MayThrow, ha] at ht; cases ht
    | removed _ _ _ _ =>
      rw [rl_shows h4 ho]
      simp [upd, ha, hab]

/-- C89 is violated by `NewWritableFile`: when the file object cannot be allocated the call throws, but the existing
file has been emptied. -/
theorem C89_failed_open_empties {e : Env} {fs : FS} (h : Reached e fs) (ho : fs.opened + 2 < 2 ^ 31)
    {n : Bytes} {i : Nat} (hn : fs.name n = some i) (mem : Mem) (hm : mem.object = false) :
    ∃ e', stepO mem e (.newWritable n) = .ok (e', none) ∧ readWhole e n = .ok (some (fs.data i)) ∧
      readWhole e' n = .ok (some []) := by
  have hR := reached_R h
  obtain ⟨e', q, fs', h1, h2, _, h4⟩ := stepO_ok mem hR (.newWritable n) ho
  have hq : q = none := by
    have hn' := hR.name n
    rw [hn] at hn'
    simp only [Option.map_some] at hn'
    obtain ⟨f, g1, _⟩ := getFile_ok hR.files (by rw [hR.made]; exact hR.nameLt n i hn) (hR.cnt_name hn)
    simp only [stepO, NewWritableFileO, targetO, hn', g1, bind, Except.bind, pure, Except.pure, newObjO, hm,
      Bool.false_eq_true, if_false] at h1
    cases h1; rfl
  subst hq
  refine ⟨e', h1, by rw [readWhole_eq hR ho, hn]; rfl, ?_⟩
  cases h2 with
  | nothing _ ht => rw [FS.MayThrow, hn] at ht; cases ht
  | lost _ hn' => rw [hn] at hn'; cases hn'
  | created _ hn' => rw [hn] at hn'; cases hn'
  | emptied _ j hj =>
    rw [hn] at hj; cases hj
    rw [rl_shows h4 ho]
    simp [upd, hn]

/-- C89 is violated by `Append`: when no block can be allocated the call throws, but everything up to the end of
the file's last block has been appended. -/
theorem C89_failed_append_partly {e : Env} {fs : FS} (h : Reached e fs) (ho : fs.opened + 2 < 2 ^ 31)
    {n : Bytes} {i x : Nat} (hn : fs.name n = some i) (hx : fs.obj x = some (.wr i)) {d : Slice} (hw : d.WF)
    (hl : (fs.data i).length + d.len < 2 ^ 64) (mem : Mem) (hm : ∀ j, mem.block j = false) {k : Nat}
    (hk : k < 8192) (hkd : k < d.len) (hb : ((fs.data i).length + k) % 8192 = 0) :
    ∃ e', stepO mem e (.append x d) = .ok (e', none) ∧ readWhole e n = .ok (some (fs.data i)) ∧
      readWhole e' n = .ok (some (fs.data i ++ d.bytes.take k)) := by
  have hR := reached_R h
  have hxs := hR.objs_some hx
  obtain ⟨f, g1, g2, g3, g4⟩ := getFile_ok hR.files (by rw [hR.made]; exact hR.objLt x _ hx) (hR.cnt_obj hx)
  simp only [Obj.file] at g1 g2 g4
  obtain ⟨k', b, k1, k2, k3, k4, k5, k6⟩ := appendLoopO_eq mem.block d (d.len + 1) f d.off d.len
  have hw' : d.off + d.len ≤ d.buf.length := hw
  obtain ⟨f', a1, a2, a3⟩ := appendLoop_eq d hw (d.len + 1) f (fs.data i) d.off k' g4 (by omega) (by omega)
  have hno := k6 hm (by rw [a1]; rfl)
  rw [g4.size] at hno k4
  simp only [kBlockSize] at hno k4
  have hkk : k' ≤ k := Nat.le_of_not_lt fun hlt => hno k hlt hb
  have hbf : b = false := by
    cases b with
    | false => rfl
    | true => have := k3 rfl; omega
  subst hbf
  have h4 := k4 rfl
  have hk'k : k' = k := by omega
  subst hk'k
  have hsub : sub d.buf d.off k' = d.bytes.take k' := by
    simp only [sub, Slice.bytes, List.take_take, Nat.min_eq_left k1]
  rw [a1] at k2
  have hR2 := setFile_ok hR (hR.cnt_obj hx) g2 a3 a2 (by
    rw [hsub, List.length_append, List.length_take, Slice.bytes_length hw]; omega)
  simp only [Obj.file] at hR2
  refine ⟨setFile e i f', ?_, by rw [readWhole_eq hR ho, hn]; rfl, ?_⟩
  · simp only [stepO, wrAppendO, getObj, hxs, bind, Except.bind, g1, k2, Except.map, pure, Except.pure]
    rfl
  · rw [readWhole_eq hR2 ho]
    simp [hn, upd, hsub]

/-- C89 is violated by `NewWritableFile` of a new name as well: when the entry of the map cannot be allocated the
storage just made for the file is lost.  Whatever is called afterwards, in any order, allowed or not, it is never
released. -/
theorem C89_failed_create_leaks {e : Env} {fs : FS} (h : Reached e fs)
    {n : Bytes} (hn : fs.name n = none) (mem : Mem) (hs : mem.state = true) (hm : mem.node = false) :
    ∃ e', stepO mem e (.newWritable n) = .ok (e', none) ∧
      ∀ hist e'' rs, runO e' hist = .ok (e'', rs) → ∃ f, e''.files[fs.made]? = some (some f) ∧
        e''.freed.count fs.made = 0 := by
  have hR := reached_R h
  have hn' := hR.name n
  rw [hn] at hn'
  simp only [Option.map_none] at hn'
  obtain ⟨h1, _⟩ := newFile_ok hR.files
  refine ⟨_, by
    simp only [stepO, NewWritableFileO, targetO, hn', createO, hs, if_true, hm, Bool.false_eq_true, if_false, h1, bind,
      Except.bind, pure, Except.pure]; rfl, ?_⟩
  intro hist e'' rs hr
  have hz := fresh_zero hR (Nat.le_refl fs.made)
  have hor : Orphan fs.made { e with files := e.files ++ [some { FileState.new with refs := 1 }] } := by
    refine ⟨?_, ?_, ⟨{ FileState.new with refs := 1 }, ?_⟩, ?_⟩
    · intro a ha he
      have : 0 < cntMap e.map fs.made := by
        unfold cntMap; rw [List.countP_pos_iff]; exact ⟨a, ha, by simp [he]⟩
      unfold cnt at hz; omega
    · intro o ho he
      have : 0 < cntObj e.objs fs.made := by
        unfold cntObj; rw [List.countP_pos_iff]; exact ⟨some o, ho, by simp [he]⟩
      unfold cnt at hz; omega
    · rw [← hR.made]; simp only []; rw [List.getElem?_concat_length]
    · exact hR.files.out _ (by rw [hR.made]; exact Nat.le_refl _)
  have := Orphan.run hist hor hr
  exact ⟨this.live.choose, this.live.choose_spec, this.freed⟩

/-- Memory that lacks only entries of the map. -/
def noNode : Mem := { Mem.plenty with node := false }

/-- Memory that lacks only file objects. -/
def noObject : Mem := { Mem.plenty with object := false }

/-- A history with shortages: a rename that loses its target, an open that empties a file, a creation that fails, all
followed by calls that succeed. -/
example : (runO Env.init [(.newWritable [97], .plenty), (.append 0 (Slice.ofBytes [1, 2]), .plenty),
    (.newWritable [98], .plenty), (.append 1 (Slice.ofBytes [3]), .plenty), (.renameFile [97] [98], noNode),
    (.fileExists [98], .plenty), (.getFileSize [97], .plenty), (.newWritable [97], noObject),
    (.getFileSize [97], .plenty), (.newWritable [99], noNode), (.fileExists [99], .plenty),
    (.newWritable [99], .plenty), (.append 2 (Slice.ofBytes [4]), .plenty), (.getFileSize [99], .plenty),
    (.destroyEnv, .plenty)]).map (fun r => r.2) =
    .ok [some (.opened .ok (some 0)), some (.status .ok), some (.opened .ok (some 1)), some (.status .ok), none,
      some (.bool false), some (.size .ok (some 2)), none, some (.size .ok (some 0)), none, some (.bool false),
      some (.opened .ok (some 2)), some (.status .ok), some (.size .ok (some 1)), some .unit] := by decide +kernel

/-- The hypotheses of the violations are met after the history `NewWritableFile("a")`, `NewWritableFile("b")`. -/
example : ∃ e fs, Reached e fs ∧ fs.name [97] = some 0 ∧ fs.name [98] = some 1 ∧ fs.name [99] = none ∧
    fs.obj 0 = some (.wr 0) ∧ fs.opened + 2 < 2 ^ 31 ∧ ((fs.data 0).length + 0) % 8192 = 0 := by
  have ha : FS.init.AllowedAll [.newWritable [97], .newWritable [98]] := by
    simp [FS.AllowedAll, FS.Allowed, FS.init, FS.next, FS.withObj, upd]
  obtain ⟨e, rs, h1, _⟩ := C40_refines _ ha
  refine ⟨e, _, ⟨_, rs, ha, h1, rfl⟩, ?_⟩
  simp [FS.after, FS.init, FS.next, FS.withObj, upd]

end Props
end Lsmdb
