import Verif.Proof.MemConc5
import Verif.Proof.CacheConc4

/-!
# The bodies of the methods of FileState; derived rules
-/

namespace Lsmdb
namespace MemConc
open MemEnv Spec
open CacheConc (Tid Prog run_bind)

variable {t : Tid} {o : Op} {p : Phase} {i : Nat} {ob : Option OV} {sh : Option (Nat × Obj)} {en : Option EV}

/-! ## The bodies -/

theorem holds_size {c : Content} {d : Bytes} (h : Holds c d) : c.size = d.length := h.size

theorem run_size (c : Content) : sizeProg.run c = .ok (c, c.size) := rfl

theorem run_truncate (c : Content) : truncateProg.run c = .ok (⟨[], 0⟩, ()) := rfl

theorem holds_nil : Holds ⟨[], 0⟩ [] := finv_new

theorem run_readLoop (c : Content) (r : Int) : ∀ fuel block off n,
    (readLoopProg fuel block off n).run c = (do let d ← readLoop ⟨r, c.blocks, c.size⟩ fuel block off n; return (c, d)) := by
  intro fuel
  induction fuel with
  | zero =>
    intro block off n
    unfold readLoopProg readLoop
    by_cases h : n > 0
    · rw [if_pos h, if_pos h]; rfl
    · rw [if_neg h, if_neg h]; rfl
  | succ fuel ih =>
    intro block off n
    unfold readLoopProg readLoop
    by_cases h : n > 0
    · rw [if_pos h, if_pos h]
      simp only [Prog.run, copyOut, bind, Except.bind]
      cases c.blocks[block]? with
      | none => rfl
      | some b =>
        simp only [bind, Except.bind]
        cases Status.cells b off (if kBlockSize - off > n then n else kBlockSize - off) with
        | error e => rfl
        | ok cs =>
          simp only []
          cases Status.values cs with
          | error e => rfl
          | ok v =>
            simp only [pure, Except.pure, run_bind, ih, bind, Except.bind]
            cases readLoop ⟨r, c.blocks, c.size⟩ fuel (block + 1) 0 (n - if kBlockSize - off > n then n else kBlockSize - off) <;> rfl
    · rw [if_neg h, if_neg h]; rfl

theorem run_read (c : Content) (off n : Nat) :
    (readProg off n).run c = (do let x ← FileState.Read ⟨0, c.blocks, c.size⟩ off n; return (c, x)) := by
  unfold readProg FileState.Read
  simp only [Prog.run, bind, Except.bind]
  by_cases h : off > c.size
  · rw [if_pos h, if_pos h]; rfl
  · rw [if_neg h, if_neg h]
    by_cases h0 : (if n > c.size - off then c.size - off else n) = 0
    · simp only [h0, if_true]; rfl
    · simp only [if_neg h0, Prog.run, bind, Except.bind]
      cases cassert (decide (off / kBlockSize ≤ 2 ^ 64 - 1)) with
      | error e => rfl
      | ok x =>
        simp only [pure, Except.pure, run_bind, run_readLoop c 0, bind, Except.bind]
        cases readLoop ⟨0, c.blocks, c.size⟩ ((if n > c.size - off then c.size - off else n) + 1) (off / kBlockSize) (off % kBlockSize)
          (if n > c.size - off then c.size - off else n) <;> rfl

theorem read_ok {c : Content} {d : Bytes} (h : Holds c d) (hd : d.length < 2 ^ 64) (off n : Nat) :
    (readProg off n).run c = .ok (c, if off ≤ d.length then (.ok, some (sub d off n)) else (FS.beyond, none)) := by
  rw [run_read, Read_eq h hd]; rfl

theorem run_appendLoop (data : Slice) : ∀ fuel (c : Content) src len,
    (appendLoopProg data fuel src len).run c =
      (do let f ← appendLoop data fuel ⟨0, c.blocks, c.size⟩ src len; return (⟨f.blocks, f.size⟩, ())) := by
  intro fuel
  induction fuel with
  | zero =>
    intro c src len
    unfold appendLoopProg appendLoop
    by_cases h : len > 0
    · rw [if_pos h, if_pos h]; rfl
    · rw [if_neg h, if_neg h]; rfl
  | succ fuel ih =>
    intro c src len
    unfold appendLoopProg appendLoop
    by_cases h : len > 0
    · rw [if_pos h, if_pos h]
      simp only [Prog.run, makeRoom, bind, Except.bind]
      by_cases h0 : c.size % kBlockSize ≠ 0
      · simp only [if_pos h0, copyIn]
        cases c.blocks.getLast? with
        | none => rfl
        | some last =>
          simp only [bind, Except.bind]
          cases Status.sliceCells ⟨data.buf, src, if kBlockSize - c.size % kBlockSize > len then len else kBlockSize - c.size % kBlockSize⟩
            (if kBlockSize - c.size % kBlockSize > len then len else kBlockSize - c.size % kBlockSize) with
          | error e => rfl
          | ok cs =>
            simp only []
            cases Status.store last (c.size % kBlockSize) cs with
            | error e => rfl
            | ok l => simp only [pure, Except.pure, ih, bind, Except.bind]
      · simp only [if_neg h0, copyIn]
        cases (c.blocks ++ [List.replicate kBlockSize none]).getLast? with
        | none => rfl
        | some last =>
          simp only [bind, Except.bind]
          cases Status.sliceCells ⟨data.buf, src, if kBlockSize > len then len else kBlockSize⟩
            (if kBlockSize > len then len else kBlockSize) with
          | error e => rfl
          | ok cs =>
            simp only []
            cases Status.store last (c.size % kBlockSize) cs with
            | error e => rfl
            | ok l => simp only [pure, Except.pure, ih, bind, Except.bind]
    · rw [if_neg h, if_neg h]; rfl

theorem append_ok {c : Content} {d : Bytes} (h : Holds c d) {data : Slice} (hw : data.WF) :
    ∃ c', (appendProg data).run c = .ok (c', ()) ∧ Holds c' (d ++ data.bytes) := by
  obtain ⟨f, h1, h2, _⟩ := Append_eq h hw
  refine ⟨⟨f.blocks, f.size⟩, ?_, ⟨h2.len, h2.size, h2.flat⟩⟩
  unfold appendProg
  rw [run_appendLoop]
  have h1' : appendLoop data (data.len + 1) ⟨0, c.blocks, c.size⟩ data.off data.len = .ok f := h1
  rw [h1']
  rfl

/-! ## Derived rules -/

theorem ok_withBlocks {v : View} {β : Type} {prog : Prog Content β} {k : β → Code} (hj : Just v i) (hd : v.dying = none)
    (hB : v.blk = none) (hR : v.rfs = none)
    (h : ∀ c d, Holds c d → d.length < 2 ^ 64 → ∃ b c', prog.run c = .ok (c', b) ∧
      Ok t o (.unlock (.blocks i) (k b)) { v with blk := some ⟨i, c', d⟩ } p) : Ok t o (withBlocks i prog k) v p := by
  refine ok_lockB hj hd hB hR fun c d hc hl => ?_
  obtain ⟨b, c', h1, h2⟩ := h c d hc hl
  exact ok_steps rfl h1 h2

/-- `delete` of a file that nobody else knows of. -/
theorem ok_delete {k : Code} (h : Ok t o k ⟨en, ob, sh, none, none, none, none⟩ p) :
    Ok t o (deleteCode i k) ⟨en, ob, sh, none, none, some i, none⟩ p := by
  refine ok_withBlocks (.inr (.inr (.inr rfl))) rfl rfl rfl fun c d _ _ => ⟨(), ⟨[], 0⟩, run_truncate c, ?_⟩
  refine ok_unlockDying rfl rfl rfl ?_
  exact ok_free rfl rfl rfl h

theorem ok_refName {w : EV} {m : Bytes} {k : Code} (hm : w.rname m = none)
    (h : Ok t o k ⟨some { w with rname := upd w.rname m (some i) }, ob, sh, none, none, none, none⟩ p) :
    Ok t o (refCode i k) ⟨some w, ob, sh, none, none, some i, none⟩ p := by
  refine ok_lockR (.inr (.inr (.inr rfl))) rfl rfl fun n => ?_
  refine ok_addName rfl rfl rfl rfl rfl hm ?_
  exact ok_unlockR rfl h

theorem ok_refObj {w : EV} {k : Code} (hj : Just ⟨some w, ob, sh, none, none, none, none⟩ i) (hm : ∀ k, w.robj k = none)
    (hb : w.nobjs + 2 < 2 ^ 31)
    (h : Ok t o k ⟨some { w with robj := upd w.robj 0 (some i) }, ob, sh, none, none, none, none⟩ p) :
    Ok t o (refCode i k) ⟨some w, ob, sh, none, none, none, none⟩ p := by
  refine ok_lockR hj rfl rfl fun n => ?_
  refine ok_addObj rfl rfl rfl rfl hm hb ?_
  exact ok_unlockR rfl h

theorem ok_unrefRest {n : Nat} {k : Code} (h : Ok t o k ⟨en, ob, sh, none, none, none, none⟩ p) :
    Ok t o (.act (testRefs i) fun do_delete => .unlock (.refs i) <| if do_delete then deleteCode i k else k)
      ⟨en, ob, sh, none, some ⟨i, n⟩, if n = 0 then some i else none, none⟩ p := by
  refine ok_testRefs rfl ?_
  refine ok_unlockR rfl ?_
  by_cases h0 : n = 0
  · simp only [h0, decide_true, if_true]
    exact ok_delete h
  · simp only [h0, decide_false, if_false]
    exact h

theorem ok_unrefName {w : EV} {m : Bytes} {k : Code} (hm : w.rname m = some i)
    (h : Ok t o k ⟨some { w with rname := upd w.rname m none }, ob, sh, none, none, none, none⟩ p) :
    Ok t o (unrefCode i k) ⟨some w, ob, sh, none, none, none, none⟩ p := by
  refine ok_lockR (.inl ⟨w, m, rfl, hm⟩) rfl rfl fun n => ?_
  refine ok_dropName rfl rfl rfl rfl hm ?_
  exact ok_unrefRest h

theorem ok_unrefObj {x : OV} {k : Code} (hm : x.ref = some i)
    (h : Ok t o k ⟨en, some { x with ref := none }, sh, none, none, none, none⟩ p) :
    Ok t o (unrefCode i k) ⟨en, some x, sh, none, none, none, none⟩ p := by
  refine ok_lockR (.inr (.inl ⟨x, rfl, hm⟩)) rfl rfl fun n => ?_
  refine ok_dropObj rfl rfl rfl rfl hm ?_
  exact ok_unrefRest h

/-- `new SequentialFileImpl(file)` and so on. -/
theorem ok_newObj {w : EV} {mk : Nat → Obj} {k : Nat → Code} (hmk : (mk i).file = i)
    (hj : Just ⟨some w, ob, sh, none, none, none, none⟩ i) (hm : ∀ k, w.robj k = none) (hf : w.fobj 0 = some (mk i))
    (hb : w.nobjs + 2 < 2 ^ 31)
    (h : Ok t o (k w.nobjs)
      ⟨some { w with nobjs := w.nobjs + 1, fobj := fun j => w.fobj (j + 1) }, ob, sh, none, none, none, none⟩ p) :
    Ok t o (newObjCode (some i) mk k) ⟨some w, ob, sh, none, none, none, none⟩ p := by
  refine ok_refObj hj hm hb ?_
  refine ok_push rfl hf (by rw [hmk]; exact upd_same w.robj 0 (some i)) ?_
  have : (fun j => upd w.robj 0 (some i) (j + 1)) = w.robj := by
    funext j
    rw [upd_other _ _ (Nat.succ_ne_zero j), hm, hm]
  simp only [this]
  exact h

theorem ok_find {w : EV} {n : Bytes} {next : Option (Option Nat) → Code}
    (h : Ok t o (next (mapFind w.map n)) ⟨some w, ob, sh, none, none, none, none⟩ p) :
    Ok t o (.act (find n) next) ⟨some w, ob, sh, none, none, none, none⟩ p := by
  refine ok_map (m := w.map) rfl (fun e he => ?_) h
  unfold find
  rw [← he]

theorem ok_index {w : EV} {n : Bytes} {x : Option Nat} {next : Option Nat → Code} (hx : mapFind w.map n = some x)
    (h : Ok t o (next x) ⟨some w, ob, sh, none, none, none, none⟩ p) :
    Ok t o (.act (index n) next) ⟨some w, ob, sh, none, none, none, none⟩ p := by
  refine ok_map (m := w.map) rfl (fun e he => ?_) h
  unfold index
  rw [he, mapIndex_some hx]

theorem ok_ret {r : Res} (hx : ∀ x, ob = some x → x.Clean) :
    Ok t o (.ret r) ⟨none, ob, sh, none, none, none, none⟩ (.done r) := ⟨rfl, rfl, rfl, rfl, rfl, rfl, hx⟩

theorem ok_leave {w : EV} {r : Res} (hw : Clean w) (hd : o ≠ .destroyEnv) (hp : ∀ s h, r = .opened s (some h) → h < w.nobjs) :
    Ok t o (leave r) ⟨some w, none, sh, none, none, none, none⟩ (.done r) := by
  refine ok_unlockEnv rfl hw hd rfl ?_ (ok_ret (by intro x hx; cases hx))
  intro s h e
  injection e with e
  exact hp s h e

theorem Pre.data {v : View} {S : Sh} {c : Content} {d : Bytes} (hS : Pre t o v p S) (hv : v.blk = some ⟨i, c, d⟩) : S.fs.data i = d :=
  (hS.inv.file.blkView t _ (hS.vBlk.trans hv)).2.2

end MemConc
end Lsmdb
