import Verif.Proof.MemReads2
import Verif.Props.MemEnvConc

/-!
# C107: what the readers of a shared in-memory file see while it is written

`Explains H ds m` (`Spec/MemReads`): the appended slices, in the order `ds`, explain all answers in the history.
-/

namespace Lsmdb
namespace MemConc
open MemEnv Spec Props
open CacheConc (Tid)

variable {H : Hist} {w : World}

/-- C107: any number of threads use any number of files.  A file is created, by the name `n`, and no file is renamed to or from this name
(`OneFile`); threads append to it, read it at offsets, ask for its size and read it from the beginning on, through any number of file
objects.  Then the slices that were appended to it can be put in one order `ds` such that

* every read at an offset, and every size, is that of the file after some number of them: no part of an `Append` is seen without the
  rest, all `Append`s are seen that returned before the read was called, and none that was called after the read returned; a later
  read does not see less than an earlier one; and an `Append` comes behind everything that was seen before it was called
  (`Explains`);
* the bytes that a `SequentialFile` has returned in all, if `Skip` is not called, are the beginning of the file, and each `Read`
  goes on where the last one ended, in the file after some number of the slices;
* when no call is in progress, `ds` are all slices that were appended to the file, each one once, and the file, if its name is still
  there, is their concatenation. -/
theorem C107_reads (r : Run w H) (c : Careful H) (n : Bytes) (of : OneFile H n) :
    ∃ ds m, Explains (ofName H n) n H ds m ∧
      (∀ x, ofName H n x = true → (∀ u k, Ev.call u (.seqSkip x k) ∉ H) → streamed H x <+: content ds ∧
        ∀ H0 t k y, Done H H0 t (.seqRead x k) y →
          y = .data .ok (some (sub (content (ds.take (m H0.length))) (streamed H0 x).length k))) ∧
      (Quiet w → ds.Perm (appendedTo (ofName H n) H)) ∧
      (Quiet w → opens H + 3 < 2 ^ 31 → ∀ y, Returned H (.newWritable n) y →
        (∀ u, Ev.call u (.removeFile n) ∉ H ∧ Ev.call u .destroyEnv ∉ H) → readWhole w.env n = .ok (some (content ds))) := by
  have d := C80_careful r c
  obtain ⟨S, s⟩ := r.sim d
  obtain ⟨g, ds, k, m, i, v, T⟩ := s.atom.tail of (ofName_agrees s.atom.fresh.nodup n) d r.permitted
  refine ⟨ds, m, v.ex, fun x hx hs => ?_, fun q => ?_, fun q ho y hn hk => ?_⟩
  · have hr : ∀ H0 t k y, Done H H0 t (.seqRead x k) y →
        y = .data .ok (some (sub (content (ds.take (m H0.length))) (streamed H0 x).length k)) := fun H0 t n y hd => (T x hx hs).ret hd
    exact ⟨streamed_prefix hr H (List.suffix_refl _), hr⟩
  · have hnow : ∀ t, S.now t = none := fun t => (s.idle t (q t)).1
    rw [List.perm_iff_count]
    intro d'
    obtain ⟨q', ⟨L, -, -, hs⟩, hb⟩ := v.up d'
    have : q' = 0 := by
      rw [← hs]
      simp only [hnow, ahead]
      clear hs
      induction L with
      | nil => rfl
      | cons y L ih => simp only [List.map_cons, List.sum_cons, ih]
    rw [← costs_app, ← hb, this, Nat.add_zero]
  · have hname := (s.atom.named n (fun u => (hk u).1) of.renamed (fun u => (hk u).2)).1 ⟨y, hn⟩
    have hop : S.fs.opened ≤ opens H := by
      have := (s.atom.bound (c := fun o => if (makes o).isSome then 1 else 0) (F := FS.opened) rfl ?_ (fun _ _ => rfl)).1
      · rw [costs_opens] at this
        exact this
      · intro fs o
        cases o <;> simp only [FS.next, makes] <;> (try split) <;> (try split) <;> simp [FS.withObj]
    rw [readWhole_eq (s.quiet q) (by omega)]
    cases e : S.fs.name n with
    | none => rw [show (⟨S.fs, S.now⟩ : Atom).fs.name n = none from e] at hname; cases hname
    | some j =>
      have hg : g = some j := (i.name n j e).2.mpr rfl
      subst hg
      simp only [Option.map_some]
      rw [show S.fs.data j = _ from v.data]

/-! ## The hypotheses are met -/

/-- Thread 1 creates a file, opens it for reading, twice, and appends two slices; thread 2 reads it at offset 0 while the first one is
appended, and creates another file; thread 3 reads it from the beginning on, before and after the second one is appended. -/
def readMoves : List Move :=
  .call 1 (.newWritable [97]) :: go 1 13 ++ .call 1 (.newRandomAccess [97]) :: go 1 9 ++ .call 1 (.newSequential [97]) :: go 1 9 ++
    .call 1 (.append 0 bytes3) :: .call 2 (.randRead 1 0 9) :: go 1 5 ++ go 2 1 ++ go 1 2 ++ go 2 6 ++ .call 2 (.newWritable [98]) ::
    go 2 13 ++ .call 2 (.append 3 bytes4) :: go 2 2 ++ .call 3 (.seqRead 2 2) :: go 3 8 ++ go 2 5 ++
    .call 1 (.append 0 (Slice.ofBytes [4])) :: go 1 7 ++ .call 3 (.seqRead 2 9) :: go 3 8

def readHist : Hist :=
  [.ret 3 (.data .ok (some [3, 4])), .call 3 (.seqRead 2 9), .ret 1 (.status .ok), .call 1 (.append 0 (Slice.ofBytes [4])),
    .ret 2 (.status .ok), .ret 3 (.data .ok (some [1, 2])), .call 3 (.seqRead 2 2), .call 2 (.append 3 bytes4),
    .ret 2 (.opened .ok (some 3)), .call 2 (.newWritable [98]), .ret 2 (.data .ok (some [1, 2, 3])), .ret 1 (.status .ok),
    .call 2 (.randRead 1 0 9), .call 1 (.append 0 bytes3), .ret 1 (.opened .ok (some 2)), .call 1 (.newSequential [97]),
    .ret 1 (.opened .ok (some 1)), .call 1 (.newRandomAccess [97]), .ret 1 (.opened .ok (some 0)), .call 1 (.newWritable [97])]

theorem readHist_permitted : AllPermitted readHist := by
  refine .ret (.call (.ret (.call (.ret (.ret (.call (.call (.ret (.call (.ret (.ret (.call (.call (.ret (.call (.ret (.call (.ret (.call .nil
    (permitted_env rfl (by decide) ?_))) (permitted_env rfl (by decide) ?_))) (permitted_env rfl (by decide) ?_)))
    (permitted_obj (h := 0) rfl ⟨1, .ok, ?_⟩ ?_ ?_)) (permitted_obj (h := 1) rfl ⟨1, .ok, ?_⟩ ?_ ?_))))
    (permitted_env rfl (by decide) ?_))) (permitted_obj (h := 3) rfl ⟨2, .ok, ?_⟩ ?_ ?_))
    (permitted_obj (h := 2) rfl ⟨1, .ok, ?_⟩ ?_ ?_)))) (permitted_obj (h := 0) rfl ⟨1, .ok, ?_⟩ ?_ ?_)))
    (permitted_obj (h := 2) rfl ⟨1, .ok, ?_⟩ ?_ ?_))
  all_goals first
    | (intro t o' hp
       simp only [pending] at hp
       (repeat' split at hp) <;> cases hp <;> simp [target])
    | simp

theorem readHist_careful : Careful readHist := by
  refine ⟨?_, ?_, ?_, ?_, ?_, ?_⟩
  · rintro t o h k o' s hm hn ⟨u, H0, hs, hp⟩
    simp only [readHist, List.mem_cons, List.not_mem_nil, or_false, Ev.call.injEq, reduceCtorEq, false_or] at hm
    simp only [readHist, List.suffix_cons_iff, List.cons.injEq, reduceCtorEq, false_and, and_false, false_or, Ev.ret.injEq,
      Res.opened.injEq, Option.some.injEq, List.suffix_nil, or_false] at hs
    rcases hs with ⟨⟨rfl, rfl, rfl⟩, rfl⟩ | ⟨⟨rfl, rfl, rfl⟩, rfl⟩ | ⟨⟨rfl, rfl, rfl⟩, rfl⟩ | ⟨⟨rfl, rfl, rfl⟩, rfl⟩ <;>
    simp only [pending, if_true, Option.some.injEq] at hp <;> subst hp <;>
    rcases hm with ⟨rfl, rfl⟩ | ⟨rfl, rfl⟩ | ⟨rfl, rfl⟩ | ⟨rfl, rfl⟩ | ⟨rfl, rfl⟩ | ⟨rfl, rfl⟩ | ⟨rfl, rfl⟩ | ⟨rfl, rfl⟩ | ⟨rfl, rfl⟩ |
      ⟨rfl, rfl⟩ <;> cases hn <;> rfl
  · intro t h d hm
    simp only [readHist, List.mem_cons, List.not_mem_nil, or_false, Ev.call.injEq, reduceCtorEq, false_or, and_false,
      Op.append.injEq] at hm
    rcases hm with ⟨_, _, rfl⟩ | ⟨_, _, rfl⟩ | ⟨_, _, rfl⟩ <;> decide
  · decide
  · decide
  · intro t a b hm
    simp [readHist] at hm
  · intro t n H0 hs
    simp [readHist, List.suffix_cons_iff] at hs

/-- The run exists, and `C107_reads` applies to it: thread 3 has read all four bytes of the file. -/
example : ∃ w, Run w readHist ∧ Careful readHist ∧ OneFile readHist [97] ∧ ofName readHist [97] 2 = true ∧
    streamed readHist 2 = [1, 2, 3, 4] ∧ (∀ u n, Ev.call u (.seqSkip 2 n) ∉ readHist) ∧
    appendedTo (ofName readHist [97]) readHist = [Slice.ofBytes [4], bytes3] ∧
    Done readHist (readHist.drop 11) 2 (.randRead 1 0 9) (.data .ok (some [1, 2, 3])) := by
  obtain ⟨w, h1, -⟩ := play_of (ms := readMoves) (w0 := World.init) (H0 := []) (H := readHist) (f := fun _ => ()) (y := ())
    (by decide +kernel)
  refine ⟨w, (play_run .init h1 readHist_permitted).1, readHist_careful, ⟨by decide, ?_, ?_⟩, by decide, by decide, ?_, by decide, ?_, rfl⟩
  · intro u b hm
    simp [readHist] at hm
  · intro u b hm
    simp [readHist] at hm
  · intro u n hm
    simp [readHist] at hm
  · exact ⟨readHist.take 10, rfl⟩

end MemConc
end Lsmdb
