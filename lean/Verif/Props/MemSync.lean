import Verif.Proof.MemSync5
import Verif.Proof.MemSync8
import Verif.Props.MemReads

/-!
# C110: the shared in-memory Env has no data races on its files, and publishes them

`Exec N` (`Spec/MemSync`): `N` steps of any number of threads on one Env.  `x.Accesses i t m`: in step `i` thread `t` executes a
statement whose effect depends on the contents of the part `m` of the shared memory, or that changes them.
-/

namespace Lsmdb
namespace MemConc
open MemEnv Spec Props
open CacheConc (Tid)

variable {N : Nat}

/-- C110: any two accesses to the map of the names, or to the reference count, or to the blocks and the size, of a file are ordered by
happens-before, whichever threads make them: they are no data race.  (`~InMemoryEnv` walks through the map without its mutex; it may
be called only when no other call is in progress, and its accesses to the map are not meant here.) -/
theorem C110_race_free (x : Exec N) {i j : Nat} {t u : Tid} {m : Part} (hij : i < j) (hj : j < N) (ai : x.Accesses i t m)
    (aj : x.Accesses j u m) (hi : m = .map → pending (hist x.ev i) t ≠ some .destroyEnv)
    (hj' : m = .map → pending (hist x.ev j) u ≠ some .destroyEnv) : HappensBefore x.sync i j := x.accesses_ordered hij hj ai aj hi hj'

/-- C110: who is told that there is a file of some name — by `FileExists`, `GetChildren`, `GetFileSize`, by opening it for reading, by
removing or renaming it — comes after some call that makes a file of this name (`NewWritableFile`, `NewAppendableFile`, `RenameFile`),
in whichever thread: what the calling thread wrote before that call is visible to whoever was told. -/
theorem C110_names (x : Exec N) {j : Nat} {u : Tid} {o : Op} {r : Res} {n : Bytes} (hj : j < N) (he : x.ev j = some (.ret u r))
    (hp : pending (hist x.ev j) u = some o) (hs : ShowsName o r n) :
    ∃ i t o', x.ev i = some (.call t o') ∧ MakesName o' n ∧ HappensBefore x.sync i j := x.found_after hj he hp hs

/-- C110: whoever sees the first `s` bytes of a file — by a `Read` of a `RandomAccessFile` that ends there, by a `Read` of a
`SequentialFile` of `s` bytes, by `GetFileSize` — comes after calls of `Append` for this file that together have at least `s` bytes, in
whichever threads: what these threads wrote before they called `Append` is visible to the reader. -/
theorem C110_bytes (x : Exec N) {j : Nat} {u : Tid} {o : Op} {r : Res} (hj : j < N) (he : x.ev j = some (.ret u r))
    (hp : pending (hist x.ev j) u = some o) (hs : 0 < bytesSeen o r) :
    ∃ k, x.IsFor o k ∧ x.Appended k (bytesSeen o r) fun i => HappensBefore x.sync i j := x.bytes_after hj he hp hs

/-! ## The hypotheses are met -/

/-- Thread 1 creates the file "d/a", thread 2 the file "d/b", and asks for the children of "d". -/
def tellMoves : List Move :=
  .call 1 (.newWritable [100, 47, 97]) :: go 1 13 ++ .call 2 (.newWritable [100, 47, 98]) :: go 2 13 ++ .call 2 (.getChildren [100]) :: go 2 9

def tellHist : Hist :=
  [.ret 2 (.list .ok [[97], [98]]), .call 2 (.getChildren [100]), .ret 2 (.opened .ok (some 1)), .call 2 (.newWritable [100, 47, 98]),
    .ret 1 (.opened .ok (some 0)), .call 1 (.newWritable [100, 47, 97])]

theorem tellHist_permitted : AllPermitted tellHist := by
  refine .ret (.call (.ret (.call (.ret (.call .nil (permitted_env rfl (by decide) ?_))) (permitted_env rfl (by decide) ?_)))
    (permitted_env rfl (by decide) ?_))
  all_goals
    simp

/-- After these moves the next statement of thread `t` changes the map. -/
def writesMap (ms : List Move) (t : Tid) : Bool :=
  match play World.init [] ms with
  | some p => match p.1.pc t with
    | .run (.act f _) => match f p.1.env with
      | .ok (e, _) => e.map != p.1.env.map
      | .error _ => false
    | _ => false
  | none => false

theorem fire_thread {w w' : World} {e : Option Ev} {t : Tid} (h : fire w (.step t) = some (e, w')) : w'.pc t ≠ w.pc t := by
  have other : ∀ u, u ≠ t → w'.pc u = w.pc u := by
    intro u hu
    simp only [fire] at h
    split at h
    · cases h
    · rename_i c hp
      cases c <;> simp only [fireCode] at h <;> (try split at h) <;> cases h <;> rw [pc_at, if_neg hu] <;> rfl
  obtain ⟨v, hv, -, -⟩ := step_shape (fire_sound h)
  have : v = t := Classical.byContradiction fun hn => hv (other v hn)
  rw [← this]
  exact hv

theorem thread_of {x : Exec N} {i : Nat} {t : Tid} {ms : List Move} (h : ∀ i, i ≤ N → play World.init [] (ms.take i) = some (x.w i, hist x.ev i))
    (hi : i < N) (hm : ms[i]? = some (.step t)) : x.sync.thread i t := by
  have h1 := h (i + 1) hi
  rw [List.take_add_one, hm, Option.toList_some, play_append (h i (by omega))] at h1
  simp only [play] at h1
  cases hf : fire (x.w i) (.step t) with
  | none => rw [hf] at h1; cases h1
  | some p =>
    obtain ⟨e, w'⟩ := p
    have := fire_thread hf
    rw [hf] at h1
    cases e <;> (injection h1 with h1; injection h1 with h1 h2; subst h1; exact this)

theorem accesses_of {x : Exec N} {i : Nat} {t : Tid} {ms : List Move} (h : ∀ i, i ≤ N → play World.init [] (ms.take i) = some (x.w i, hist x.ev i))
    (hi : i ≤ N) (hw : writesMap (ms.take i) t = true) (ht : x.sync.thread i t) : x.Accesses i t .map := by
  refine ⟨ht, trivial, ?_⟩
  simp only [writesMap, h i hi] at hw
  split at hw
  · rename_i β f next hpc
    split at hw
    · rename_i e b hf
      exact ⟨β, f, next, hpc, not_ignores_map hf (by simpa using hw)⟩
    · cases hw
  · cases hw

/-- There is an execution in which threads 1 and 2 change the map, in steps 7 and 21, and thread 2 is shown the file of thread 1: the call
of thread 1 comes before that. -/
example : ∃ (N : Nat) (x : Exec N), N = 38 ∧ x.Accesses 7 1 .map ∧ x.Accesses 21 2 .map ∧ pending (hist x.ev 7) 1 ≠ some .destroyEnv ∧
    pending (hist x.ev 21) 2 ≠ some .destroyEnv ∧ HappensBefore x.sync 7 21 ∧
    ∃ j, j < N ∧ x.ev j = some (.ret 2 (.list .ok [[97], [98]])) ∧ pending (hist x.ev j) 2 = some (.getChildren [100]) ∧
      ∃ i t o, x.ev i = some (.call t o) ∧ MakesName o [100, 47, 97] ∧ HappensBefore x.sync i j := by
  obtain ⟨w, h1, -⟩ := play_of (ms := tellMoves) (w0 := World.init) (H0 := []) (H := tellHist) (f := fun _ => ()) (y := ())
    (by decide +kernel)
  obtain ⟨N, x, hN, hx⟩ := exec_play tellMoves h1 tellHist_permitted
  have hN' : N = 38 := hN
  subst hN'
  have a1 : x.Accesses 7 1 .map := accesses_of hx (by decide) (by decide +kernel) (thread_of hx (by decide) rfl)
  have a2 : x.Accesses 21 2 .map := accesses_of hx (by decide) (by decide +kernel) (thread_of hx (by decide) rfl)
  have hist_at : ∀ i H, i ≤ 38 → (play World.init [] (tellMoves.take i)).map (fun p => p.2) = some H → hist x.ev i = H := by
    intro i H hi hp
    rw [hx i hi] at hp
    exact Option.some.inj hp
  have p1 : pending (hist x.ev 7) 1 ≠ some .destroyEnv := by
    rw [hist_at 7 [.call 1 (.newWritable [100, 47, 97])] (by decide) (by decide +kernel)]
    simp [pending]
  have p2 : pending (hist x.ev 21) 2 ≠ some .destroyEnv := by
    rw [hist_at 21 [.call 2 (.newWritable [100, 47, 98]), .ret 1 (.opened .ok (some 0)), .call 1 (.newWritable [100, 47, 97])] (by decide)
      (by decide +kernel)]
    simp [pending]
  have hall : hist x.ev 38 = tellHist := by
    have := hx 38 (Nat.le_refl _)
    rw [show tellMoves.take 38 = tellMoves from List.take_of_length_le (by decide), h1] at this
    injection this with this
    injection this with _ this
    exact this.symm
  obtain ⟨j, hj, ej, hh⟩ := hist_split (ev := x.ev) (n := 38) (e := .ret 2 (.list .ok [[97], [98]])) (by rw [hall]; exact List.suffix_refl _)
  have hp : pending (hist x.ev j) 2 = some (.getChildren [100]) := by rw [hh]; rfl
  exact ⟨38, x, rfl, a1, a2, p1, p2, C110_race_free x (by decide) (by decide) a1 a2 (fun _ => p1) (fun _ => p2), j, hj, ej, hp,
    C110_names x hj ej hp ⟨[[97], [98]], [97], rfl, by simp, rfl⟩⟩

/-- There is an execution in which thread 2 reads three bytes that thread 1 appends while thread 2 is already in the call of `Read`: there
is a call of `Append`, and it comes before the return. -/
example : ∃ (N : Nat) (x : Exec N) (j : Nat), j < N ∧ x.ev j = some (.ret 2 (.data .ok (some [1, 2, 3]))) ∧
    pending (hist x.ev j) 2 = some (.randRead 1 0 9) ∧ bytesSeen (.randRead 1 0 9) (.data .ok (some [1, 2, 3])) = 3 ∧
    ∃ i t h d, x.ev i = some (.call t (.append h d)) ∧ HappensBefore x.sync i j := by
  obtain ⟨w, h1, -⟩ := play_of (ms := readMoves) (w0 := World.init) (H0 := []) (H := readHist) (f := fun _ => ()) (y := ())
    (by decide +kernel)
  obtain ⟨N, x, hN, hx⟩ := exec_play readMoves h1 readHist_permitted
  have hall : hist x.ev N = readHist := by
    have := hx N (Nat.le_refl _)
    rw [List.take_of_length_le (by omega), h1] at this
    exact (congrArg Prod.snd (Option.some.inj this)).symm
  obtain ⟨j, hj, ej, hh⟩ := hist_split (ev := x.ev) (n := N) (e := .ret 2 (.data .ok (some [1, 2, 3]))) (H0 := readHist.drop 11)
    (by rw [hall]; exact ⟨readHist.take 10, rfl⟩)
  have hp : pending (hist x.ev j) 2 = some (.randRead 1 0 9) := by rw [hh]; rfl
  obtain ⟨k, -, c, n, hn, hsum, hc⟩ := C110_bytes x hj ej hp (by decide)
  refine ⟨N, x, j, hj, ej, hp, by decide, ?_⟩
  apply Classical.byContradiction
  intro hno
  have hz : ∀ i, c i = 0 := fun i => Classical.byContradiction fun hi => by
    obtain ⟨h2, t, h, d, h3, -⟩ := hc i hi
    exact hno ⟨i, t, h, d, h3, h2⟩
  have hsum0 : ((List.range n).map c).sum = 0 := by
    have : (List.range n).map c = (List.range n).map fun _ => 0 := List.map_congr_left fun i _ => hz i
    rw [this]
    clear * -
    induction n with
    | zero => rfl
    | succ n ih => rw [List.range_succ, List.map_append, List.sum_append, ih]; rfl
  rw [hsum0] at hsum
  exact absurd hsum (by decide)

end MemConc
end Lsmdb
