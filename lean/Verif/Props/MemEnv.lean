import Verif.Proof.MemEnv2

/-!
# C38–C45, C65, C66: the in-memory Env
-/

namespace Lsmdb
namespace Props
open Spec MemEnv

/-! ## C38 -/

theorem fileRun_ok {f : FileState} {c : Bytes} (hi : FInv f c) (hc : c.length < 2 ^ 64)
    (os : List FileOp) (ha : FileAllowed c os) :
    ∃ f', fileRun f os = .ok f' ∧ FInv f' (contents c os) ∧ (contents c os).length < 2 ^ 64 := by
  induction os generalizing f c with
  | nil => exact ⟨f, rfl, hi, hc⟩
  | cons o os ih =>
    cases o with
    | append d =>
      obtain ⟨hw, hl, ha⟩ := ha
      obtain ⟨f', h1, h2, _⟩ := Append_eq hi hw
      obtain ⟨f'', h3, h4, h5⟩ := ih h2 hl ha
      exact ⟨f'', by simp [fileRun, h1, h3, bind, Except.bind], h4, h5⟩
    | truncate =>
      obtain ⟨f'', h3, h4, h5⟩ := ih (finv_truncate hi) (by simp) ha
      exact ⟨f'', by simp [fileRun, h3], h4, h5⟩

/-- C38: after any history of appends (of any valid slices, however chunked) and truncations, the file
is the byte sequence that results: its size is the length, a read returns exactly the bytes that exist
in the requested range, it fails exactly beyond the end; nothing faults (no read outside a block or of a
byte never written). -/
theorem C38_byte_sequence (os : List FileOp) (ha : FileAllowed [] os) :
    ∃ f, fileRun FileState.new os = .ok f ∧ f.Size = (contents [] os).length ∧
      ∀ off n, f.Read off n =
        .ok (if off ≤ (contents [] os).length then (.ok, some (sub (contents [] os) off n))
          else (FS.beyond, none)) := by
  obtain ⟨f, h1, h2, h3⟩ := fileRun_ok finv_new (by simp) os ha
  exact ⟨f, h1, h2.size, fun off n => Read_eq h2 h3 off n⟩

/-- Non-vacuity: two appends that together span three blocks. -/
example : FileAllowed [] [.append (Slice.ofBytes (List.replicate 9000 1)), .truncate,
    .append (Slice.ofBytes (List.replicate 9000 2)), .append (Slice.ofBytes (List.replicate 9000 3))] := by
  have h : ∀ (k : Nat) (x : UInt8), (Slice.ofBytes (List.replicate k x)).WF := by
    intro k x; simp [Slice.WF, Slice.ofBytes]
  have hb : ∀ b : Bytes, (Slice.ofBytes b).bytes = b := by intro b; simp [Slice.bytes, Slice.ofBytes]
  simp only [FileAllowed, hb, List.length_append, List.length_replicate, List.length_nil, h, true_and]
  decide

example : (FileState.new.Append (Slice.ofBytes [1, 2, 3]) >>= fun f => f.Read 1 5) =
    .ok (.ok, some [2, 3]) := by decide +kernel

/-! ## Histories -/

theorem reached_R {e : Env} {fs : FS} (h : Reached e fs) : R e fs := by
  obtain ⟨hist, rs, ha, hr, rfl⟩ := h
  obtain ⟨e', rs', h1, _, h3⟩ := run_ok r_init hist ha
  rw [hr] at h1; cases h1
  exact h3

/-- C40: for every history of calls in which the client keeps the rules (uses open file objects of the
right kind; not the two defects C42, C43) the program runs without fault and every answer is the one the
file system specification prescribes. -/
theorem C40_refines (hist : List Op) (ha : FS.init.AllowedAll hist) :
    ∃ e rs, run Env.init hist = .ok (e, rs) ∧ FS.init.Answers hist rs := by
  obtain ⟨e, rs, h1, h2, _⟩ := run_ok r_init hist ha
  exact ⟨e, rs, h1, h2⟩

/-- C40, and such a history can always be continued: the state reached is one every further allowed call
is answered rightly in. -/
theorem C40_continues {e : Env} {fs : FS} (h : Reached e fs) (o : Op) (ha : fs.Allowed o) :
    ∃ e' r, step e o = .ok (e', r) ∧ fs.Answer o r ∧ Reached e' (fs.next o) := by
  obtain ⟨e', r, h1, h2, _⟩ := step_ok (reached_R h) o ha
  refine ⟨e', r, h1, h2, ?_⟩
  obtain ⟨hist, rs, ha', hr, rfl⟩ := h
  refine ⟨hist ++ [o], rs ++ [r], (allowedAll_append _ _ _).2 ⟨ha', ha, trivial⟩,
    run_append hr (by simp [run, h1, bind, Except.bind, pure, Except.pure]), ?_⟩
  rw [after_append]; rfl

theorem readWhole_eq {e : Env} {fs : FS} (h : R e fs) (ho : fs.opened + 2 < 2 ^ 31) (n : Bytes) :
    readWhole e n = .ok ((fs.name n).map fs.data) := by
  obtain ⟨e', r, h1, h2, h3⟩ := NewRandomAccessFile_ok h ho n
  unfold readWhole
  rw [h1]
  simp only [FS.Answer, FS.openAnswer] at h2
  cases hf : fs.name n with
  | none =>
    rw [hf] at h2
    subst h2
    rfl
  | some i =>
    rw [hf] at h2
    subst h2
    simp only [FS.next, hf] at h3
    obtain ⟨e2, r2, g1, g2, _⟩ := randRead_ok h3 (x := fs.opened) (off := 0) (n := 2 ^ 64) (i := i)
      (by simp [FS.withObj, upd])
    simp only [bind, Except.bind, g1]
    have hob : (fs.withObj (.rand i)).obj fs.opened = some (.rand i) := by simp [FS.withObj, upd]
    simp only [FS.Answer, hob, FS.readAnswer, Nat.zero_le, if_true] at g2
    subst g2
    simp only [FS.withObj]
    have hs := h.small i
    simp only [pure, Except.pure, Option.map_some, sub, List.drop_zero]
    rw [List.take_of_length_le (by omega)]

theorem names_injective {e : Env} {fs : FS} (h : R e fs) {m n : Bytes} {i : Nat}
    (hm : fs.name m = some i) (hn : fs.name n = some i) : m = n := by
  refine Classical.byContradiction fun hne => ?_
  have fm : mapFind e.map m = some (some i) := by rw [h.name, hm]; rfl
  have fn : mapFind e.map n = some (some i) := by rw [h.name, hn]; rfl
  have h1 := cntMap_erase h.sorted fn i
  have h2 := h.one i
  have h3 : mapFind (mapErase e.map n) m = some (some i) := by
    rw [mapFind_mapErase, if_neg hne, fm]
  have h4 := cntMap_pos h3
  simp at h1
  omega

/-- C40, what a missing name means: every operation that needs the file answers with an error, stores
null or nothing, and changes nothing. -/
theorem C40_missing {e : Env} {fs : FS} (h : Reached e fs) (n : Bytes) (hn : fs.name n = none) :
    step e (.fileExists n) = .ok (e, .bool false) ∧
    step e (.newSequential n) = .ok (e, .opened (FS.missing n) none) ∧
    step e (.newRandomAccess n) = .ok (e, .opened (FS.missing n) none) ∧
    step e (.getFileSize n) = .ok (e, .size (FS.missing n) none) ∧
    step e (.removeFile n) = .ok (e, .status (FS.missing n)) ∧
    ∀ m, step e (.renameFile n m) = .ok (e, .status (FS.missing n)) := by
  have hf : mapFind e.map n = none := by rw [(reached_R h).name, hn]; rfl
  refine ⟨?_, ?_, ?_, ?_, ?_, fun m => ?_⟩ <;>
  simp [step, FileExists, NewSequentialFile, NewRandomAccessFile, GetFileSize, RemoveFile, RenameFile, hf,
    bind, Except.bind, pure, Except.pure, notFound, FS.missing, lit]

/-- C40, effects seen through the interface: `NewWritableFile` leaves an empty file of that name,
`RemoveFile` of an existing file leaves none, and neither changes what any other name reads as. -/
theorem C40_effects {e : Env} {fs : FS} (h : Reached e fs) (ho : fs.opened + 3 < 2 ^ 31) (n : Bytes) :
    (∃ e' x, step e (.newWritable n) = .ok (e', .opened .ok (some x)) ∧
      readWhole e' n = .ok (some []) ∧ ∀ m, m ≠ n → readWhole e' m = readWhole e m) ∧
    ((fs.name n).isSome → ∃ e', step e (.removeFile n) = .ok (e', .status .ok) ∧
      readWhole e' n = .ok none ∧ ∀ m, m ≠ n → readWhole e' m = readWhole e m) := by
  have hR := reached_R h
  constructor
  · obtain ⟨e', r, h1, h2, h3⟩ := NewWritableFile_ok hR (by omega) n
    simp only [FS.Answer] at h2
    subst h2
    refine ⟨e', _, h1, ?_, ?_⟩
    · cases hf : fs.name n with
      | none =>
        simp only [FS.next, hf] at h3
        rw [readWhole_eq h3 (by simp [FS.withObj]; omega)]
        simp [FS.withObj, upd]
      | some i =>
        simp only [FS.next, hf] at h3
        rw [readWhole_eq h3 (by simp [FS.withObj]; omega)]
        simp [FS.withObj, upd, hf]
    · intro m hm
      rw [readWhole_eq hR (by omega)]
      cases hf : fs.name n with
      | none =>
        simp only [FS.next, hf] at h3
        rw [readWhole_eq h3 (by simp [FS.withObj]; omega)]
        simp only [FS.withObj, upd_other _ _ hm]
        cases hfm : fs.name m with
        | none => rfl
        | some j =>
          have := hR.nameLt m j hfm
          simp [upd, show j ≠ fs.made by omega]
      | some i =>
        simp only [FS.next, hf] at h3
        rw [readWhole_eq h3 (by simp [FS.withObj]; omega)]
        simp only [FS.withObj]
        cases hfm : fs.name m with
        | none => rfl
        | some j =>
          have : j ≠ i := by rintro rfl; exact hm (names_injective hR hfm hf)
          simp [upd, this]
  · intro hs
    obtain ⟨e', r, h1, h2, h3⟩ := RemoveFile_ok hR n
    simp only [FS.Answer, hs, if_true] at h2
    subst h2
    simp only [FS.next] at h3
    refine ⟨e', h1, ?_, ?_⟩
    · rw [readWhole_eq h3 (by simp only []; omega)]; simp [upd]
    · intro m hm
      rw [readWhole_eq h3 (by simp only []; omega), readWhole_eq hR (by omega)]
      simp [upd, hm]

/-- A history that exercises most of the interface, including removal of an open file, is allowed. -/
def sampleHistory : List Op :=
  [.newWritable [97], .append 0 (Slice.ofBytes [1, 2, 3]), .newSequential [97], .seqRead 1 2,
   .renameFile [97] [98], .removeFile [98], .seqRead 1 2, .append 0 (Slice.ofBytes [4]), .seqSkip 1 9,
   .delete 1, .close 0, .delete 0, .fileExists [98], .destroyEnv]

example : FS.init.AllowedAll sampleHistory := by
  simp [sampleHistory, FS.AllowedAll, FS.Allowed, FS.init, FS.next, FS.withObj, upd, Slice.WF,
    Slice.ofBytes, Slice.bytes, sub]

example : (run Env.init sampleHistory).map (fun r => r.2) =
    .ok [.opened .ok (some 0), .status .ok, .opened .ok (some 1), .data .ok (some [1, 2]), .status .ok,
      .status .ok, .data .ok (some [3]), .status .ok, .status .ok, .unit, .status .ok, .unit,
      .bool false, .unit] := by decide +kernel

/-! ## C39 -/

theorem seq_run {e : Env} {fs : FS} (h : R e fs) {x i : Nat} (qs : List Req) {pos : Nat}
    (hx : fs.obj x = some (.seq i pos)) (hp : pos ≤ (fs.data i).length) :
    ∃ e', run e (qs.map (Req.op x)) = .ok (e', seqAnswers (fs.data i) pos qs) := by
  induction qs generalizing e fs pos with
  | nil => exact ⟨e, rfl⟩
  | cons q qs ih =>
    cases q with
    | read n =>
      obtain ⟨e1, r, h1, h2, h3⟩ := seqRead_ok h (n := n) hx
      simp only [FS.Answer, hx, FS.readAnswer, if_pos hp] at h2
      simp only [FS.next, hx, if_pos hp] at h3
      subst h2
      have hlen : pos + (sub (fs.data i) pos n).length = min (pos + n) (fs.data i).length := by
        simp [sub]; omega
      rw [hlen] at h3
      obtain ⟨e2, h4⟩ := ih h3 (pos := min (pos + n) (fs.data i).length) (by simp [upd]) (by simp only []; omega)
      exact ⟨e2, by simp only [List.map_cons, Req.op, run, h1, bind, Except.bind, h4, pure, Except.pure,
        seqAnswers, Req.amount]⟩
    | skip n =>
      obtain ⟨e1, r, h1, h2, h3⟩ := seqSkip_ok h (n := n) hx
      simp only [FS.Answer, hx, if_pos hp] at h2
      simp only [FS.next, hx, if_pos hp] at h3
      subst h2
      obtain ⟨e2, h4⟩ := ih h3 (pos := min (pos + n) (fs.data i).length) (by simp [upd]) (by simp only []; omega)
      exact ⟨e2, by simp only [List.map_cons, Req.op, run, h1, bind, Except.bind, h4, pure, Except.pure,
        seqAnswers, Req.amount]⟩

/-- C39: in any reachable state, a sequential file object standing inside its file answers every
sequence of reads and skips, of any sizes, with consecutive pieces, never moving beyond the end. -/
theorem C39_partition {e : Env} {fs : FS} (h : Reached e fs) {x i pos : Nat}
    (hx : fs.obj x = some (.seq i pos)) (hp : pos ≤ (fs.data i).length) (qs : List Req) :
    ∃ e', run e (qs.map (Req.op x)) = .ok (e', seqAnswers (fs.data i) pos qs) :=
  seq_run (reached_R h) qs hx hp

/-- C39: a newly opened sequential file stands at 0 of the named file. -/
theorem C39_open {e : Env} {fs : FS} (h : Reached e fs) (ho : fs.opened + 2 < 2 ^ 31) {n : Bytes} {i : Nat}
    (hn : fs.name n = some i) (qs : List Req) :
    ∃ e' e'' x, step e (.newSequential n) = .ok (e', .opened .ok (some x)) ∧
      run e' (qs.map (Req.op x)) = .ok (e'', seqAnswers (fs.data i) 0 qs) := by
  obtain ⟨e', r, h1, h2, h3⟩ := NewSequentialFile_ok (reached_R h) ho n
  simp only [FS.Answer, FS.openAnswer, hn] at h2
  simp only [FS.next, hn] at h3
  subst h2
  obtain ⟨e'', h4⟩ := seq_run h3 (x := fs.opened) (i := i) (pos := 0) qs (by simp [FS.withObj, upd]) (Nat.zero_le _)
  exact ⟨e', e'', _, h1, h4⟩

/-- The bytes in the answers of read requests. -/
def dataOf : List Res → Bytes
  | [] => []
  | .data _ (some d) :: rs => d ++ dataOf rs
  | _ :: rs => dataOf rs

/-- C39: reads alone return the contents from the position on, in order and without gaps; once the
requested total reaches the end, all of it. -/
theorem C39_reads_concatenate (c : Bytes) (pos : Nat) (hp : pos ≤ c.length) (ns : List Nat) :
    dataOf (seqAnswers c pos (ns.map .read)) = sub c pos ns.sum ∧
    (c.length ≤ pos + ns.sum → dataOf (seqAnswers c pos (ns.map .read)) = c.drop pos) := by
  have key : dataOf (seqAnswers c pos (ns.map .read)) = sub c pos ns.sum := by
    induction ns generalizing pos with
    | nil => simp [seqAnswers, dataOf, sub]
    | cons n ns ih =>
      simp only [List.map_cons, seqAnswers, dataOf, Req.amount, List.sum_cons]
      rw [ih _ (by omega)]
      unfold sub
      rw [List.take_add, List.drop_drop]
      congr 1
      by_cases hle : pos + n ≤ c.length
      · rw [Nat.min_eq_left hle]
      · rw [Nat.min_eq_right (by omega), List.drop_length, List.drop_eq_nil_of_le (by omega)]
  refine ⟨key, fun hl => ?_⟩
  rw [key]
  unfold sub
  rw [List.take_of_length_le (by rw [List.length_drop]; omega)]

/-- C39: a read of a positive size returns nothing only at the end of the file. -/
theorem C39_empty_only_at_end (c : Bytes) (pos n : Nat) (hp : pos ≤ c.length) (hn : 0 < n)
    (he : sub c pos n = []) : pos = c.length := by
  unfold sub at he
  have := congrArg List.length he
  simp at this
  omega

/-! ## C41 -/

/-- C41: an open file object is not affected by removing or renaming names (its own included), by
closing other file objects or by destroying the Env: a read through it returns the same as before. -/
theorem C41_survives {e : Env} {fs : FS} (h : Reached e fs) {x i : Nat} (hx : fs.obj x = some (.rand i))
    (o : Op) (ha : fs.Allowed o)
    (hk : (∃ n, o = .removeFile n) ∨ (∃ a b, o = .renameFile a b) ∨ (∃ y, o = .delete y ∧ y ≠ x) ∨
      o = .destroyEnv) (off n : Nat) :
    ∃ e' r e1 e1' d, step e o = .ok (e', r) ∧ step e (.randRead x off n) = .ok (e1, d) ∧
      step e' (.randRead x off n) = .ok (e1', d) := by
  obtain ⟨e', r, h1, _, h3⟩ := step_ok (reached_R h) o ha
  obtain ⟨e1, d, g1, g2, _⟩ := randRead_ok (reached_R h) (off := off) (n := n) hx
  have hx' : (fs.next o).obj x = some (.rand i) ∧ (fs.next o).data i = fs.data i := by
    rcases hk with ⟨n, rfl⟩ | ⟨a, b, rfl⟩ | ⟨y, rfl, hy⟩ | rfl
    · exact ⟨hx, rfl⟩
    · simp only [FS.next]; split
      · exact ⟨hx, rfl⟩
      · split <;> exact ⟨hx, rfl⟩
    · exact ⟨by simp only [FS.next]; rw [upd_other _ _ (Ne.symm hy)]; exact hx, rfl⟩
    · exact ⟨hx, rfl⟩
  obtain ⟨e1', d', k1, k2, _⟩ := randRead_ok h3 (off := off) (n := n) hx'.1
  refine ⟨e', r, e1, e1', d, h1, g1, ?_⟩
  simp only [FS.Answer, hx, FS.readAnswer] at g2
  simp only [FS.Answer, hx'.1, hx'.2, FS.readAnswer] at k2
  rw [k1, g2, k2]

/-- C41: an open file object stays usable whatever happened to its name: after any further allowed
history that does not delete it, a read, skip or append through it does not fault. -/
theorem C41_usable (hist : List Op) (ha : FS.init.AllowedAll hist) {x : Nat} {ob : Obj}
    (hx : (FS.init.after hist).obj x = some ob) :
    ∃ e rs, run Env.init hist = .ok (e, rs) ∧
      (∀ i pos n, ob = .seq i pos → ∃ e' r, step e (.seqRead x n) = .ok (e', r)) ∧
      (∀ i off n, ob = .rand i → ∃ e' r, step e (.randRead x off n) = .ok (e', r)) ∧
      (∀ i d, ob = .wr i → d.WF → ((FS.init.after hist).data i).length + d.len < 2 ^ 64 →
        ∃ e', step e (.append x d) = .ok (e', .status .ok)) := by
  obtain ⟨e, rs, h1, _, h3⟩ := run_ok r_init hist ha
  refine ⟨e, rs, h1, ?_, ?_, ?_⟩
  · rintro i pos n rfl
    obtain ⟨e', r, g, _⟩ := seqRead_ok h3 (n := n) hx
    exact ⟨e', r, g⟩
  · rintro i off n rfl
    obtain ⟨e', r, g, _⟩ := randRead_ok h3 (off := off) (n := n) hx
    exact ⟨e', r, g⟩
  · rintro i d rfl hw hl
    obtain ⟨e', r, g, g2, _⟩ := append_ok h3 hw hx hl
    simp only [FS.Answer] at g2
    subst g2
    exact ⟨e', g⟩

/-- C41: in every reachable state the storage of a file that was created has been released exactly once
if no name and no open file object refers to it, and not at all otherwise. -/
theorem C41_freed_exactly_when {e : Env} {fs : FS} (h : Reached e fs) (i : Nat) (hi : i < fs.made) :
    (fs.InUse i → e.freed.count i = 0) ∧ (¬ fs.InUse i → e.freed.count i = 1) :=
  freed_count (reached_R h) i hi

/-- C41: nothing leaks: when the Env is destroyed and no file object is open, every file ever created
has been released, once. -/
theorem C41_no_leak {e : Env} {fs : FS} (h : Reached e fs) (hn : ∀ x, fs.obj x = none) :
    ∃ e', step e .destroyEnv = .ok (e', .unit) ∧ ∀ i, e'.freed.count i = if i < fs.made then 1 else 0 := by
  obtain ⟨e', r, h1, h2, h3⟩ := destroyEnv_ok (reached_R h)
  simp only [FS.Answer] at h2
  subst h2
  refine ⟨e', h1, fun i => ?_⟩
  by_cases hi : i < fs.made
  · rw [if_pos hi]
    refine (freed_count h3 i hi).2 ?_
    rintro (⟨n, hn'⟩ | ⟨x, o, hx, _⟩)
    · cases hn'
    · simp only [FS.next] at hx; rw [hn] at hx; cases hx
  · rw [if_neg hi]
    refine h3.files.out i ?_
    rw [h3.made]
    exact Nat.le_of_not_lt hi

/-! ## C42 -/

theorem null_entry_faults {e : Env} {n : Bytes} (h : mapFind e.map n = some none) :
    step e (.fileExists n) = .ok (e, .bool true) ∧
    step e (.getFileSize n) = .error .nullDeref ∧
    step e (.newSequential n) = .error .nullDeref ∧
    step e (.newRandomAccess n) = .error .nullDeref ∧
    step e (.newWritable n) = .error .nullDeref ∧
    step e (.removeFile n) = .error .nullDeref := by
  refine ⟨?_, ?_, ?_, ?_, ?_, ?_⟩ <;>
  simp [step, FileExists, GetFileSize, NewSequentialFile, NewRandomAccessFile, NewWritableFile, RemoveFile,
    RemoveFileInternal, h, mapIndex, newObj, Ref, Unref, getFile, bind, Except.bind]

theorem unrefAll_null : ∀ (m : FileMap) (e : Env), (∃ n, (n, none) ∈ m) → ∃ f, unrefAll m e = .error f := by
  intro m
  induction m with
  | nil => rintro e ⟨n, hn⟩; cases hn
  | cons a r ih =>
    obtain ⟨k, v⟩ := a
    rintro e ⟨n, hn⟩
    cases hu : Unref e v with
    | error f => exact ⟨f, by simp [unrefAll, hu, bind, Except.bind]⟩
    | ok e1 =>
      have : (n, none) ∈ r := by
        rcases List.mem_cons.1 hn with hn | hn
        · cases hn; simp [Unref, getFile, bind, Except.bind] at hu
        · exact hn
      obtain ⟨f, hf⟩ := ih e1 ⟨n, this⟩
      exact ⟨f, by simp [unrefAll, hu, hf, bind, Except.bind]⟩

/-- C42 is false of the code.  In every reachable state, opening a name that does not exist with
`NewAppendableFile` returns OK, appends through it succeed, and then the name is reported to exist but
every attempt to open it, get its size or remove it dereferences null, and so does destroying the Env. -/
theorem C42_new_name_is_poisoned {e : Env} {fs : FS} (h : Reached e fs) (n : Bytes)
    (hn : fs.name n = none) (d : Slice) (hw : d.WF) :
    ∃ e1 e2 x, step e (.newAppendable n) = .ok (e1, .opened .ok (some x)) ∧
      step e1 (.append x d) = .ok (e2, .status .ok) ∧
      step e2 (.fileExists n) = .ok (e2, .bool true) ∧
      step e2 (.getFileSize n) = .error .nullDeref ∧
      step e2 (.newSequential n) = .error .nullDeref ∧
      step e2 (.newRandomAccess n) = .error .nullDeref ∧
      step e2 (.newWritable n) = .error .nullDeref ∧
      step e2 (.removeFile n) = .error .nullDeref ∧
      ∃ f, step e2 .destroyEnv = .error f := by
  have hR := reached_R h
  have hf : mapFind e.map n = none := by rw [hR.name, hn]; rfl
  obtain ⟨f2, a1, a2, a3⟩ := Append_eq (finv_refs finv_new 2) hw
  refine ⟨⟨mapSet e.map n none, e.files ++ [some { FileState.new with refs := 2 }],
    e.objs ++ [some (.wr e.files.length)], e.freed⟩,
    ⟨mapSet e.map n none, (e.files ++ [some { FileState.new with refs := 2 }]).set e.files.length (some f2),
    e.objs ++ [some (.wr e.files.length)], e.freed⟩, e.objs.length, ?_, ?_, ?_⟩
  · simp [step, NewAppendableFile, mapIndex, hf, newFile, newObj, Ref, getFile, setFile, bind, Except.bind,
      pure, Except.pure, FileState.new]
  · simp [step, wrAppend, getObj, getFile, a1, setFile, bind, Except.bind, pure, Except.pure]
  · have hm : mapFind (mapSet e.map n none) n = some none := by
      rw [mapFind_mapSet _ hR.sorted, if_pos rfl]
    have hnull := null_entry_faults
      (e := ⟨mapSet e.map n none, (e.files ++ [some { FileState.new with refs := 2 }]).set e.files.length (some f2),
        e.objs ++ [some (.wr e.files.length)], e.freed⟩) (n := n) hm
    refine ⟨hnull.1, hnull.2.1, hnull.2.2.1, hnull.2.2.2.1, hnull.2.2.2.2.1, hnull.2.2.2.2.2, ?_⟩
    obtain ⟨f, hf⟩ := unrefAll_null (mapSet e.map n none)
      ⟨mapSet e.map n none, (e.files ++ [some { FileState.new with refs := 2 }]).set e.files.length (some f2),
        e.objs ++ [some (.wr e.files.length)], e.freed⟩ ⟨n, mapFind_mem hm⟩
    exact ⟨f, by simp only [step, destroyEnv, bind, Except.bind]; rw [hf]⟩

/-- C42 for a name that exists: `NewAppendableFile` keeps the contents, appended data goes to their end,
and later reads of the name see it; other names read as before.  (Missing from the full statement: a
name that did not exist.) -/
theorem C42_existing_partial {e : Env} {fs : FS} (h : Reached e fs) (ho : fs.opened + 3 < 2 ^ 31)
    (n : Bytes) (c : Bytes) (hc : readWhole e n = .ok (some c)) (d : Slice) (hw : d.WF)
    (hl : c.length + d.len < 2 ^ 64) :
    ∃ e1 e2 x, step e (.newAppendable n) = .ok (e1, .opened .ok (some x)) ∧
      readWhole e1 n = .ok (some c) ∧
      step e1 (.append x d) = .ok (e2, .status .ok) ∧
      readWhole e2 n = .ok (some (c ++ d.bytes)) := by
  have hR := reached_R h
  rw [readWhole_eq hR (by omega)] at hc
  cases hf : fs.name n with
  | none => rw [hf] at hc; cases hc
  | some i =>
    rw [hf] at hc
    simp only [Option.map_some] at hc
    injection hc with hc; injection hc with hc; subst hc
    obtain ⟨e1, r, h1, h2, h3⟩ := NewAppendableFile_ok hR (by omega) n (by simp [hf])
    simp only [FS.Answer] at h2
    subst h2
    simp only [FS.next, hf] at h3
    obtain ⟨e2, r, h4, h5, h6⟩ := append_ok h3 (x := fs.opened) (i := i) hw (by simp [FS.withObj, upd]) hl
    simp only [FS.Answer] at h5
    subst h5
    refine ⟨e1, e2, _, h1, ?_, h4, ?_⟩
    · rw [readWhole_eq h3 (by simp [FS.withObj]; omega)]
      simp [FS.withObj, hf]
    · simp only [FS.next, FS.withObj, upd_same] at h6
      rw [readWhole_eq h6 (by simp only []; omega)]
      simp [hf, upd]

/-! ## C43 -/

/-- C43 is false of the code: renaming an existing file onto itself returns OK and the file is gone. -/
theorem C43_self_rename_deletes {e : Env} {fs : FS} (h : Reached e fs) (n : Bytes)
    (hn : (fs.name n).isSome) :
    ∃ e', step e (.renameFile n n) = .ok (e', .status .ok) ∧
      step e' (.fileExists n) = .ok (e', .bool false) := by
  have hR := reached_R h
  obtain ⟨i, hi⟩ := Option.isSome_iff_exists.1 hn
  have hf : mapFind e.map n = some (some i) := by rw [hR.name, hi]; rfl
  obtain ⟨e1, h1, h2⟩ := RemoveFileInternal_ok hR n
  refine ⟨_, by
    simp only [step, RenameFile, hf, h1, bind, Except.bind, pure, Except.pure]
    rfl, ?_⟩
  simp [step, FileExists, mapFind_mapErase]

/-- C43 for two different names: after OK the target reads as the source did, the source is gone,
every other name reads as before; a missing source is an error that changes nothing.  (Missing from the
full statement: equal names.) -/
theorem C43_rename_partial {e : Env} {fs : FS} (h : Reached e fs) (ho : fs.opened + 2 < 2 ^ 31)
    (a b : Bytes) (hab : a ≠ b) :
    (∀ c, readWhole e a = .ok (some c) →
      ∃ e', step e (.renameFile a b) = .ok (e', .status .ok) ∧ readWhole e' b = .ok (some c) ∧
        readWhole e' a = .ok none ∧ ∀ n, n ≠ a → n ≠ b → readWhole e' n = readWhole e n) ∧
    (readWhole e a = .ok none → step e (.renameFile a b) = .ok (e, .status (FS.missing a))) := by
  have hR := reached_R h
  constructor
  · intro c hc
    rw [readWhole_eq hR ho] at hc
    cases hf : fs.name a with
    | none => rw [hf] at hc; cases hc
    | some i =>
      rw [hf] at hc
      simp only [Option.map_some] at hc
      injection hc with hc; injection hc with hc; subst hc
      obtain ⟨e', r, h1, h2, h3⟩ := RenameFile_ok hR a b (.inl hab)
      simp only [FS.Answer, hf, Option.isSome_some, if_true] at h2
      subst h2
      simp only [FS.next, hf, if_neg hab] at h3
      refine ⟨e', h1, ?_, ?_, ?_⟩
      · rw [readWhole_eq h3 ho]
        simp [upd, Ne.symm hab]
      · rw [readWhole_eq h3 ho]
        simp [upd]
      · intro n hna hnb
        rw [readWhole_eq h3 ho, readWhole_eq hR ho]
        simp [upd, hna, hnb]
  · intro hc
    rw [readWhole_eq hR ho] at hc
    cases hf : fs.name a with
    | some i => rw [hf] at hc; cases hc
    | none =>
      have hm : mapFind e.map a = none := by rw [hR.name, hf]; rfl
      simp [step, RenameFile, hm, bind, Except.bind, pure, Except.pure, notFound, lit, FS.missing]

/-! ## C44 -/

/-- C44: in every reachable state `GetChildren(d)` returns OK with exactly the strings `s` for which the
file `d/s` exists, in strictly increasing byte order (so without duplicates), and changes nothing. -/
theorem C44_children {e : Env} {fs : FS} (h : Reached e fs) (d : Bytes) :
    ∃ l, step e (.getChildren d) = .ok (e, .list .ok l) ∧ l.Pairwise lexLt ∧ l.Nodup ∧
      ∀ s, s ∈ l ↔ step e (.fileExists (d ++ 47 :: s)) = .ok (e, .bool true) := by
  have hR := reached_R h
  simp only [step, GetChildren, childrenLoop_eq, bind, Except.bind, pure, Except.pure, List.nil_append]
  refine ⟨_, rfl, children_sorted d hR.sorted, ?_, ?_⟩
  · refine List.Pairwise.imp ?_ (children_sorted d hR.sorted)
    rintro a b hab rfl
    rw [← strLt_iff, strLt_irrefl] at hab
    cases hab
  · intro s
    rw [children_mem]
    simp [FileExists]

example : (run Env.init [.newWritable [100, 47, 98], .newWritable [100, 47, 97], .newWritable [101],
    .newWritable [100, 120, 47, 97], .getChildren [100]]).map (fun r => r.2.getLast?) =
    .ok (some (.list .ok [[97], [98]])) := by decide +kernel

/-! ## C45 -/

/-- C45 is false of the code: `LockFile` succeeds whatever is locked already; here twice in a row on the
same name without an unlock. -/
theorem C45_lock_does_not_exclude (locks : List Bool) (f : Bytes) :
    (LockFile locks f).1 = .ok ∧ (LockFile (LockFile locks f).2.2 f).1 = .ok ∧
      (LockFile locks f).2.2[(LockFile locks f).2.1]? = some true := by
  simp [LockFile]

/-- What is left of C45: each `LockFile` hands out a lock object distinct from all earlier ones, and it
can be unlocked, once; other locks are untouched.  (Missing: exclusion.) -/
theorem C45_lock_object_partial (locks : List Bool) (f : Bytes) :
    ∃ l locks', LockFile locks f = (.ok, l, locks') ∧ locks[l]? = none ∧
      ∃ locks'', UnlockFile locks' l = .ok (.ok, locks'') ∧ UnlockFile locks'' l = .error .doubleFree ∧
        ∀ k, k ≠ l → locks''[k]? = locks'[k]? := by
  refine ⟨_, _, rfl, by simp, (locks ++ [true]).set locks.length false, by simp [UnlockFile], ?_, ?_⟩
  · simp [UnlockFile]
  · intro k hk
    exact List.getElem?_set_ne (Ne.symm hk)

/-! ## C65 -/

/-- C65 is false of the in-memory Env: in every reachable state, opening a missing file for reading
gives an IOError, not a NotFound status.  (`lsmdb::Status` code 5, not 1.) -/
theorem C65_memenv_reports_io_error {e : Env} {fs : FS} (h : Reached e fs) (n : Bytes)
    (hn : fs.name n = none) :
    ∃ m m2, step e (.newSequential n) = .ok (e, .opened (.err .ioError m m2) none) ∧
      step e (.newRandomAccess n) = .ok (e, .opened (.err .ioError m m2) none) := by
  have := C40_missing h n hn
  exact ⟨_, _, this.2.1, this.2.2.1⟩

/-! ## C66 -/

/-- C66 is false of the code.  There is a reachable state with a sequential file object in the middle of
a file, and a schedule: `Skip` queries the size, another thread truncates the file by re-creating it
with `NewWritableFile`, `Skip` queries the size again and goes on; it reports no error and leaves the
position beyond the size the file had at every moment during the call. -/
theorem C66_skip_races_with_truncation :
    ∃ (n : Bytes) (e e' e1 e1' : Env) (fs : FS) (x i pos size1 size2 amount : Nat) (r : Res),
      Reached e fs ∧ fs.obj x = some (.seq i pos) ∧
      step e (.getFileSize n) = .ok (e', .size .ok (some size1)) ∧ skipCheck pos size1 = none ∧
      step e (.newWritable n) = .ok (e1, r) ∧
      step e1 (.getFileSize n) = .ok (e1', .size .ok (some size2)) ∧
      size1 < skipMove pos size2 amount ∧ size2 < skipMove pos size2 amount := by
  let hist : List Op := [.newWritable [97], .append 0 (Slice.ofBytes [1, 2, 3, 4]), .newSequential [97],
    .seqRead 1 2]
  have ha : FS.init.AllowedAll hist := by
    simp [hist, FS.AllowedAll, FS.Allowed, FS.init, FS.next, FS.withObj, upd, Slice.WF, Slice.ofBytes]
  obtain ⟨e, rs, h1, _, hR⟩ := run_ok r_init hist ha
  obtain ⟨e', r', g1, g2, _⟩ := GetFileSize_ok hR [97]
  obtain ⟨e1, r, k1, _, hR1⟩ := NewWritableFile_ok hR (by decide) [97]
  obtain ⟨e1', r1', m1, m2, _⟩ := GetFileSize_ok hR1 [97]
  have hobj : (FS.init.after hist).obj 1 = some (.seq 0 2) := by decide
  have e2 : r' = .size .ok (some 4) := by rw [g2]; decide
  have e3 : r1' = .size .ok (some 0) := by rw [m2]; decide
  subst e2 e3
  exact ⟨[97], e, e', e1, e1', _, 1, 0, 2, 4, 0, 100, r, ⟨hist, rs, ha, h1, rfl⟩, hobj, g1, by decide, k1,
    m1, by decide, by decide⟩

/-- C66 if the file does not shrink between the two size queries: a skip that does not return an error
leaves the position inside the file as it was at the second query, having moved forward by the requested
amount or to the end.  (Missing: concurrent truncation.) -/
theorem C66_no_truncation_partial (size1 size2 pos n : Nat) (hle : size1 ≤ size2) (hb : size2 < 2 ^ 64)
    (hok : skipCheck pos size1 = none) :
    skipMove pos size2 n = min (pos + n) size2 ∧ pos ≤ skipMove pos size2 n := by
  have hp : pos ≤ size1 := by
    unfold skipCheck at hok
    split at hok
    · cases hok
    · omega
  have h1 : (size2 + 2 ^ 64 - pos) % 2 ^ 64 = size2 - pos := by
    have : size2 + 2 ^ 64 - pos = (size2 - pos) + 2 ^ 64 := by omega
    rw [this, Nat.add_mod_right, Nat.mod_eq_of_lt (by omega)]
  unfold skipMove
  simp only [h1]
  split
  · rw [Nat.mod_eq_of_lt (by omega)]; omega
  · rw [Nat.mod_eq_of_lt (by omega)]; omega

example : skipCheck 3 10 = none ∧ skipMove 3 12 4 = 7 := by decide

end Props
end Lsmdb
