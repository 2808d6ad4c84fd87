import Verif.Proof.PosixErr
import Verif.Props.PosixFile

/-!
# Properties of the POSIX Env: resources, readers, errors (C54 - C56, C60, C62, C65)
-/

namespace Lsmdb
namespace Posix

open MemEnv (St lit)

variable (strerror : Strerror) (full : Bool)

/-! ## C47, C60: the open calls by name -/

/-- C47: NewWritableFile that returns OK hands out an empty file. -/
theorem C47_new_writable (e e' : PEnv) (name : Bytes) (w w' : World) (h : Option Nat)
    (ho : e.NewWritableFile strerror name w = .done (.ok, h, e') w') :
    ∃ i f ino, h = some i ∧ e'.has i (.wr f) ∧ w'.k.lookup (cstr name) = some ino ∧
      ((∀ c ∈ w'.choices, Alone ino f.fd c) → Opened name f ino [] w') := by
  obtain ⟨c, i, f, ino, base, _, h1, h2, h3, h4, h5⟩ := C47_open strerror e e' .trunc (.inl rfl) name w w' h ho
  refine ⟨i, f, ino, h1, h2, h3, ?_⟩
  rw [h4] at h5
  exact h5

/-- C47: NewAppendableFile that returns OK hands out the file with the contents it had. -/
theorem C47_new_appendable (e e' : PEnv) (name : Bytes) (w w' : World) (h : Option Nat)
    (ho : e.NewAppendableFile strerror name w = .done (.ok, h, e') w') :
    ∃ c i f ino base, w.choices = c :: w'.choices ∧ h = some i ∧ e'.has i (.wr f) ∧
      w'.k.lookup (cstr name) = some ino ∧
      base = (((c.other w.k).lookup (cstr name)).bind (Contents (c.other w.k))).getD [] ∧
      ((∀ c ∈ w'.choices, Alone ino f.fd c) → Opened name f ino base w') := by
  obtain ⟨c, i, f, ino, base, h0, h1, h2, h3, h4, h5⟩ := C47_open strerror e e' .append (.inr rfl) name w w' h ho
  exact ⟨c, i, f, ino, base, h0, h1, h2, h3, h4, h5⟩

/-! ## C54: descriptors, mappings and limiter slots -/

/-- The accounts of a process: `w` is the world in which the Env was created with limits `L1` (mappings)
and `L2` (permanently open files), `e`, `w'` is now. -/
structure Accounted (L1 L2 : Int) (w : World) (e : PEnv) (w' : World) : Prop where
  /-- open descriptors: those that were open at the start and those of live objects -/
  fds : ∀ i, w'.k.isOpen i ↔ w.k.isOpen i ∨ ∃ h o, e.has h o ∧ o.ownsFd i
  /-- which belong to one object only, and never to somebody else -/
  fd_owner : ∀ h h' o o' i, e.has h o → e.has h' o' → o.ownsFd i → o'.ownsFd i → h = h'
  fd_foreign : ∀ h o i, e.has h o → o.ownsFd i → ¬ w.k.isOpen i
  maps : ∀ m, w'.k.isMapped m ↔ w.k.isMapped m ∨ ∃ h o, e.has h o ∧ o.ownsMap m
  map_owner : ∀ h h' o o' m, e.has h o → e.has h' o' → o.ownsMap m → o'.ownsMap m → h = h'
  map_foreign : ∀ h o m, e.has h o → o.ownsMap m → ¬ w.k.isMapped m
  /-- no descriptor number was closed that was not open -/
  closes : ∀ fd err, Call.close fd err ∈ w'.calls → Call.close fd err ∉ w.calls → 0 ≤ fd → err ≠ some EBADF
  /-- slots -/
  mmap_slots : e.mmap_limiter = L1 - e.count Obj.isMmap
  fd_slots : e.fd_limiter = L2 - e.count Obj.isPermanent
  mmap_limit : (e.count Obj.isMmap : Int) ≤ max 0 L1
  fd_limit : (e.count Obj.isPermanent : Int) ≤ max 0 L2

/-- C54: after any history of calls on a new Env, whatever system calls failed on the way. -/
theorem C54_accounting (L1 L2 : Int) (h1 : IsInt L1) (h2 : IsInt L2) (w : World) (hc : w.calls = [])
    (hq : ∀ c ∈ w.choices, KeepsFds c) (ops : List POp) (hv : ValidPOps ops) (e : PEnv) (rs : List PRes) (w' : World)
    (hr : (PEnv.init L1 L2).run strerror full ops w = .done (e, rs) w') : Accounted L1 L2 w e w' := by
  have h0 : Acc w.k.isOpen w.k.isMapped L1 L2 (PEnv.init L1 L2) w := by
    refine ⟨w.k.isOpen, w.k.isMapped, ⟨⟨?_, ?_, ?_, ?_, ?_, ?_, ?_⟩, ⟨h1, ?_, .inl rfl⟩, ⟨h2, ?_, .inl rfl⟩⟩,
      hq, fun _ => Iff.rfl, fun _ => Iff.rfl, by rw [hc]; simp⟩
    all_goals simp [PEnv.init, cnt]
  obtain ⟨S, T, ⟨O, M, F⟩, R⟩ := run_acc strerror full ops _ w hv h0 e rs w' hr
  refine ⟨fun i => (R.fds i).trans (O.fds i), O.fd_uniq, O.fd_ext, fun i => (R.maps i).trans (O.maps i), O.map_uniq,
    O.map_ext, fun fd err hm _ => R.calls fd err hm, M.eq, F.eq, ?_, ?_⟩
  · have := M.le
    rw [count_eq]; omega
  · have := F.le
    rw [count_eq]; omega

/-- C54: once every object is gone, nothing is left open and all slots are free again. -/
theorem C54_all_released {L1 L2 : Int} {w : World} {e : PEnv} {w' : World} (h : Accounted L1 L2 w e w')
    (hd : ∀ i o, ¬ e.has i o) : (∀ i, w'.k.isOpen i ↔ w.k.isOpen i) ∧ (∀ m, w'.k.isMapped m ↔ w.k.isMapped m) ∧
      e.mmap_limiter = L1 ∧ e.fd_limiter = L2 := by
  have hcount : ∀ p, e.count p = 0 := by
    intro p
    rw [count_eq]
    unfold cnt
    rw [List.length_eq_zero_iff, List.filter_eq_nil_iff]
    intro x hx
    obtain ⟨i, hi⟩ := List.getElem?_of_mem hx
    cases x with
    | none => simp
    | some o => exact absurd hi (hd i o)
  refine ⟨fun i => (h.fds i).trans ⟨?_, .inl⟩, fun i => (h.maps i).trans ⟨?_, .inl⟩, ?_, ?_⟩
  · rintro (h | ⟨h, o, h', _⟩)
    · exact h
    · exact absurd h' (hd h o)
  · rintro (h | ⟨h, o, h', _⟩)
    · exact h
    · exact absurd h' (hd h o)
  · rw [h.mmap_slots, hcount]; simp
  · rw [h.fd_slots, hcount]; simp

/-- C54: with a client that uses each object until it deletes it, nothing is undefined: every assertion
about descriptors holds, no freed object is touched, no buffer is overrun. -/
theorem C54_no_undefined_behaviour (L1 L2 : Int) (h1 : IsInt L1) (h2 : IsInt L2) (w : World) (hc : w.calls = [])
    (hq : ∀ c ∈ w.choices, KeepsFds c) (ops : List POp) (hv : ValidPOps ops)
    (hh : ∀ pre op post e rs w', ops = pre ++ op :: post →
      (PEnv.init L1 L2).run strerror full pre w = .done (e, rs) w' → HandleOk e op) (f : Fault) :
    (PEnv.init L1 L2).run strerror full ops w ≠ .fault f := by
  have h0 : Acc w.k.isOpen w.k.isMapped L1 L2 (PEnv.init L1 L2) w := by
    refine ⟨w.k.isOpen, w.k.isMapped, ⟨⟨?_, ?_, ?_, ?_, ?_, ?_, ?_⟩, ⟨h1, ?_, .inl rfl⟩, ⟨h2, ?_, .inl rfl⟩⟩,
      hq, fun _ => Iff.rfl, fun _ => Iff.rfl, by rw [hc]; simp⟩
    all_goals simp [PEnv.init, cnt]
  generalize PEnv.init L1 L2 = e0 at h0 hh ⊢
  generalize w.k.isOpen = ext at h0
  generalize w.k.isMapped = extm at h0
  clear hc hq
  induction ops generalizing e0 w with
  | nil => exact fun h => nomatch h
  | cons op ops ih =>
    intro hf
    unfold PEnv.run at hf
    rw [bind_eq] at hf
    have hv1 : ValidPOps [op] := fun h d hm => hv h d (by rw [List.mem_singleton] at hm; rw [hm]; exact List.mem_cons_self)
    have hv2 : ValidPOps ops := fun h d hm => hv h d (List.mem_cons_of_mem _ hm)
    have hs := step_acc strerror full h0 op (hh [] op ops e0 [] w rfl rfl) hv1
    cases hx : e0.step strerror full op w with
    | fault f => rw [hx] at hs; exact hs
    | crash w1 => rw [hx] at hf; exact nomatch hf
    | done r w1 =>
      rw [hx] at hf
      simp only [bind_eq] at hf
      have := ih w1 hv2 r.1 (by
        intro pre op' post e rs w' he hr
        refine hh (op :: pre) op' post e (r.2 :: rs) w' (by rw [he]; rfl) ?_
        unfold PEnv.run
        rw [bind_eq, hx]
        simp only [bind_eq, hr]
        rfl) (hs.done hx)
      cases hy : PEnv.run strerror full r.1 ops w1 with
      | fault f => exact this (by
          rw [hy] at hf
          injection hf with hf
          rw [hy, hf])
      | crash w2 => rw [hy] at hf; exact nomatch hf
      | done r2 w2 => rw [hy] at hf; exact nomatch hf

/-- Results of a history, and the counters, descriptors and mappings it leaves. -/
def accounts (o : Out (PEnv × List PRes)) :
    Option (List PRes × Int × Int × List Bool × List Bool) :=
  match o with
  | .done (e, rs) w => some (rs, e.mmap_limiter, e.fd_limiter, w.k.fds.map (·.isSome), w.k.maps.map (·.isSome))
  | _ => none

/-- A kernel with the file `/db/t` of three bytes; descriptor 0 is already open. -/
def tableKernel : Kernel :=
  ⟨[(lit "/", 0), (lit "/db", 1), (lit "/db/t", 2)], [], [⟨true, [], []⟩, ⟨true, [], []⟩, ⟨false, [1, 2, 3], []⟩],
    [some ⟨0, 0, false, true, false⟩], []⟩

/-- Four readers of one file with limits 1 and 1: a mapping, a permanent descriptor, and one that opens the
file anew for each read; the second open fails in `mmap`. -/
def tableOps : List POp :=
  [.newRandomAccess (lit "/db/t"), .newRandomAccess (lit "/db/t"), .newRandomAccess (lit "/db/t"),
   .newRandomAccess (lit "/db/t"), .randRead 0 1 2, .randRead 1 1 2, .randRead 2 1 2]

example : accounts ((PEnv.init 1 1).run (fun _ => []) false tableOps ⟨tableKernel,
      [calm, calm, { fail := some 12 }, calm, calm, calm, calm, calm, calm, calm, calm, calm, calm, calm, calm, calm], []⟩) =
    some ([.opened (.err .ioError (lit "/db/t") []) none, .opened .ok (some 0), .opened .ok (some 1),
      .opened .ok (some 2), .view .ok (.view 0 1 2), .data .ok (some [2, 3]), .data .ok (some [2, 3])],
      0, 0, [true, true, false], [true]) := by
  decide +kernel

example : accounts ((PEnv.init 1 1).run (fun _ => []) false (tableOps ++ [.delete 0, .delete 1, .delete 2]) ⟨tableKernel,
      [calm, calm, { fail := some 12 }, calm, calm, calm, calm, calm, calm, calm, calm, calm, calm, calm, calm, calm, calm,
       calm], []⟩) =
    some ([.opened (.err .ioError (lit "/db/t") []) none, .opened .ok (some 0), .opened .ok (some 1),
      .opened .ok (some 2), .view .ok (.view 0 1 2), .data .ok (some [2, 3]), .data .ok (some [2, 3]),
      .unit, .unit, .unit], 1, 1, [true, false, false], [false]) := by
  decide +kernel

example : KeepsFds calm ∧ ValidPOps tableOps ∧ IsInt 1 := by
  refine ⟨fun k => ⟨fun _ => Iff.rfl, fun _ => Iff.rfl⟩, ?_, by unfold IsInt; omega⟩
  intro h d hm
  simp [tableOps] at hm

/-! ## C60: errors -/

/-- C60: the calls that make one system call report its error, and OK exactly when there is none. -/
theorem C60_single_call (name target : Bytes) (w w' : World) (e : Errno) :
    (sysUnlink name w = .done (.error e) w' → ∃ st, RemoveFile strerror name w = .done st w' ∧ ReportsErr strerror name e st) ∧
    (sysMkdir name w = .done (.error e) w' → ∃ st, CreateDir strerror name w = .done st w' ∧ ReportsErr strerror name e st) ∧
    (sysRmdir name w = .done (.error e) w' → ∃ st, RemoveDir strerror name w = .done st w' ∧ ReportsErr strerror name e st) ∧
    (sysRename name target w = .done (.error e) w' →
      ∃ st, RenameFile strerror name target w = .done st w' ∧ ReportsErr strerror name e st) ∧
    (sysStat name w = .done (.error e) w' →
      ∃ st, GetFileSize strerror name w = .done (st, 0) w' ∧ ReportsErr strerror name e st) ∧
    (sysOpendir name w = .done (.error e) w' →
      ∃ st, GetChildren strerror name w = .done (st, []) w' ∧ ReportsErr strerror name e st) := by
  refine ⟨?_, ?_, ?_, ?_, ?_, ?_⟩ <;> intro h <;> refine ⟨PosixError strerror name e, ?_, PosixError_reports _ _ _⟩
  · unfold RemoveFile; rw [bind_eq, h]; rfl
  · unfold CreateDir; rw [bind_eq, h]; rfl
  · unfold RemoveDir; rw [bind_eq, h]; rfl
  · unfold RenameFile; rw [bind_eq, h]; rfl
  · unfold GetFileSize; rw [bind_eq, h]; rfl
  · unfold GetChildren; rw [bind_eq, h]; rfl

/-- C60: and return OK if it succeeds. -/
theorem C60_single_call_ok (name target : Bytes) (w w' : World) :
    (sysUnlink name w = .done (.ok ()) w' → RemoveFile strerror name w = .done .ok w') ∧
    (sysMkdir name w = .done (.ok ()) w' → CreateDir strerror name w = .done .ok w') ∧
    (sysRmdir name w = .done (.ok ()) w' → RemoveDir strerror name w = .done .ok w') ∧
    (sysRename name target w = .done (.ok ()) w' → RenameFile strerror name target w = .done .ok w') ∧
    (∀ n, sysStat name w = .done (.ok n) w' → GetFileSize strerror name w = .done (.ok, n) w') := by
  refine ⟨?_, ?_, ?_, ?_, fun n => ?_⟩ <;> intro h
  · unfold RemoveFile; rw [bind_eq, h]; rfl
  · unfold CreateDir; rw [bind_eq, h]; rfl
  · unfold RemoveDir; rw [bind_eq, h]; rfl
  · unfold RenameFile; rw [bind_eq, h]; rfl
  · unfold GetFileSize; rw [bind_eq, h]; rfl

/-- C60 and C62: an open call whose `open(2)` fails reports that error and stores null. -/
theorem C60_open (e : PEnv) (name : Bytes) (w w' : World) (err : Errno) :
    (sysOpen .rdonly name w = .done (.error err) w' →
      (∃ st, e.NewSequentialFile strerror name w = .done (st, none, e) w' ∧ ReportsErr strerror name err st) ∧
      (∃ st, e.NewRandomAccessFile strerror name w = .done (st, none, e) w' ∧ ReportsErr strerror name err st)) ∧
    (sysOpen .trunc name w = .done (.error err) w' →
      ∃ st, e.NewWritableFile strerror name w = .done (st, none, e) w' ∧ ReportsErr strerror name err st) ∧
    (sysOpen .append name w = .done (.error err) w' →
      (∃ st, e.NewAppendableFile strerror name w = .done (st, none, e) w' ∧ ReportsErr strerror name err st) ∧
      (∃ st, e.NewLogger strerror name w = .done (st, none, e) w' ∧ ReportsErr strerror name err st)) ∧
    (sysOpen .rdwr name w = .done (.error err) w' →
      ∃ st, e.LockFile strerror name w = .done (st, none, e) w' ∧ ReportsErr strerror name err st) := by
  refine ⟨fun h => ⟨?_, ?_⟩, fun h => ?_, fun h => ⟨?_, ?_⟩, fun h => ?_⟩ <;>
    refine ⟨PosixError strerror name err, ?_, PosixError_reports _ _ _⟩
  · unfold PEnv.NewSequentialFile; rw [bind_eq, h]; rfl
  · unfold PEnv.NewRandomAccessFile; rw [bind_eq, h]; rfl
  · unfold PEnv.NewWritableFile PEnv.newWFile; rw [bind_eq, h]; rfl
  · unfold PEnv.NewAppendableFile PEnv.newWFile; rw [bind_eq, h]; rfl
  · unfold PEnv.NewLogger; rw [bind_eq, h]; rfl
  · unfold PEnv.LockFile; rw [bind_eq, h]; rfl

/-- C60: no call of the Env or its files ever returns a status other than OK, a report of a system error, or
(LockFile) the report that this process holds the lock. -/
theorem C60_every_status (e e' : PEnv) (op : POp) (w w' : World) (r : PRes)
    (h : e.step strerror full op w = .done (e', r) w') (st : St) (hst : r.status? = some st) :
    st = .ok ∨ (∃ ctx err, ReportsErr strerror ctx err st) ∨
      (∃ n, op = .lockFile n ∧ st = .err .ioError (lit "lock " ++ n) (lit "already held by process")) := by
  rcases ((step_post strerror full e op w).out (e', r) w' h).1 st hst with (h | ⟨ctx, err, h⟩) | h
  · exact .inl h
  · exact .inr (.inl ⟨ctx, err, h ▸ PosixError_reports _ _ _⟩)
  · exact .inr (.inr h)

/-- C60: if `fdopen` fails, NewLogger reports the error of `close` instead when that fails too, because it
reads `errno` after `close`. -/
theorem C60_logger_reports_close_error (e : PEnv) (name : Bytes) (fd : Int) (w w1 w2 w3 : World) (e1 e2 : Errno)
    (h1 : sysOpen .append name w = .done (.ok fd) w1) (h2 : sysOther w1 = .done (.error e1) w2)
    (h3 : sysClose fd w2 = .done (.error e2) w3) :
    e.NewLogger strerror name w = .done (PosixError strerror name e2, none, e) w3 := by
  unfold PEnv.NewLogger
  rw [bind_eq, h1]
  simp only []
  rw [bind_eq, h2]
  simp only []
  rw [bind_eq, h3]
  rfl

/-! ## C62: a failing open stores null -/

/-- C62: every open call of the POSIX Env stores null exactly when it returns an error. -/
theorem C62_posix (e e' : PEnv) (op : POp) (w w' : World) (st : St) (h : Option Nat)
    (hr : e.step strerror full op w = .done (e', .opened st h) w') : st = .ok ↔ ∃ i o, h = some i ∧ e'.has i o := by
  have := ((step_post strerror full e op w).out (e', .opened st h) w' hr).2 st h rfl
  refine ⟨this.1, ?_⟩
  rintro ⟨i, o, rfl, _⟩
  by_contra hne
  exact nomatch this.2 hne

/-! ## C65: missing files -/

/-- C65: the POSIX Env reports a missing file as NotFound, with its name, when it is opened for reading. -/
theorem C65_posix_not_found (e : PEnv) (name : Bytes) (w : World) (c : Choice) (cs : List Choice)
    (hc : w.choices = c :: cs) (hf : c.fail = none) (hl : (c.other w.k).lookup (cstr name) = none) :
    (∃ w', e.NewSequentialFile strerror name w = .done (.err .notFound name (strerror ENOENT), none, e) w') ∧
    (∃ w', e.NewRandomAccessFile strerror name w = .done (.err .notFound name (strerror ENOENT), none, e) w') := by
  have ho : ∃ w', sysOpen .rdonly name w = .done (.error ENOENT) w' := by
    unfold sysOpen sys
    rw [hc]
    simp only [hf, kopen, hl]
    by_cases h0 : cstr name = []
    · simp only [h0, if_true]; exact ⟨_, rfl⟩
    · simp only [h0, if_false, Mode.creat, Bool.false_eq_true]; exact ⟨_, rfl⟩
  obtain ⟨w', ho⟩ := ho
  refine ⟨⟨w', ?_⟩, ⟨w', ?_⟩⟩
  · unfold PEnv.NewSequentialFile; rw [bind_eq, ho]; rfl
  · unfold PEnv.NewRandomAccessFile; rw [bind_eq, ho]; rfl

end Posix
end Lsmdb
