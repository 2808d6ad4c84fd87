import Verif.Spec.EnvI
import Verif.Props.EnvUtilMem

/-!
# C79: the in-memory Env behind the interface `Env`

What `Props/MemEnv` says of the calls is what a client sees that holds an `Env*`.
-/

namespace Lsmdb
namespace Iface

open MemEnv (St lit Op Res Obj step)
open _root_.Lsmdb.Spec

/-- The file-system operation that a call asks for. -/
def Call.op : Call → Option Op
  | .newSequentialFile f _ => some (.newSequential f)
  | .newRandomAccessFile f _ => some (.newRandomAccess f)
  | .newWritableFile f _ => some (.newWritable f)
  | .newAppendableFile f _ => some (.newAppendable f)
  | .fileExists f => some (.fileExists f)
  | .getChildren d _ => some (.getChildren d)
  | .removeFile f => some (.removeFile f)
  | .createDir d => some (.createDir d)
  | .removeDir d => some (.removeDir d)
  | .getFileSize f _ => some (.getFileSize f)
  | .renameFile src target => some (.renameFile src target)
  | _ => none

/-- How an answer of the file system shows: an error leaves `*file_size` alone, and a failed open stores null. -/
def Call.sees (c : Call) : Res → Reply
  | .unit => .unit
  | .status s => .status s
  | .opened s h => .opened s (.of h)
  | .bool b => .bool b
  | .data s _ => .status s
  | .size s n => .size s (n.getD (match c with | .getFileSize _ old => old | _ => 0))
  | .list s l => .list s l

variable {m : Type → Type} [Monad m] [LawfulMonad m] [Faults m]

/-- C79: in every state a client can reach, every call about files made through the interface gives a right answer of
the file system and leaves the file system in the right state. -/
theorem C79_files (base : Env m) (s : MemState) (fs : FS) (h : Reached s.env fs) (c : Call) (o : Op) (hc : c.op = some o)
    (ha : fs.Allowed o) :
    ∃ r e', ((InMemoryEnv base).call c).run s = pure (c.sees r, { s with env := e' }) ∧ fs.Answer o r ∧ Reached e' (fs.next o) := by
  obtain ⟨e', r, h1, h2, h3⟩ := Props.C40_continues h o ha
  refine ⟨r, e', ?_, h2, h3⟩
  have key : ∀ {α : Type} (f : MemEnv.Env → M (α × MemEnv.Env)) (g : α → Reply), (∃ a, f s.env = .ok (a, e') ∧ g a = c.sees r) →
      ((onFiles f : StateT MemState m α) >>= fun a => pure (g a)).run s = pure (c.sees r, { s with env := e' }) := by
    intro α f g ⟨a, h4, h5⟩
    rw [StateT.run_bind, onFiles_ok h4]
    simp [h5]
  cases c with
  | createDir d => cases hc; cases h1; simp [Env.call, InMemoryEnv, Call.sees]
  | removeDir d => cases hc; cases h1; simp [Env.call, InMemoryEnv, Call.sees]
  | newSequentialFile f p =>
    cases hc
    simp only [Env.call, InMemoryEnv]
    refine key _ (fun a : St × Ptr => .opened a.1 a.2) ?_
    simp only [step, bind, Except.bind] at h1 ⊢
    split at h1 <;> simp_all [pure, Except.pure]
    obtain ⟨rfl, rfl⟩ := h1
    rfl
  | newRandomAccessFile f p =>
    cases hc
    simp only [Env.call, InMemoryEnv]
    refine key _ (fun a : St × Ptr => .opened a.1 a.2) ?_
    simp only [step, bind, Except.bind] at h1 ⊢
    split at h1 <;> simp_all [pure, Except.pure]
    obtain ⟨rfl, rfl⟩ := h1
    rfl
  | newWritableFile f p =>
    cases hc
    simp only [Env.call, InMemoryEnv]
    refine key _ (fun a : St × Ptr => .opened a.1 a.2) ?_
    simp only [step, bind, Except.bind] at h1 ⊢
    split at h1 <;> simp_all [pure, Except.pure]
    obtain ⟨rfl, rfl⟩ := h1
    rfl
  | newAppendableFile f p =>
    cases hc
    simp only [Env.call, InMemoryEnv]
    refine key _ (fun a : St × Ptr => .opened a.1 a.2) ?_
    simp only [step, bind, Except.bind] at h1 ⊢
    split at h1 <;> simp_all [pure, Except.pure]
    obtain ⟨rfl, rfl⟩ := h1
    rfl
  | fileExists f => 
    cases hc
    simp only [Env.call, InMemoryEnv]
    refine key _ (fun a => .bool a) ?_
    simp only [step] at h1 ⊢
    cases h1
    exact ⟨_, rfl, rfl⟩
  | getChildren d l =>
    cases hc
    simp only [Env.call, InMemoryEnv]
    refine key _ (fun a : St × List Bytes => .list a.1 a.2) ?_
    simp only [step, bind, Except.bind] at h1 ⊢
    split at h1 <;> simp_all [pure, Except.pure]
    obtain ⟨rfl, rfl⟩ := h1
    rfl
  | removeFile f =>
    cases hc
    simp only [Env.call, InMemoryEnv]
    refine key _ (fun a => .status a) ?_
    simp only [step, bind, Except.bind] at h1 ⊢
    split at h1 <;> simp_all [pure, Except.pure]
    obtain ⟨rfl, rfl⟩ := h1
    exact ⟨_, rfl, rfl⟩
  | getFileSize f n =>
    cases hc
    simp only [Env.call, InMemoryEnv]
    refine key _ (fun a : St × Nat => .size a.1 a.2) ?_
    simp only [step, bind, Except.bind] at h1 ⊢
    split at h1 <;> simp_all [pure, Except.pure]
    obtain ⟨rfl, rfl⟩ := h1
    rfl
  | renameFile a b =>
    cases hc
    simp only [Env.call, InMemoryEnv]
    refine key _ (fun a => .status a) ?_
    simp only [step, bind, Except.bind] at h1 ⊢
    split at h1 <;> simp_all [pure, Except.pure]
    obtain ⟨rfl, rfl⟩ := h1
    exact ⟨_, rfl, rfl⟩
  | _ => exact nomatch hc

/-- The locks that are out: `LockFile` of any name returns OK and a lock that was never handed out before (there is no
exclusion, C45). -/
theorem C79_lock (base : Env m) (s : MemState) (f : Bytes) (p : Ptr) :
    ∃ l s', ((InMemoryEnv base).call (.lockFile f p)).run s = pure (.opened .ok (.obj l), s') ∧ s.locks[l]? = none ∧
      s'.locks[l]? = some true ∧ (∀ k, k ≠ l → s'.locks[k]? = s.locks[k]?) ∧ s'.env = s.env := by
  refine ⟨s.locks.length, { s with locks := s.locks ++ [true] }, ?_, ?_, ?_, ?_, rfl⟩
  · simp only [Env.call, InMemoryEnv]
    simp only [StateT.run, bind, StateT.bind]
    simp [pure, StateT.pure, MemEnv.LockFile]
  · simp
  · simp
  · intro k hk
    rcases Nat.lt_or_gt_of_ne hk with h | h
    · exact List.getElem?_append_left h
    · rw [List.getElem?_eq_none (by simp; omega), List.getElem?_eq_none (by omega)]

/-- `UnlockFile` of a lock that is out returns OK and takes it back, whichever name it was for, and touches nothing else;
of a null pointer it does nothing. -/
theorem C79_unlock (base : Env m) (s : MemState) (l : Nat) (hl : s.locks[l]? = some true) :
    (∃ s', ((InMemoryEnv base).call (.unlockFile (.obj l))).run s = pure (.status .ok, s') ∧ s'.locks[l]? = some false ∧
      (∀ k, k ≠ l → s'.locks[k]? = s.locks[k]?) ∧ s'.env = s.env) ∧
    ((InMemoryEnv base).call (.unlockFile .null)).run s = pure (.status .ok, s) := by
  have hlt : l < s.locks.length := (List.getElem?_eq_some_iff.1 hl).1
  have hu : MemEnv.UnlockFile s.locks l = .ok (.ok, s.locks.set l false) := by simp [MemEnv.UnlockFile, hl]
  refine ⟨⟨{ s with locks := s.locks.set l false }, ?_, ?_, ?_, rfl⟩, ?_⟩
  · simp only [Env.call, InMemoryEnv]
    simp only [StateT.run, bind, StateT.bind, Ptr.deref, Except.bind, hu, ofM]
    simp [pure, StateT.pure]
  · simp [hlt]
  · intro k hk; simp [List.getElem?_set_ne (Ne.symm hk)]
  · simp only [Env.call, InMemoryEnv]
    simp only [StateT.run, bind, StateT.bind]
    simp [pure, StateT.pure]

/-- Unlocking twice is undefined. -/
theorem C79_unlock_twice (base : Env M) (s : MemState) (l : Nat) (hl : s.locks[l]? = some false) :
    ((InMemoryEnv base).call (.unlockFile (.obj l))).run s = .error .doubleFree := by
  have hu : MemEnv.UnlockFile s.locks l = .error .doubleFree := by simp [MemEnv.UnlockFile, hl]
  simp only [Env.call, InMemoryEnv]
  simp only [StateT.run, bind, StateT.bind, Ptr.deref, Except.bind, hu, ofM]
  rfl

/-- `NewLogger` gives a logger of its own for every call, `GetTestDirectory` answers `/test`; neither touches a file or a
lock. -/
theorem C79_logger_testdir (base : Env m) (s : MemState) (f old : Bytes) (p : Ptr) :
    (∃ s', ((InMemoryEnv base).call (.newLogger f p)).run s = pure (.opened .ok (.obj s.loggers), s') ∧
      s'.loggers = s.loggers + 1 ∧ s'.env = s.env ∧ s'.locks = s.locks) ∧
    ((InMemoryEnv base).call (.getTestDirectory old)).run s = pure (.path .ok [47, 116, 101, 115, 116], s) := by
  refine ⟨⟨{ s with loggers := s.loggers + 1 }, ?_, rfl, rfl, rfl⟩, ?_⟩
  · simp only [Env.call, InMemoryEnv]
    simp only [StateT.run, bind, StateT.bind]
    simp [pure, StateT.pure]
  · simp only [Env.call, InMemoryEnv]
    simp only [StateT.run, bind, StateT.bind]
    have ht : lit "/test" = [47, 116, 101, 115, 116] := by decide +kernel
    simp [pure, StateT.pure, ht]

/-- The calls about time and threads. -/
def Call.forBase : Call → Bool
  | .schedule _ | .startThread _ | .nowMicros | .sleepForMicroseconds _ => true
  | _ => false

/-- C79: they are made on the Env that the in-memory one was built on, with the same arguments and the same answers, and
do not touch the files. -/
theorem C79_base (base : Env m) (s : MemState) (c : Call) (hc : c.forBase = true) :
    ((InMemoryEnv base).call c).run s = (do let r ← base.call c; pure (r, s)) := by
  cases c with
  | schedule f => simp [Env.call, InMemoryEnv, EnvWapper, Env.lift]
  | startThread f => simp [Env.call, InMemoryEnv, EnvWapper, Env.lift]
  | nowMicros => simp [Env.call, InMemoryEnv, EnvWapper, Env.lift]
  | sleepForMicroseconds n => simp [Env.call, InMemoryEnv, EnvWapper, Env.lift]
  | _ => exact nomatch hc

/-- The calls one after the other. -/
def Env.calls (e : Env m) : List Call → m (List Reply)
  | [] => return []
  | c :: cs => do
    let r ← e.call c
    let rs ← Env.calls e cs
    return r :: rs

/-- A session: a file is created, renamed and looked for; two locks of one name, one given back; the clock of the base. -/
example : (((InMemoryEnv { brokenEnv with NowMicros := .ok 77 }).calls
      [.newWritableFile [97] .uninit, .renameFile [97] [98], .fileExists [97], .fileExists [98], .getFileSize [97] 5, .getFileSize [98] 5,
       .lockFile [120] .uninit, .lockFile [120] .uninit, .unlockFile (.obj 0), .unlockFile .null, .newLogger [121] .null,
       .nowMicros, .createDir [122], .getChildren [122] [[1]]]).run MemState.init).map (fun r => r.1) =
    .ok [.opened .ok (.obj 0), .status .ok, .bool false, .bool true, .size (.err .ioError [97] (lit "File not found")) 5, .size .ok 0,
      .opened .ok (.obj 0), .opened .ok (.obj 1), .status .ok, .status .ok, .opened .ok (.obj 0),
      .micros 77, .status .ok, .list .ok []] := by decide +kernel

/-- The state it starts in is one of those the theorems are about. -/
example : Reached MemState.init.env FS.init := ⟨[], [], trivial, rfl, rfl⟩

end Iface
end Lsmdb
