import Verif.Proof.PosixConc6

/-! A call that runs alone is the call of the sequential model: the calls of the Env. -/

namespace Lsmdb
namespace Posix

open MemEnv (St lit)

namespace Conc

open Prog

/-- The shared members of a sequential Env. -/
def sharedOf (e : PEnv) : Shared := ⟨e.locks, e.mmap_limiter, e.fd_limiter⟩

/-- What an open call made. -/
def ROpen (e : PEnv) : Fin → Shared → St × Option Nat × PEnv → Prop
  | .new o, s, r => r.1 = .ok ∧ r.2.1 = some e.objs.length ∧ r.2.2.objs = e.objs ++ [some o] ∧ s = sharedOf r.2.2
  | .back o a, s, r => o = none ∧ a = .opened r.1 r.2.1 ∧ r.2.1 = none ∧ r.2.2.objs = e.objs ∧ s = sharedOf r.2.2

/-- What a call made of the Env. -/
def RStep (e : PEnv) (home : Home) : Fin → Shared → PEnv × PRes → Prop
  | .new o, s, r => r.2 = .opened .ok (some e.objs.length) ∧ r.1.objs = e.objs ++ [some o] ∧ s = sharedOf r.1 ∧ ∀ h, home ≠ .own h
  | .back o a, s, r => r.2 = a ∧ s = sharedOf r.1 ∧
    match home with
    | .own h => r.1.objs = e.objs.set h o
    | _ => r.1.objs = e.objs

/-- A call that only looks. -/
theorem RStep.look {e : PEnv} {home : Home} (hh : ∀ h, home ≠ .own h) (r : PRes) : RStep e home (.ans r) (sharedOf e) (e, r) := by
  refine ⟨rfl, rfl, ?_⟩
  cases home with
  | none => rfl
  | reads h => rfl
  | own h => exact (hh h rfl).elim

theorem Sim.post {α β β' : Type} {N : Nat} {p : Prog α} {s : Shared} {x : P β} {g : β → P β'} {R : α → Shared → β → Prop}
    {R' : α → Shared → β' → Prop} (h : Sim N p s x R) (hg : ∀ a s' b, R a s' b → ∃ b', g b = Pure.pure b' ∧ R' a s' b') :
    Sim N p s (x >>= g) R' := by
  intro w hw
  have h1 := h w hw
  rw [bindP]
  generalize p.run s w = o at h1 ⊢
  generalize x w = o' at h1 ⊢
  cases o <;> cases o' <;> first | exact h1.elim | exact h1 | skip
  rename_i a w1 b w2
  obtain ⟨h2, rfl, h3⟩ := h1
  obtain ⟨b', hb, hr⟩ := hg _ _ _ h2
  simp only [onward, hb]
  exact ⟨hr, rfl, h3⟩

theorem bindAP {α β γ : Type} (x : P α) (f : α → P β) (g : β → P γ) : ((x >>= f) >>= g) = (x >>= fun a => f a >>= g) := by
  funext w
  rw [bindP, bindP, bindP]
  cases x w <;> first | rfl | (simp only [onward, bindP])

theorem bindAssoc {α β γ : Type} (p : Prog α) (f : α → Prog β) (g : β → Prog γ) :
    ((p >>= f) >>= g) = (p >>= fun a => f a >>= g) := by
  induction p with
  | ret a => rfl
  | fault e => rfl
  | spin => rfl
  | call c k ih => exact congrArg (Prog.call c) (funext ih)

variable {strerror : Strerror} {full : Bool} {N fuel : Nat}

theorem sim_NewSequentialFile (e : PEnv) (n : Bytes) :
    Sim N (Conc.NewSequentialFile strerror n) (sharedOf e) (e.NewSequentialFile strerror n) (ROpen e) := by
  refine Sim.call (c := .open .rdonly n) rfl fun r => ?_
  cases r with
  | error err => exact Sim.pure ⟨rfl, rfl, rfl, rfl, rfl⟩
  | ok fd => exact Sim.pure ⟨rfl, rfl, rfl, rfl⟩

theorem sim_newWFile (e : PEnv) (m : Mode) (n : Bytes) :
    Sim N (Conc.newWFile strerror m n) (sharedOf e) (e.newWFile strerror m n) (ROpen e) := by
  refine Sim.call (c := .open m n) rfl fun r => ?_
  cases r with
  | error err => exact Sim.pure ⟨rfl, rfl, rfl, rfl, rfl⟩
  | ok fd => exact Sim.ofM.then fun f => Sim.pure ⟨rfl, rfl, rfl, rfl⟩

theorem sim_NewLogger (e : PEnv) (n : Bytes) :
    Sim N (Conc.NewLogger strerror n) (sharedOf e) (e.NewLogger strerror n) (ROpen e) := by
  refine Sim.call (c := .open .append n) rfl fun r => ?_
  cases r with
  | error err => exact Sim.pure ⟨rfl, rfl, rfl, rfl, rfl⟩
  | ok fd =>
    refine Sim.call (c := .other fd) rfl fun r => ?_
    cases r with
    | ok _ => exact Sim.pure ⟨rfl, rfl, rfl, rfl⟩
    | error err =>
      refine Sim.call (c := .close fd) rfl fun r => ?_
      cases r <;> exact Sim.pure ⟨rfl, rfl, rfl, rfl, rfl⟩

theorem sim_LockFile (e : PEnv) (n : Bytes) :
    Sim N (Conc.LockFile strerror n) (sharedOf e) (e.LockFile strerror n) (ROpen e) := by
  refine Sim.call (c := .open .rdwr n) rfl fun r => ?_
  cases r with
  | error err => exact Sim.pure ⟨rfl, rfl, rfl, rfl, rfl⟩
  | ok fd =>
    refine Sim.shared (c := .insert n) rfl ?_
    by_cases h : n ∈ e.locks
    · have h1 : lockInsert (sharedOf e).locks n = (false, e.locks) := if_pos h
      have h2 : lockInsert e.locks n = (false, e.locks) := if_pos h
      simp only [h1, h2]
      exact Sim.call (c := .close fd) rfl fun _ => Sim.pure ⟨rfl, rfl, rfl, rfl, rfl⟩
    · have h1 : lockInsert (sharedOf e).locks n = (true, n :: e.locks) := if_neg h
      have h2 : lockInsert e.locks n = (true, n :: e.locks) := if_neg h
      simp only [h1, h2, if_true]
      refine Sim.call (c := .other fd) rfl fun r => ?_
      cases r with
      | ok _ => exact Sim.pure ⟨rfl, rfl, rfl, rfl⟩
      | error err =>
        refine Sim.call (c := .close fd) rfl fun _ => ?_
        refine Sim.shared (c := .remove n) rfl ?_
        exact Sim.pure ⟨rfl, rfl, rfl, rfl, rfl⟩

theorem sim_GetFileSize {s : Shared} (n : Bytes) : Sim N (Conc.GetFileSize strerror n) s (Posix.GetFileSize strerror n) (Same s) := by
  refine Sim.call (c := .stat n) rfl fun r => ?_
  cases r <;> exact Sim.pure ⟨rfl, rfl⟩

theorem sim_newRandFile (e : PEnv) (n : Bytes) (fd : Int) :
    Sim N (Conc.newRandFile n fd) (sharedOf e) (RandFile.new n fd e.fd_limiter)
      (fun f s r => f = r.1 ∧ s = sharedOf { e with fd_limiter := r.2 }) := by
  unfold Conc.newRandFile RandFile.new
  refine acquire_eq _ _ ?_
  show Sim N _ (sharedOf { e with fd_limiter := (Limiter.Acquire e.fd_limiter).2 }) _ _
  have e1 : (sharedOf e).lim .fd = e.fd_limiter := rfl
  rw [e1]
  cases h : Limiter.Acquire e.fd_limiter with
  | mk b l =>
    cases b with
    | true => exact Sim.pure ⟨rfl, rfl⟩
    | false => exact Sim.ofM.then fun _ => Sim.call (c := .close fd) rfl fun _ => Sim.pure ⟨rfl, rfl⟩

theorem sim_NewRandomAccessFile (e : PEnv) (n : Bytes) :
    Sim N (Conc.NewRandomAccessFile strerror n) (sharedOf e) (e.NewRandomAccessFile strerror n) (ROpen e) := by
  refine Sim.call (c := .open .rdonly n) rfl fun r => ?_
  cases r with
  | error err => exact Sim.pure ⟨rfl, rfl, rfl, rfl, rfl⟩
  | ok fd =>
    refine acquire_eq _ _ ?_
    show Sim N _ (sharedOf { e with mmap_limiter := (Limiter.Acquire e.mmap_limiter).2 }) _ _
    have e1 : (sharedOf e).lim .mmap = e.mmap_limiter := rfl
    rw [e1]
    cases h : Limiter.Acquire e.mmap_limiter with
    | mk b l =>
      cases b with
      | false =>
        simp only [Bool.false_eq_true, if_false]
        exact (sim_newRandFile { e with mmap_limiter := l } n fd).bind fun f s r hr => by
          obtain ⟨rfl, rfl⟩ := hr
          exact Sim.pure ⟨rfl, rfl, rfl, rfl⟩
      | true =>
        simp only [if_true]
        unfold mapFile
        simp only [bindAssoc]
        refine (sim_GetFileSize n).then fun a => ?_
        by_cases ha : a.1 = .ok
        · simp only [if_pos ha, bindAssoc]
          refine Sim.call (c := .mmap fd a.2) rfl fun r => ?_
          cases r with
          | ok m =>
            refine Sim.call (c := .close fd) rfl fun _ => ?_
            simp only [ha, ne_eq, not_true, if_false]
            exact Sim.pure ⟨rfl, rfl, rfl, rfl⟩
          | error err =>
            refine Sim.call (c := .close fd) rfl fun _ => ?_
            have hne : PosixError strerror n err ≠ .ok := PosixError_ne_ok strerror n err
            simp only [if_pos hne]
            refine release_eq _ _ ?_
            exact Sim.pure ⟨rfl, rfl, rfl, rfl, rfl⟩
        · simp only [if_neg ha]
          refine Sim.call (c := .close fd) rfl fun _ => ?_
          simp only [ne_eq, ha, not_false_eq_true, if_true]
          refine release_eq _ _ ?_
          exact Sim.pure ⟨rfl, rfl, rfl, rfl, rfl⟩

/-- The answer of an open call. -/
theorem ROpen.step {e : PEnv} {home : Home} (hh : ∀ h, home ≠ .own h) {a : Fin} {s : Shared} {r : St × Option Nat × PEnv}
    (h : ROpen e a s r) : RStep e home a s (r.2.2, .opened r.1 r.2.1) := by
  cases a with
  | new o =>
    obtain ⟨h1, h2, h3, h4⟩ := h
    exact ⟨by rw [h1, h2], h3, h4, hh⟩
  | back o x =>
    obtain ⟨h1, h2, h3, h4, h5⟩ := h
    refine ⟨h2.symm, h5, ?_⟩
    cases home with
    | none => exact h4
    | reads h => exact h4
    | own h => exact (hh h rfl).elim

theorem get_some {e : PEnv} {h : Nat} {o : Obj} (hh : e.objs[h]? = some (some o)) : e.get h = .ok o := by
  unfold PEnv.get
  rw [hh]

theorem get_bind {α : Type} {e : PEnv} {h : Nat} {o : Obj} (hh : e.objs[h]? = some (some o)) (f : Obj → P α) :
    (pureM (e.get h) >>= f) = f o := by
  rw [get_some hh]; rfl

theorem sim_UnlockFile (e : PEnv) {h : Nat} {fd : Int} {n : Bytes} (hh : e.objs[h]? = some (some (.lock fd n))) :
    Sim N (Conc.UnlockFile strerror fd n) (sharedOf e) (e.UnlockFile strerror h)
      (fun a s r => RStep e (.own h) a s (r.2, .status r.1)) := by
  unfold Conc.UnlockFile PEnv.UnlockFile
  rw [get_bind hh]
  refine Sim.call (c := .other fd) rfl fun r => ?_
  cases r with
  | error err => exact Sim.pure ⟨rfl, rfl, (set_id hh).symm⟩
  | ok _ =>
    refine Sim.shared (c := .remove n) rfl ?_
    exact Sim.call (c := .close fd) rfl fun _ => Sim.pure ⟨rfl, rfl, rfl⟩

theorem sim_delete (hN : N + 2 ≤ fuel) (e : PEnv) {h : Nat} {o : Obj} (hh : e.objs[h]? = some (some o)) (ho : ∀ fd n, o ≠ .lock fd n) :
    Sim N (do Conc.destroy strerror fuel o; Pure.pure (Fin.back Option.none .unit)) (sharedOf e) (e.delete strerror h)
      (fun a s r => RStep e (.own h) a s (r, .unit)) := by
  unfold PEnv.delete
  rw [get_bind hh]
  cases o with
  | seq f =>
    simp only [Conc.destroy, bindAssoc]
    exact Sim.call (c := .close f.fd) rfl fun _ => Sim.pure ⟨rfl, rfl, rfl⟩
  | logger fd =>
    simp only [Conc.destroy, bindAssoc]
    exact Sim.call (c := .close fd) rfl fun _ => Sim.pure ⟨rfl, rfl, rfl⟩
  | lock fd n => exact (ho fd n rfl).elim
  | mmap f =>
    simp only [Conc.destroy, mmapDestroy, bindAssoc, MmapFile.destroy, Conc.Release, bindAP]
    refine Sim.call (c := .munmap f.mmap_base) rfl fun _ => ?_
    refine Sim.shared (c := .fetchAdd .mmap) rfl ?_
    exact Sim.pure ⟨rfl, rfl, rfl⟩
  | rand f =>
    simp only [Conc.destroy, randDestroy, RandFile.destroy]
    by_cases hp : f.has_permanent_fd = true
    · simp only [if_pos hp, Conc.Release, bindAssoc, bindAP]
      refine Sim.ofM.then fun _ => ?_
      refine Sim.call (c := .close f.fd) rfl fun _ => ?_
      refine Sim.shared (c := .fetchAdd .fd) rfl ?_
      exact Sim.pure ⟨rfl, rfl, rfl⟩
    · simp only [if_neg hp]
      exact Sim.pure ⟨rfl, rfl, rfl⟩
  | wr f =>
    simp only [Conc.destroy, wDestroy, WFile.destroy]
    by_cases hp : f.fd ≥ 0
    · simp only [if_pos hp, bindAssoc, bindAP]
      exact (sim_Close strerror hN f).then fun _ => Sim.pure ⟨rfl, rfl, rfl⟩
    · simp only [if_neg hp]
      exact Sim.pure ⟨rfl, rfl, rfl⟩

/-- A call that runs alone does what the sequential model says. -/
theorem sim_body (hN : N + 2 ≤ fuel) (e : PEnv) (w : World) (th : List Thread) (op : POp)
    (ha : Conf.Allowed ⟨w, sharedOf e, e.objs, th⟩ op) :
    Sim N (body strerror full fuel op (Conf.objOf ⟨w, sharedOf e, e.objs, th⟩ op)) (sharedOf e) (e.step strerror full op)
      (RStep e (homeOf op)) := by
  obtain ⟨-, ha⟩ := ha
  cases op with
  | newSequential n =>
    exact (sim_NewSequentialFile e n).post fun a s b h => ⟨_, rfl, h.step (by intro _ h; simp [homeOf, handle, isShared] at h)⟩
  | newRandomAccess n =>
    exact (sim_NewRandomAccessFile e n).post fun a s b h => ⟨_, rfl, h.step (by intro _ h; simp [homeOf, handle, isShared] at h)⟩
  | newWritable n =>
    exact (sim_newWFile e .trunc n).post fun a s b h => ⟨_, rfl, h.step (by intro _ h; simp [homeOf, handle, isShared] at h)⟩
  | newAppendable n =>
    exact (sim_newWFile e .append n).post fun a s b h => ⟨_, rfl, h.step (by intro _ h; simp [homeOf, handle, isShared] at h)⟩
  | newLogger n =>
    exact (sim_NewLogger e n).post fun a s b h => ⟨_, rfl, h.step (by intro _ h; simp [homeOf, handle, isShared] at h)⟩
  | lockFile n =>
    exact (sim_LockFile e n).post fun a s b h => ⟨_, rfl, h.step (by intro _ h; simp [homeOf, handle, isShared] at h)⟩
  | fileExists n =>
    unfold body PEnv.step Conc.FileExists Posix.FileExists
    simp only [bindAssoc, bindAP]
    refine Sim.call (c := .access n) rfl fun r => ?_
    cases r <;> exact Sim.pure (RStep.look (by intro _ h; simp [homeOf, handle, isShared] at h) _)
  | getChildren d =>
    exact (sim_GetChildren strerror hN d).then fun r => Sim.pure (RStep.look (by intro _ h; simp [homeOf, handle, isShared] at h) _)
  | getFileSize d =>
    exact (sim_GetFileSize d).then fun r => Sim.pure (RStep.look (by intro _ h; simp [homeOf, handle, isShared] at h) _)
  | removeFile n =>
    unfold body PEnv.step Conc.RemoveFile Posix.RemoveFile
    simp only [bindAssoc, bindAP]
    exact Sim.call (c := .unlink n) rfl fun r => Sim.pure (RStep.look (by intro _ h; simp [homeOf, handle, isShared] at h) _)
  | createDir n =>
    unfold body PEnv.step Conc.CreateDir Posix.CreateDir
    simp only [bindAssoc, bindAP]
    exact Sim.call (c := .mkdir n) rfl fun r => Sim.pure (RStep.look (by intro _ h; simp [homeOf, handle, isShared] at h) _)
  | removeDir n =>
    unfold body PEnv.step Conc.RemoveDir Posix.RemoveDir
    simp only [bindAssoc, bindAP]
    exact Sim.call (c := .rmdir n) rfl fun r => Sim.pure (RStep.look (by intro _ h; simp [homeOf, handle, isShared] at h) _)
  | renameFile a b =>
    unfold body PEnv.step Conc.RenameFile Posix.RenameFile
    simp only [bindAssoc, bindAP]
    exact Sim.call (c := .rename a b) rfl fun r => Sim.pure (RStep.look (by intro _ h; simp [homeOf, handle, isShared] at h) _)
  | unlockFile h =>
    obtain ⟨fd, n, ho⟩ := ha
    have h1 : Conf.objOf ⟨w, sharedOf e, e.objs, th⟩ (.unlockFile h) = some (.lock fd n) := by
      show (e.objs[h]?).join = _
      rw [show e.objs[h]? = _ from ho]; rfl
    rw [h1]
    exact (sim_UnlockFile e ho).post fun a s b hb => ⟨_, rfl, hb⟩
  | seqRead h n =>
    obtain ⟨f, ho⟩ := ha
    have h1 : Conf.objOf ⟨w, sharedOf e, e.objs, th⟩ (.seqRead h n) = some (.seq f) := by
      show (e.objs[h]?).join = _
      rw [show e.objs[h]? = _ from ho]; rfl
    rw [h1]
    simp only [PEnv.step, get_bind ho]
    exact (sim_seqRead strerror hN f n).then fun r => Sim.pure ⟨rfl, rfl, (set_id ho).symm⟩
  | seqSkip h n =>
    obtain ⟨f, ho⟩ := ha
    have h1 : Conf.objOf ⟨w, sharedOf e, e.objs, th⟩ (.seqSkip h n) = some (.seq f) := by
      show (e.objs[h]?).join = _
      rw [show e.objs[h]? = _ from ho]; rfl
    rw [h1]
    simp only [PEnv.step, get_bind ho]
    exact (sim_seqSkip strerror f n).then fun r => Sim.pure ⟨rfl, rfl, (set_id ho).symm⟩
  | write h o =>
    obtain ⟨f, ho⟩ := ha
    have h1 : Conf.objOf ⟨w, sharedOf e, e.objs, th⟩ (.write h o) = some (.wr f) := by
      show (e.objs[h]?).join = _
      rw [show e.objs[h]? = _ from ho]; rfl
    rw [h1]
    simp only [PEnv.step, get_bind ho]
    exact (sim_wstep strerror full hN f o).then fun r => Sim.pure ⟨rfl, rfl, rfl⟩
  | randRead h off n =>
    rcases ha with ⟨f, ho⟩ | ⟨f, ho⟩
    · have h1 : Conf.objOf ⟨w, sharedOf e, e.objs, th⟩ (.randRead h off n) = some (.rand f) := by
        show (e.objs[h]?).join = _
        rw [show e.objs[h]? = _ from ho]; rfl
      rw [h1]
      simp only [PEnv.step, get_bind ho]
      exact (sim_randRead strerror f off n).then fun r => Sim.pure (RStep.look (by intro _ h; simp [homeOf, handle, isShared] at h) _)
    · have h1 : Conf.objOf ⟨w, sharedOf e, e.objs, th⟩ (.randRead h off n) = some (.mmap f) := by
        show (e.objs[h]?).join = _
        rw [show e.objs[h]? = _ from ho]; rfl
      rw [h1]
      simp only [PEnv.step, get_bind ho]
      exact Sim.pure (RStep.look (by intro _ h; simp [homeOf, handle, isShared] at h) _)
  | delete h =>
    obtain ⟨⟨o, ho, hl⟩, -⟩ := ha
    have h1 : Conf.objOf ⟨w, sharedOf e, e.objs, th⟩ (.delete h) = some o := by
      show (e.objs[h]?).join = _
      rw [show e.objs[h]? = _ from ho]; rfl
    rw [h1]
    exact (sim_delete hN e ho hl).post fun a s b hb => ⟨_, rfl, hb⟩

/-! ## The machine -/

theorem run_append {strerror : Strerror} {full : Bool} {c c' c'' : Conf} {es fs : List Ev} (h : Run strerror full c es c')
    (h' : Run strerror full c' fs c'') : Run strerror full c (es ++ fs) c'' := by
  induction h' with
  | nil => rw [List.append_nil]; exact h
  | step _ hs ih => rw [← List.append_assoc]; exact .step ih hs

/-- The steps of one thread to the end of its call. -/
theorem run_moves {strerror : Strerror} {full : Bool} {t : Nat} {home : Home} (p : Prog Fin) : ∀ (c : Conf) (a : Fin) (s : Shared) (w : World),
    c.th[t]? = some (.run home p) → p.run c.sh c.w = .done (a, s) w →
    ∃ c', Run strerror full c [] c' ∧ c' = { c with w := w, sh := s, th := c.th.set t (.run home (.ret a)) } := by
  induction p with
  | ret x =>
    intro c a s w ht h
    injection h with h1 h2
    injection h1 with h1 h3
    subst h1 h2 h3
    refine ⟨c, .nil c, ?_⟩
    rw [set_id ht]
  | fault e => intro c a s w ht h; exact nomatch h
  | spin => intro c a s w ht h; exact nomatch h
  | call cmd k ih =>
    intro c a s w ht h
    rw [run_call] at h
    cases hx : cmd.exec c.sh c.w with
    | crash w1 => rw [hx] at h; exact nomatch h
    | fault e => rw [hx] at h; exact nomatch h
    | done x w1 =>
      rw [hx] at h
      have hlt : t < c.th.length := (List.getElem?_eq_some_iff.mp ht).1
      obtain ⟨c', hr, hc⟩ := ih x.1 { c with w := w1, sh := x.2, th := c.th.set t (.run home (k x.1)) } a s w
        (List.getElem?_set_self hlt) h
      refine ⟨c', ?_, ?_⟩
      · exact run_append (.step (.nil c) (.move c t home cmd k x.1 x.2 w1 ht hx)) hr
      · rw [hc]
        simp only [List.set_set]

/-- A call of the sequential model, made by one thread of the machine while the others do nothing. -/
theorem run_alone {strerror : Strerror} {full : Bool} {e e' : PEnv} {w w' : World} {th : List Thread} {t : Nat} {op : POp} {r : PRes}
    (ht : th[t]? = some .idle) (ha : Conf.Allowed ⟨w, sharedOf e, e.objs, th⟩ op)
    (h : e.step strerror full op w = .done (e', r) w') :
    Run strerror full ⟨w, sharedOf e, e.objs, th⟩ [.call t op, .ret t r] ⟨w', sharedOf e', e'.objs, th⟩ := by
  have h1 := sim_body (N := w.choices.length) (fuel := w.choices.length + 2) (strerror := strerror) (full := full) (Nat.le_refl _) e w th
    op ha w (Nat.le_refl _)
  rw [h] at h1
  cases ho : (body strerror full (w.choices.length + 2) op (Conf.objOf ⟨w, sharedOf e, e.objs, th⟩ op)).run (sharedOf e) w with
  | crash w1 => rw [ho] at h1; exact h1.elim
  | fault f => rw [ho] at h1; exact h1.elim
  | done x w1 =>
    rw [ho] at h1
    obtain ⟨h2, rfl, -⟩ := h1
    obtain ⟨a, s⟩ := x
    have hlt : t < th.length := (List.getElem?_eq_some_iff.mp ht).1
    have b1 : Run strerror full ⟨w, sharedOf e, e.objs, th⟩ [.call t op]
        (Conf.begin strerror full (w.choices.length + 2) ⟨w, sharedOf e, e.objs, th⟩ t op) :=
      .step (.nil _) (.call _ t op (w.choices.length + 2) ht ha)
    obtain ⟨c', b2, hc⟩ := run_moves (strerror := strerror) (full := full) (home := homeOf op) _
      (Conf.begin strerror full (w.choices.length + 2) ⟨w, sharedOf e, e.objs, th⟩ t op) a s w1
      (List.getElem?_set_self hlt) ho
    have ht' : c'.th[t]? = some (.run (homeOf op) (.ret a)) := by
      rw [hc]
      simp only [Conf.begin, List.set_set]
      exact List.getElem?_set_self hlt
    have b3 := run_append b1 (run_append b2 (.step (.nil c') (.ret c' t (homeOf op) a ht')))
    have e1 : c'.finish t (homeOf op) a = (⟨w1, sharedOf e', e'.objs, th⟩, r) := by
      rw [hc]
      cases a with
      | new o =>
        obtain ⟨h3, h4, h5, h6⟩ := h2
        simp only at h3 h4 h5
        subst h3 h5
        simp only [Conf.finish, Conf.begin, List.set_set, set_id ht]
        cases hh : homeOf op with
        | none => simp only [h4]
        | reads h => simp only [h4]
        | own h => exact (h6 h hh).elim
      | back o x =>
        obtain ⟨h3, h4, h5⟩ := h2
        simp only at h3 h4 h5
        subst h3 h4
        simp only [Conf.finish, Conf.begin, List.set_set, set_id ht]
        cases hh : homeOf op with
        | none => rw [hh] at h5; simp only at h5 ⊢; rw [h5]
        | reads h => rw [hh] at h5; simp only at h5 ⊢; rw [h5]
        | own h => rw [hh] at h5; simp only [List.set_set] at h5 ⊢; rw [h5]
    rw [e1] at b3
    exact b3

end Conc
end Posix
end Lsmdb
