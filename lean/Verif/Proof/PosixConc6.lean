import Verif.Proof.PosixConc5

/-! A call that runs alone is the call of the sequential model. -/

namespace Lsmdb
namespace Posix

open MemEnv (St lit)

namespace Conc

open Prog

/-- Two outcomes of the same code: the same world, related results. -/
def ORel {α β : Type} (R : α → Shared → β → Prop) (n : Nat) : Out (α × Shared) → Out β → Prop
  | .done a w, .done b w' => R a.1 a.2 b ∧ w = w' ∧ w.choices.length ≤ n
  | .crash w, .crash w' => w = w'
  | .fault f, .fault f' => f = f'
  | _, _ => False

/-- The program run alone does what the code does, as long as not more than `N` system calls are left. -/
def Sim {α β : Type} (N : Nat) (p : Prog α) (s : Shared) (x : P β) (R : α → Shared → β → Prop) : Prop :=
  ∀ w, w.choices.length ≤ N → ORel R w.choices.length (p.run s w) (x w)

/-- The result is the same and the shared state is untouched. -/
def Same {α : Type} (s : Shared) : α → Shared → α → Prop := fun a s' b => a = b ∧ s' = s

/-- Go on after an outcome. -/
def onward {α β : Type} (o : Out α) (f : α → World → Out β) : Out β :=
  match o with
  | .done a w => f a w
  | .crash w => .crash w
  | .fault e => .fault e

theorem run_call {α : Type} (c : Cmd) (k : c.Resp → Prog α) (s : Shared) (w : World) :
    (Prog.call c k).run s w = onward (c.exec s w) fun a w => (k a.1).run a.2 w := by
  rw [Prog.run]
  dsimp only
  cases c.exec s w <;> rfl

theorem run_bind {α β : Type} (p : Prog α) (f : α → Prog β) (s : Shared) (w : World) :
    (p >>= f).run s w = onward (p.run s w) fun a w => (f a.1).run a.2 w := by
  induction p generalizing s w with
  | ret a => rfl
  | fault e => rfl
  | spin => rfl
  | call c k ih =>
    show (Prog.call c fun r => (k r).bind f).run s w = _
    rw [run_call, run_call]
    cases c.exec s w with
    | done a w => exact ih a.1 a.2 w
    | crash w => rfl
    | fault e => rfl

theorem bindP {α β : Type} (x : P α) (g : α → P β) (w : World) : (x >>= g) w = onward (x w) g := by
  show (match x w with | .done a w => g a w | .crash w => .crash w | .fault e => .fault e) = _
  cases x w <;> rfl

theorem Sim.bind {α β α' β' : Type} {N : Nat} {p : Prog α} {f : α → Prog β} {s : Shared} {x : P α'} {g : α' → P β'}
    {R : α → Shared → α' → Prop} {R' : β → Shared → β' → Prop} (h : Sim N p s x R)
    (h' : ∀ a s' b, R a s' b → Sim N (f a) s' (g b) R') : Sim N (p >>= f) s (x >>= g) R' := by
  intro w hw
  have h1 := h w hw
  rw [run_bind, bindP]
  generalize p.run s w = o at h1 ⊢
  generalize x w = o' at h1 ⊢
  cases o with
  | done a w1 =>
    cases o' with
    | done b w2 =>
      obtain ⟨h2, rfl, h3⟩ := h1
      have h4 := h' a.1 a.2 b h2 w1 (by omega)
      simp only [onward]
      generalize (f a.1).run a.2 w1 = y at h4 ⊢
      generalize g b w1 = y' at h4 ⊢
      cases y <;> cases y' <;> first | exact h4 | exact ⟨h4.1, h4.2.1, by have := h4.2.2; omega⟩
    | crash w2 => exact h1.elim
    | fault e => exact h1.elim
  | crash w1 =>
    cases o' with
    | done b w2 => exact h1.elim
    | crash w2 => exact h1
    | fault e => exact h1.elim
  | fault e =>
    cases o' with
    | done b w2 => exact h1.elim
    | crash w2 => exact h1.elim
    | fault e => exact h1

theorem Sim.ret {α β : Type} {N : Nat} {a : α} {s : Shared} {b : β} {R : α → Shared → β → Prop} (h : R a s b) :
    Sim N (Prog.ret a) s (pure b) R := fun _ _ => ⟨h, rfl, Nat.le_refl _⟩

theorem Sim.pure {α β : Type} {N : Nat} {a : α} {s : Shared} {b : β} {R : α → Shared → β → Prop} (h : R a s b) :
    Sim N (Pure.pure a) s (Pure.pure b) R := fun _ _ => ⟨h, rfl, Nat.le_refl _⟩

theorem Sim.mono {α β : Type} {N : Nat} {p : Prog α} {s : Shared} {x : P β} {R R' : α → Shared → β → Prop}
    (h : Sim N p s x R) (hr : ∀ a s' b, R a s' b → R' a s' b) : Sim N p s x R' := by
  intro w hw
  have h1 := h w hw
  generalize p.run s w = o at h1
  generalize x w = o' at h1
  cases o <;> cases o' <;> first | exact h1 | exact ⟨hr _ _ _ h1.1, h1.2⟩

theorem Sim.fault {α β : Type} {N : Nat} {e : Fault} {s : Shared} {R : α → Shared → β → Prop} :
    Sim N (Prog.fault e) s (pureM (.error e)) R := fun _ _ => rfl

theorem Sim.ofM {α : Type} {N : Nat} {m : M α} {s : Shared} : Sim N (Prog.ofM m) s (pureM m) (Same s) := by
  intro w _
  cases m with
  | ok a => exact ⟨⟨rfl, rfl⟩, rfl, Nat.le_refl _⟩
  | error e => exact rfl

theorem run_go (c : Cmd) (s : Shared) (w : World) : c.go.run s w = c.exec s w := by
  unfold Cmd.go
  rw [run_call]
  cases c.exec s w <;> rfl

/-- A system call. -/
theorem Sim.sys {c : Cmd} {N : Nat} {s : Shared} {call : c.Resp → List Call} {f : Choice → Kernel → c.Resp × Kernel}
    (h : c.exec s = keep s (Posix.sys call f)) : Sim N c.go s (Posix.sys call f) (Same s) := by
  intro w _
  rw [run_go, h]
  unfold keep Posix.sys
  cases hc : w.choices with
  | nil => exact rfl
  | cons x xs => exact ⟨⟨rfl, rfl⟩, rfl, Nat.le_succ _⟩

/-- A system call and what follows, when there are no system calls any more. -/
theorem Sim.sys0 {c : Cmd} {β β' : Type} {s : Shared} {call : c.Resp → List Call} {f : Choice → Kernel → c.Resp × Kernel}
    (h : c.exec s = keep s (Posix.sys call f)) {k : c.Resp → Prog β} {g : c.Resp → P β'} {R : β → Shared → β' → Prop} :
    Sim 0 (c.go >>= k) s (Posix.sys call f >>= g) R := by
  intro w hw
  rw [run_bind, bindP, run_go, h]
  unfold keep Posix.sys
  have hc : w.choices = [] := List.eq_nil_of_length_eq_zero (by omega)
  rw [hc]
  exact rfl

/-- A system call and what follows. -/
theorem Sim.sys1 {c : Cmd} {β β' : Type} {s : Shared} {call : c.Resp → List Call} {f : Choice → Kernel → c.Resp × Kernel}
    (h : c.exec s = keep s (Posix.sys call f)) {N : Nat} {k : c.Resp → Prog β} {g : c.Resp → P β'} {R : β → Shared → β' → Prop}
    (h' : ∀ r, Sim N (k r) s (g r) R) : Sim (N + 1) (c.go >>= k) s (Posix.sys call f >>= g) R := by
  intro w hw
  rw [run_bind, bindP, run_go, h]
  unfold keep Posix.sys
  cases hc : w.choices with
  | nil => exact rfl
  | cons x xs =>
    rw [hc] at hw
    simp only [List.length_cons] at hw
    simp only [onward]
    have h4 := h' (f x (x.other w.k)).1 ⟨(f x (x.other w.k)).2, xs, w.calls ++ call (f x (x.other w.k)).1⟩ (by simp only; omega)
    generalize Prog.run _ _ _ = y at h4 ⊢
    generalize g _ _ = y' at h4 ⊢
    cases y <;> cases y' <;> first
      | exact h4
      | exact ⟨h4.1, h4.2.1, by have := h4.2.2; simp only [List.length_cons] at this ⊢; omega⟩

/-- A step on the shared members. -/
theorem Sim.shared {c : Cmd} {β γ : Type} {N : Nat} {s s' : Shared} {r : c.Resp} {f : c.Resp → Prog β} {x : P γ}
    {R : β → Shared → γ → Prop} (h : c.exec s = Pure.pure (r, s')) (h' : Sim N (f r) s' x R) : Sim N (c.go >>= f) s x R := by
  intro w hw
  rw [run_bind, run_go, h]
  exact h' w hw

variable (strerror : Strerror) (full : Bool)

theorem sim_seqReadLoop {s : Shared} (f : SeqFile) (n cap : Nat) : ∀ (N fuel fuel' : Nat), N < fuel → N < fuel' →
    Sim N (Conc.seqReadLoop strerror f n cap fuel) s (Posix.seqReadLoop strerror f n cap fuel') (Same s) := by
  intro N
  induction N with
  | zero =>
    intro fuel fuel' h h'
    obtain ⟨k, rfl⟩ : ∃ k, fuel = k + 1 := ⟨fuel - 1, by omega⟩
    obtain ⟨k', rfl⟩ : ∃ k, fuel' = k + 1 := ⟨fuel' - 1, by omega⟩
    exact Sim.sys0 (c := .read f.fd n) rfl
  | succ N ih =>
    intro fuel fuel' h h'
    obtain ⟨k, rfl⟩ : ∃ k, fuel = k + 1 := ⟨fuel - 1, by omega⟩
    obtain ⟨k', rfl⟩ : ∃ k, fuel' = k + 1 := ⟨fuel' - 1, by omega⟩
    refine Sim.sys1 (c := .read f.fd n) rfl fun r => ?_
    cases r with
    | error e =>
      by_cases he : e = EINTR
      · simp only [if_pos he]
        exact ih k k' (by omega) (by omega)
      · simp only [if_neg he]
        exact Sim.pure ⟨rfl, rfl⟩
    | ok d =>
      by_cases hd : d.length ≤ cap
      · simp only [if_pos hd]
        exact Sim.pure ⟨rfl, rfl⟩
      · simp only [if_neg hd]
        exact Sim.fault

theorem sim_seqRead {N fuel : Nat} (hN : N + 2 ≤ fuel) {s : Shared} (f : SeqFile) (n : Nat) :
    Sim N (Conc.seqRead strerror fuel f n n) s (f.Read strerror n n) (Same s) := fun w hw =>
  sim_seqReadLoop strerror f n n w.choices.length fuel (w.choices.length + 1) (by omega) (by omega) w (Nat.le_refl _)

theorem sim_writeLoop {s : Shared} (fd : Int) (name : Bytes) : ∀ (N fuel fuel' : Nat) (data : Bytes), N + 1 < fuel → N + 1 < fuel' →
    Sim N (Conc.writeLoop strerror fd name fuel data) s (Posix.writeLoop strerror fd name fuel' data) (Same s) := by
  intro N
  induction N with
  | zero =>
    intro fuel fuel' d h h'
    obtain ⟨k, rfl⟩ : ∃ k, fuel = k + 1 := ⟨fuel - 1, by omega⟩
    obtain ⟨k', rfl⟩ : ∃ k, fuel' = k + 1 := ⟨fuel' - 1, by omega⟩
    unfold Conc.writeLoop Posix.writeLoop
    by_cases hd : d.length > 0
    · simp only [if_pos hd]
      exact Sim.sys0 (c := .write fd d) rfl
    · simp only [if_neg hd]
      exact Sim.pure ⟨rfl, rfl⟩
  | succ N ih =>
    intro fuel fuel' d h h'
    obtain ⟨k, rfl⟩ : ∃ k, fuel = k + 1 := ⟨fuel - 1, by omega⟩
    obtain ⟨k', rfl⟩ : ∃ k, fuel' = k + 1 := ⟨fuel' - 1, by omega⟩
    unfold Conc.writeLoop Posix.writeLoop
    by_cases hd : d.length > 0
    · simp only [if_pos hd]
      refine Sim.sys1 (c := .write fd d) rfl fun r => ?_
      cases r with
      | error e =>
        by_cases he : e = EINTR
        · simp only [if_pos he]
          exact ih k k' _ (by omega) (by omega)
        · simp only [if_neg he]
          exact Sim.pure ⟨rfl, rfl⟩
      | ok n => exact ih k k' _ (by omega) (by omega)
    · simp only [if_neg hd]
      exact Sim.pure ⟨rfl, rfl⟩

theorem sim_WriteUnbuffered {N fuel : Nat} (hN : N + 2 ≤ fuel) {s : Shared} (f : WFile) (d : Bytes) :
    Sim N (Conc.WriteUnbuffered strerror fuel f d) s (f.WriteUnbuffered strerror d) (Same s) := fun w hw =>
  sim_writeLoop strerror f.fd f.filename w.choices.length fuel (w.choices.length + 2) d (by omega) (by omega) w (Nat.le_refl _)

theorem sim_readdirLoop {s : Shared} (fd : Int) : ∀ (N fuel fuel' : Nat) (rest l : List Bytes), N < fuel → N < fuel' →
    Sim N (Conc.readdirLoop fd fuel rest l) s (Posix.readdirLoop fuel' rest l) (Same s) := by
  intro N
  induction N with
  | zero =>
    intro fuel fuel' rest l h h'
    obtain ⟨k, rfl⟩ : ∃ k, fuel = k + 1 := ⟨fuel - 1, by omega⟩
    obtain ⟨k', rfl⟩ : ∃ k, fuel' = k + 1 := ⟨fuel' - 1, by omega⟩
    exact Sim.sys0 (c := .readdir fd rest) rfl
  | succ N ih =>
    intro fuel fuel' rest l h h'
    obtain ⟨k, rfl⟩ : ∃ k, fuel = k + 1 := ⟨fuel - 1, by omega⟩
    obtain ⟨k', rfl⟩ : ∃ k, fuel' = k + 1 := ⟨fuel' - 1, by omega⟩
    refine Sim.sys1 (c := .readdir fd rest) rfl fun r => ?_
    cases r with
    | none => exact Sim.pure ⟨rfl, rfl⟩
    | some d => exact ih k k' _ _ (by omega) (by omega)

theorem sim_readdirAll {N fuel : Nat} (hN : N + 2 ≤ fuel) {s : Shared} (fd : Int) (rest : List Bytes) :
    Sim N (Conc.readdirLoop fd fuel rest []) s (Posix.readdirAll rest) (Same s) := fun w hw =>
  sim_readdirLoop fd w.choices.length fuel (w.choices.length + 1) rest [] (by omega) (by omega) w (Nat.le_refl _)

/-! ## Files -/

section
variable {N fuel : Nat} (hN : N + 2 ≤ fuel)

/-- Binding with an untouched shared state. -/
theorem Sim.then {α β β' : Type} {p : Prog α} {f : α → Prog β} {s : Shared} {x : P α} {g : α → P β'}
    {R' : β → Shared → β' → Prop} (h : Sim N p s x (Same s)) (h' : ∀ a, Sim N (f a) s (g a) R') : Sim N (p >>= f) s (x >>= g) R' :=
  h.bind fun a s' b hr => by obtain ⟨rfl, rfl⟩ := hr; exact h' a

/-- A system call and what follows. -/
theorem Sim.call {c : Cmd} {β β' : Type} {s : Shared} {call : c.Resp → List Call} {f : Choice → Kernel → c.Resp × Kernel}
    (h : c.exec s = keep s (Posix.sys call f)) {k : c.Resp → Prog β} {g : c.Resp → P β'} {R : β → Shared → β' → Prop}
    (h' : ∀ r, Sim N (k r) s (g r) R) : Sim N (c.go >>= k) s (Posix.sys call f >>= g) R :=
  (Sim.sys h).then h'

theorem sim_seqSkip {s : Shared} (f : SeqFile) (n : Nat) : Sim N (Conc.seqSkip strerror f n) s (f.Skip strerror n) (Same s) := by
  refine Sim.call (c := .lseek f.fd (toOff n)) rfl fun r => ?_
  cases r <;> exact Sim.pure ⟨rfl, rfl⟩

theorem acquire_eq (s : Shared) (l : Lim) {β γ : Type} {f : Bool → Prog β} {x : P γ} {R : β → Shared → γ → Prop}
    (h : Sim N (f (Limiter.Acquire (s.lim l)).1) (s.setLim l (Limiter.Acquire (s.lim l)).2) x R) :
    Sim N (Conc.Acquire l >>= f) s x R := by
  intro w hw
  have := h w hw
  rw [run_bind]
  have e : (Conc.Acquire l).run s w = .done ((Limiter.Acquire (s.lim l)).1, s.setLim l (Limiter.Acquire (s.lim l)).2) w := by
    refine (run_bind (Cmd.fetchSub l).go _ s w).trans ?_
    rw [run_go]
    unfold Limiter.Acquire
    by_cases hv : s.lim l > 0
    · simp only [if_pos hv]
      show Prog.run (if s.lim l > 0 then _ else _) _ _ = _
      rw [if_pos hv]; rfl
    · simp only [if_neg hv]
      show Prog.run (if s.lim l > 0 then _ else _) _ _ = _
      rw [if_neg hv]
      refine (run_bind (Cmd.fetchAdd l).go _ _ w).trans ?_
      rw [run_go]
      cases l <;> rfl
  rw [e]
  exact this

theorem release_eq (s : Shared) (l : Lim) {β γ : Type} {f : Unit → Prog β} {x : P γ} {R : β → Shared → γ → Prop}
    (h : Sim N (f ()) (s.setLim l (Limiter.Release (s.lim l))) x R) : Sim N (Conc.Release l >>= f) s x R := h

include hN

theorem sim_FlushBuffer {s : Shared} (f : WFile) : Sim N (Conc.FlushBuffer strerror fuel f) s (f.FlushBuffer strerror) (Same s) :=
  Sim.ofM.then fun d => (sim_WriteUnbuffered strerror hN f d).then fun st => Sim.pure ⟨rfl, rfl⟩

theorem sim_Append {s : Shared} (f : WFile) (d : Slice) : Sim N (Conc.Append strerror fuel f d) s (f.Append strerror d) (Same s) := by
  unfold Conc.Append WFile.Append
  refine Sim.ofM.then fun bytes => Sim.ofM.then fun buf => ?_
  simp only
  split
  · exact Sim.pure ⟨rfl, rfl⟩
  · refine (sim_FlushBuffer strerror hN _).then fun a => ?_
    split
    · exact Sim.pure ⟨rfl, rfl⟩
    · unfold appendRest
      split
      · exact Sim.ofM.then fun buf => Sim.pure ⟨rfl, rfl⟩
      · exact (sim_WriteUnbuffered strerror hN _ _).then fun st => Sim.pure ⟨rfl, rfl⟩

theorem sim_Close {s : Shared} (f : WFile) : Sim N (Conc.Close strerror fuel f) s (f.Close strerror) (Same s) := by
  unfold Conc.Close WFile.Close
  refine (sim_FlushBuffer strerror hN f).then fun a => ?_
  exact Sim.call (c := .close _) rfl fun r => Sim.pure ⟨rfl, rfl⟩

omit hN in
theorem sim_SyncFd {s : Shared} (fd : Int) (path : Bytes) :
    Sim N (Conc.SyncFd strerror full fd path) s (Posix.SyncFd strerror full fd path) (Same s) := by
  unfold Conc.SyncFd Posix.SyncFd
  cases full
  · refine Sim.then (x := Pure.pure (Except.error EINVAL)) (Sim.ret ⟨rfl, rfl⟩) fun r => ?_
    cases r with
    | ok _ => exact Sim.pure ⟨rfl, rfl⟩
    | error _ =>
      refine Sim.call (c := .sync fd) rfl fun r => ?_
      cases r <;> exact Sim.pure ⟨rfl, rfl⟩
  · refine Sim.then (x := sysSync fd) (Sim.sys (c := .sync fd) rfl) fun r => ?_
    cases r with
    | ok _ => exact Sim.pure ⟨rfl, rfl⟩
    | error _ =>
      refine Sim.call (c := .sync fd) rfl fun r => ?_
      cases r <;> exact Sim.pure ⟨rfl, rfl⟩

omit hN in
theorem sim_SyncDir {s : Shared} (f : WFile) :
    Sim N (Conc.SyncDirIfManifest strerror full f) s (f.SyncDirIfManifest strerror full) (Same s) := by
  unfold Conc.SyncDirIfManifest WFile.SyncDirIfManifest
  by_cases hm : f.is_manifest = true
  · simp only [if_pos hm]
    refine Sim.call (c := .open .rdonly f.dirname) rfl fun r => ?_
    cases r with
    | error e => exact Sim.pure ⟨rfl, rfl⟩
    | ok fd =>
      refine (sim_SyncFd strerror full fd _).then fun st => ?_
      exact Sim.call (c := .close fd) rfl fun r => Sim.pure ⟨rfl, rfl⟩
  · simp only [if_neg hm]
    exact Sim.pure ⟨rfl, rfl⟩

theorem sim_Sync {s : Shared} (f : WFile) : Sim N (Conc.Sync strerror full fuel f) s (f.Sync strerror full) (Same s) := by
  unfold Conc.Sync WFile.Sync
  refine (sim_SyncDir strerror full f).then fun st => ?_
  by_cases hs : st ≠ .ok
  · simp only [if_pos hs]
    exact Sim.pure ⟨rfl, rfl⟩
  · simp only [if_neg hs]
    refine (sim_FlushBuffer strerror hN f).then fun a => ?_
    by_cases ha : a.1 ≠ .ok
    · simp only [if_pos ha]
      exact Sim.pure ⟨rfl, rfl⟩
    · simp only [if_neg ha]
      exact (sim_SyncFd strerror full _ _).then fun st => Sim.pure ⟨rfl, rfl⟩

theorem sim_wstep {s : Shared} (f : WFile) (op : WOp) :
    Sim N (Conc.wstep strerror full fuel f op) s (f.step strerror full op) (Same s) := by
  cases op with
  | append d => exact sim_Append strerror hN f d
  | flush => exact sim_FlushBuffer strerror hN f
  | sync => exact sim_Sync strerror full hN f
  | close => exact sim_Close strerror hN f

omit hN in
theorem sim_randRead {s : Shared} (f : RandFile) (off n : Nat) :
    Sim N (Conc.randRead strerror f off n n) s (f.Read strerror off n n) (Same s) := by
  unfold Conc.randRead RandFile.Read
  by_cases hp : f.has_permanent_fd = true
  · simp only [if_pos hp, randFd_perm hp]
    refine Sim.then (x := Pure.pure (Except.ok f.fd)) (Sim.ret ⟨rfl, rfl⟩) fun fd => ?_
    cases fd with
    | error e => exact Sim.pure ⟨rfl, rfl⟩
    | ok fd =>
      refine Sim.ofM.then fun _ => ?_
      refine Sim.call (c := .pread fd n (toOff off)) rfl fun r => ?_
      cases r with
      | error e =>
        exact Sim.then (x := Pure.pure _) (Sim.ret ⟨rfl, rfl⟩) fun res => Sim.pure ⟨rfl, rfl⟩
      | ok d =>
        unfold randRes
        by_cases hd : d.length ≤ n
        · simp only [if_pos hd]
          exact Sim.then (x := Pure.pure _) (Sim.ret ⟨rfl, rfl⟩) fun res => Sim.pure ⟨rfl, rfl⟩
        · simp only [if_neg hd]
          exact Sim.then (x := pureM _) Sim.fault fun res => Sim.pure ⟨rfl, rfl⟩
  · simp only [if_neg hp, randFd_temp hp]
    refine Sim.call (c := .open .rdonly f.filename) rfl fun fd => ?_
    cases fd with
    | error e => exact Sim.pure ⟨rfl, rfl⟩
    | ok fd =>
      refine Sim.ofM.then fun _ => ?_
      refine Sim.call (c := .pread fd n (toOff off)) rfl fun r => ?_
      have hc : ∀ res : St × Option Bytes, Sim N (do
          Prog.ofM (cassert (decide (fd ≠ f.fd)))
          let _ ← Cmd.go (.close fd)
          Pure.pure res) s (do
          pureM (cassert (decide (fd ≠ f.fd)))
          let _ ← sysClose fd
          Pure.pure res) (Same s) := fun res =>
        Sim.ofM.then fun _ => Sim.call (c := .close fd) rfl fun r => Sim.pure ⟨rfl, rfl⟩
      cases r with
      | error e =>
        exact Sim.then (x := Pure.pure _) (Sim.ret ⟨rfl, rfl⟩) hc
      | ok d =>
        unfold randRes
        by_cases hd : d.length ≤ n
        · simp only [if_pos hd]
          exact Sim.then (x := Pure.pure _) (Sim.ret ⟨rfl, rfl⟩) hc
        · simp only [if_neg hd]
          exact Sim.then (x := pureM _) Sim.fault hc

theorem sim_GetChildren {s : Shared} (d : Bytes) : Sim N (Conc.GetChildren strerror fuel d) s (Posix.GetChildren strerror d) (Same s) := by
  unfold Conc.GetChildren Posix.GetChildren
  refine Sim.call (c := .opendir d) rfl fun r => ?_
  cases r with
  | error e => exact Sim.pure ⟨rfl, rfl⟩
  | ok x =>
    refine (sim_readdirAll hN x.1 x.2).then fun l => ?_
    exact Sim.call (c := .close x.1) rfl fun r => Sim.pure ⟨rfl, rfl⟩

end

end Conc
end Posix
end Lsmdb
