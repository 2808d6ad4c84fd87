import Verif.Spec.EnvUtil
import Verif.Proof.PosixTrace
import Verif.Proof.PosixErr

/-!
# A status that is not OK comes from a system call that failed
-/

namespace Lsmdb
namespace Posix

open MemEnv (St lit)

/-- If `x` returns, then `Q` holds of the result unless `x` made a system call that failed. -/
def Unless {α : Type} (Q : α → Prop) (x : P α) : Prop :=
  ∀ w a w', x w = .done a w' → ∃ l, Made w w' l ∧ (Q a ∨ ∃ c ∈ l, c.Failed)

theorem Unless.mono {α : Type} {Q Q' : α → Prop} {x : P α} (h : Unless Q x) (hq : ∀ a, Q a → Q' a) : Unless Q' x := by
  intro w a w' hr
  obtain ⟨l, h1, h2⟩ := h w a w' hr
  exact ⟨l, h1, h2.imp_left (hq a)⟩

theorem Unless.bind {α β : Type} {Q : α → Prop} {R : β → Prop} {x : P α} {f : α → P β} (hx : Unless Q x)
    (hf : ∀ a, Unless (fun b => Q a → R b) (f a)) : Unless R (x >>= f) := by
  intro w b w' hr
  rw [bind_eq] at hr
  cases h1 : x w with
  | crash w1 => rw [h1] at hr; exact nomatch hr
  | fault e => rw [h1] at hr; exact nomatch hr
  | done a w1 =>
    rw [h1] at hr
    obtain ⟨l, a1, a2⟩ := hx w a w1 h1
    obtain ⟨l', b1, b2⟩ := hf a w1 b w' hr
    refine ⟨l ++ l', a1.trans b1, ?_⟩
    rcases a2 with a2 | ⟨c, c1, c2⟩
    · rcases b2 with b2 | ⟨c, c1, c2⟩
      · exact .inl (b2 a2)
      · exact .inr ⟨c, List.mem_append_right _ c1, c2⟩
    · exact .inr ⟨c, List.mem_append_left _ c1, c2⟩

theorem Unless.pure {α : Type} {Q : α → Prop} {a : α} (h : Q a) : Unless Q (Pure.pure a : P α) := by
  intro w b w' hr
  rw [pure_eq] at hr
  injection hr with h1 h2
  subst h1 h2
  exact ⟨[], Made.nil _, .inl h⟩

theorem Unless.pureM {α : Type} {Q : α → Prop} {x : M α} (h : ∀ a, x = .ok a → Q a) : Unless Q (Posix.pureM x) := by
  intro w b w' hr
  unfold Posix.pureM at hr
  cases hx : x with
  | error e => rw [hx] at hr; exact nomatch hr
  | ok a =>
    rw [hx] at hr
    injection hr with h1 h2
    subst h1 h2
    exact ⟨[], Made.nil _, .inl (h _ hx)⟩

theorem Unless.fault {α : Type} {Q : α → Prop} (f : Fault) : Unless Q (fun _ => .fault f : P α) := fun _ _ _ h => nomatch h

theorem Unless.sys {α : Type} {Q : α → Prop} {call : α → List Call} {f : Choice → Kernel → α × Kernel}
    (h : ∀ a, Q a ∨ ∃ c ∈ call a, c.Failed) : Unless Q (Posix.sys call f) := by
  intro w a w' hr
  unfold Posix.sys at hr
  cases hc : w.choices with
  | nil => rw [hc] at hr; exact nomatch hr
  | cons c cs =>
    rw [hc] at hr
    injection hr with h1 h2
    subst h2
    exact ⟨_, rfl, by rw [h1]; exact h a⟩

theorem sysOpen_unless (m : Mode) (p : Bytes) : Unless (fun r => ∃ fd, r = .ok fd) (sysOpen m p) := by
  apply Unless.sys
  intro r
  cases r with
  | ok fd => exact .inl ⟨fd, rfl⟩
  | error e => exact .inr ⟨_, List.mem_singleton.2 rfl, rfl⟩

theorem sysClose_unless (fd : Int) : Unless (fun r => r = .ok ()) (sysClose fd) := by
  apply Unless.sys
  intro r
  cases r with
  | ok fd => exact .inl rfl
  | error e => exact .inr ⟨_, List.mem_singleton.2 rfl, by simp [Call.Failed, errOf]⟩

theorem sysSync_unless (fd : Int) : Unless (fun r => r = .ok ()) (sysSync fd) := by
  apply Unless.sys
  intro r
  cases r with
  | ok fd => exact .inl rfl
  | error e => exact .inr ⟨_, List.mem_singleton.2 rfl, by simp [Call.Failed, fine]⟩

theorem sysWrite_unless (fd : Int) (d : Bytes) : Unless (fun r => (∃ n, r = .ok n) ∨ r = .error EINTR) (sysWrite fd d) := by
  apply Unless.sys
  intro r
  cases r with
  | ok n => exact .inl (.inl ⟨n, rfl⟩)
  | error e =>
    by_cases he : e = EINTR
    · exact .inl (.inr (by rw [he]))
    · exact .inr ⟨_, List.mem_singleton.2 rfl, e, rfl, he⟩

section
variable (strerror : Strerror) (full : Bool)

theorem writeLoop_unless (fd : Int) (name : Bytes) : ∀ (fuel : Nat) (d : Bytes), Unless (· = .ok) (writeLoop strerror fd name fuel d) := by
  intro fuel
  induction fuel with
  | zero => intro d; exact Unless.fault _
  | succ fuel ih =>
    intro d
    unfold writeLoop
    split
    · refine Unless.bind (sysWrite_unless _ _) fun r => ?_
      cases r with
      | ok n => exact (ih _).mono fun _ h _ => h
      | error e =>
        dsimp only []
        split
        · exact (ih _).mono fun _ h _ => h
        · next he =>
          apply Unless.pure
          rintro (⟨n, h⟩ | h)
          · exact nomatch h
          · injection h with h; exact absurd h he
    · exact Unless.pure rfl

theorem Unless.dep {α : Type} {Q : α → Prop} {g : Nat → P α} (n : World → Nat) (h : ∀ n, Unless Q (g n)) : Unless Q (fun w => g (n w) w) :=
  fun w a w' hr => h (n w) w a w' hr

theorem WriteUnbuffered_unless (f : WFile) (d : Bytes) : Unless (· = .ok) (f.WriteUnbuffered strerror d) :=
  Unless.dep (g := fun n => writeLoop strerror f.fd f.filename n d) (fun w => w.choices.length + 2)
    fun n => writeLoop_unless strerror f.fd f.filename n d

theorem FlushBuffer_unless (f : WFile) : Unless (fun r => r.1 = .ok) (f.FlushBuffer strerror) :=
  Unless.bind (Unless.pureM (Q := fun _ => True) fun _ _ => trivial) fun _ =>
    Unless.bind (WriteUnbuffered_unless strerror f _) fun _ => Unless.pure fun h _ => h

theorem Append_unless (f : WFile) (d : Slice) : Unless (fun r => r.1 = .ok) (f.Append strerror d) := by
  unfold WFile.Append
  refine Unless.bind (Unless.pureM (Q := fun _ => True) fun _ _ => trivial) fun _ => ?_
  refine Unless.bind (Unless.pureM (Q := fun _ => True) fun _ _ => trivial) fun _ => ?_
  dsimp only []
  split
  · exact Unless.pure fun _ _ => rfl
  · refine Unless.bind (FlushBuffer_unless strerror _) fun r => ?_
    obtain ⟨s, f⟩ := r
    dsimp only []
    split
    · exact Unless.pure fun h _ _ => h
    · split
      · exact Unless.bind (Unless.pureM (Q := fun _ => True) fun _ _ => trivial) fun _ => Unless.pure fun _ _ _ _ => rfl
      · exact Unless.bind (WriteUnbuffered_unless strerror _ _) fun _ => Unless.pure fun h _ _ _ => h

theorem Close_unless (f : WFile) : Unless (fun r => r.1 = .ok) (f.Close strerror) := by
  refine Unless.bind (FlushBuffer_unless strerror f) fun r => ?_
  obtain ⟨s, f⟩ := r
  refine Unless.bind (sysClose_unless _) fun c => ?_
  apply Unless.pure
  rintro rfl h
  exact h

theorem SyncFd_unless (fd : Int) (p : Bytes) : Unless (· = .ok) (SyncFd strerror full fd p) := by
  unfold SyncFd
  have h2 : Unless (· = .ok) (do
      match ← sysSync fd with
      | .ok _ => return .ok
      | .error e => return PosixError strerror p e : P St) := by
    refine Unless.bind (sysSync_unless fd) fun r => ?_
    cases r with
    | ok u => exact Unless.pure fun _ => rfl
    | error e => exact Unless.pure fun h => nomatch h
  have hany : ∀ r : Except Errno Unit, Unless (fun s => True → s = .ok) (match r with
      | .ok _ => return .ok
      | .error _ => do
        match ← sysSync fd with
        | .ok _ => return .ok
        | .error e => return PosixError strerror p e : P St) := by
    intro r
    cases r with
    | ok u => exact Unless.pure fun _ => rfl
    | error e => exact h2.mono fun _ h _ => h
  cases full with
  | false => exact Unless.bind (Q := fun _ => True) (Unless.pure trivial) hany
  | true => exact Unless.bind (Q := fun _ => True) ((sysSync_unless fd).mono fun _ _ => trivial) hany

theorem SyncDir_unless (f : WFile) : Unless (· = .ok) (f.SyncDirIfManifest strerror full) := by
  unfold WFile.SyncDirIfManifest
  split
  · refine Unless.bind (sysOpen_unless _ _) fun r => ?_
    cases r with
    | error e => exact Unless.pure fun ⟨_, h⟩ => nomatch h
    | ok fd =>
      refine Unless.bind (SyncFd_unless strerror full _ _) fun s => ?_
      exact Unless.bind (sysClose_unless _) fun _ => Unless.pure fun _ h _ => h
  · exact Unless.pure rfl

theorem Sync_unless (f : WFile) : Unless (fun r => r.1 = .ok) (f.Sync strerror full) := by
  unfold WFile.Sync
  refine Unless.bind (SyncDir_unless strerror full _) fun s => ?_
  split
  · exact Unless.pure fun h => h
  · refine Unless.bind (FlushBuffer_unless strerror _) fun r => ?_
    obtain ⟨s, f⟩ := r
    dsimp only []
    split
    · exact Unless.pure fun h _ => h
    · exact Unless.bind (SyncFd_unless strerror full _ _) fun _ => Unless.pure fun h _ _ => h

theorem wstep_unless (f : WFile) (op : WOp) : Unless (fun r => r.1 = .ok) (f.step strerror full op) := by
  cases op with
  | append d => exact Append_unless strerror f d
  | flush => exact FlushBuffer_unless strerror f
  | sync => exact Sync_unless strerror full f
  | close => exact Close_unless strerror f

theorem wdestroy_unless (f : WFile) : Unless (fun _ => True) (f.destroy strerror) := by
  unfold WFile.destroy
  split
  · exact Unless.bind (Close_unless strerror _) fun _ => Unless.pure fun _ => trivial
  · exact Unless.pure trivial

theorem newWFile_unless (e : PEnv) (m : Mode) (name : Bytes) :
    Unless (fun r => r.1 = .ok ∧ ∃ i f, r.2.1 = some i ∧ r.2.2.has i (.wr f)) (e.newWFile strerror m name) := by
  unfold PEnv.newWFile
  refine Unless.bind (sysOpen_unless _ _) fun r => ?_
  cases r with
  | error err => exact Unless.pure fun ⟨_, h⟩ => nomatch h
  | ok fd =>
    refine Unless.bind (Unless.pureM (Q := fun _ => True) fun _ _ => trivial) fun f => ?_
    exact Unless.pure fun _ _ => ⟨rfl, _, f, rfl, by simp [PEnv.has, PEnv.alloc]⟩

theorem RemoveFile_unless (name : Bytes) : Unless (fun _ => True) (RemoveFile strerror name) := by
  unfold RemoveFile
  refine Unless.bind (Q := fun _ => True) (Unless.sys fun _ => .inl trivial) fun r => ?_
  cases r with
  | ok u => exact Unless.pure fun _ => trivial
  | error u => exact Unless.pure fun _ => trivial

end

end Posix
end Lsmdb
