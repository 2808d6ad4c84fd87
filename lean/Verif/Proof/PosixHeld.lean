import Verif.Spec.PosixEnv
import Verif.Proof.PosixErr

/-!
# The lock table of a PosixEnv holds the names of the locks the client holds
-/

namespace Lsmdb
namespace Posix

open MemEnv (St lit)

/-- If it returns, the result satisfies `Q`. -/
def Ret {α : Type} (Q : α → Prop) (x : P α) : Prop := ∀ w a w', x w = .done a w' → Q a

theorem Ret.bind {α β : Type} {Q : α → Prop} {R : β → Prop} {x : P α} {f : α → P β} (hx : Ret Q x)
    (hf : ∀ a, Q a → Ret R (f a)) : Ret R (x >>= f) := by
  intro w b w' hr
  rw [bind_eq] at hr
  cases h1 : x w with
  | crash w1 => rw [h1] at hr; exact nomatch hr
  | fault e => rw [h1] at hr; exact nomatch hr
  | done a w1 =>
    rw [h1] at hr
    exact hf a (hx w a w1 h1) w1 b w' hr

theorem Ret.any {α : Type} (x : P α) : Ret (fun _ => True) x := fun _ _ _ _ => trivial

theorem Ret.then {α β : Type} {R : β → Prop} {x : P α} {f : α → P β} (hf : ∀ a, Ret R (f a)) : Ret R (x >>= f) :=
  Ret.bind (Ret.any x) fun a _ => hf a

theorem Ret.pure {α : Type} {Q : α → Prop} {a : α} (h : Q a) : Ret Q (Pure.pure a : P α) := by
  intro w b w' hr
  rw [pure_eq] at hr
  injection hr with h1 h2
  exact h1 ▸ h

theorem Ret.pureM {α : Type} {Q : α → Prop} {x : M α} (h : ∀ a, x = .ok a → Q a) : Ret Q (Posix.pureM x) := by
  intro w b w' hr
  unfold Posix.pureM at hr
  cases hx : x with
  | error e => rw [hx] at hr; exact nomatch hr
  | ok a =>
    rw [hx] at hr
    injection hr with h1 h2
    exact h1 ▸ h a hx

theorem Ret.mono {α : Type} {Q R : α → Prop} {x : P α} (h : Ret Q x) (hq : ∀ a, Q a → R a) : Ret R x :=
  fun w a w' hr => hq a (h w a w' hr)

/-- The same locks. -/
structure SameLocks (e e' : PEnv) : Prop where
  table : e'.locks = e.locks
  objs : ∀ (h : Nat) (fd : Int) (n : Bytes), e'.has h (.lock fd n) ↔ e.has h (.lock fd n)

theorem SameLocks.refl (e : PEnv) : SameLocks e e := ⟨rfl, fun _ _ _ => Iff.rfl⟩

theorem SameLocks.limits {e e' : PEnv} (h : SameLocks e e') (m l : Int) : SameLocks e ⟨e'.objs, e'.locks, m, l⟩ :=
  ⟨h.table, h.objs⟩

theorem has_alloc (e : PEnv) (o : Obj) (h : Nat) (o' : Obj) :
    (e.alloc o).2.has h o' ↔ e.has h o' ∨ (h = e.objs.length ∧ o' = o) := by
  unfold PEnv.has PEnv.alloc
  dsimp only
  rcases Nat.lt_trichotomy h e.objs.length with hl | hl | hl
  · rw [List.getElem?_append_left hl]
    constructor
    · exact .inl
    · rintro (h' | ⟨h', _⟩)
      · exact h'
      · exact absurd h' (Nat.ne_of_lt hl)
  · subst hl
    rw [List.getElem?_append_right (le_refl _), List.getElem?_eq_none (le_refl _)]
    simp [eq_comm]
  · rw [List.getElem?_eq_none (by simp; omega), List.getElem?_eq_none (by omega)]
    simp
    intro h'
    omega

theorem SameLocks.alloc {e e' : PEnv} (h : SameLocks e e') {o : Obj} (ho : ∀ fd n, o ≠ .lock fd n) : SameLocks e (e'.alloc o).2 := by
  refine ⟨h.table, fun i fd n => ?_⟩
  rw [has_alloc]
  constructor
  · rintro (h' | ⟨_, h'⟩)
    · exact (h.objs i fd n).1 h'
    · exact absurd h'.symm (ho fd n)
  · exact fun h' => .inl ((h.objs i fd n).2 h')

theorem SameLocks.set {e : PEnv} {i : Nat} {o : Obj} (hi : e.has i o) (ho : ∀ fd n, o ≠ .lock fd n) {o' : Option Obj}
    (ho' : ∀ fd n, o' ≠ some (.lock fd n)) (m l : Int) : SameLocks e ⟨e.objs.set i o', e.locks, m, l⟩ := by
  refine ⟨rfl, fun j fd n => ?_⟩
  unfold PEnv.has at *
  dsimp only
  rw [List.getElem?_set]
  split
  · rename_i hij
    subst hij
    split
    · constructor
      · intro h; injection h with h; exact absurd h (ho' fd n)
      · intro h; rw [hi] at h; injection h with h; injection h with h; exact absurd h (ho fd n)
    · constructor
      · exact fun h => nomatch h
      · intro h; rw [hi] at h; injection h with h; injection h with h; exact absurd h (ho fd n)
  · exact Iff.rfl

/-- `held` are the locks of the environment. -/
structure HeldInv (e : PEnv) (held : List (Nat × Bytes)) : Prop where
  objs : ∀ h n, (h, n) ∈ held ↔ ∃ fd, e.has h (.lock fd n)
  table : ∀ n, n ∈ e.locks ↔ ∃ h, (h, n) ∈ held
  pw : held.Pairwise (fun a b => a.2 ≠ b.2)

theorem HeldInv.same {e e' : PEnv} {held : List (Nat × Bytes)} (h : HeldInv e held) (hs : SameLocks e e') : HeldInv e' held := by
  refine ⟨fun i n => (h.objs i n).trans ?_, fun n => by rw [hs.table]; exact h.table n, h.pw⟩
  exact exists_congr fun fd => (hs.objs i fd n).symm

theorem HeldInv.init (a b : Int) : HeldInv (PEnv.init a b) [] := by
  refine ⟨fun h n => ?_, fun n => ?_, List.Pairwise.nil⟩ <;> simp [PEnv.init, PEnv.has]

theorem get_has' {e : PEnv} {h : Nat} {o : Obj} (hg : e.get h = .ok o) : e.has h o := by
  unfold PEnv.get at hg
  unfold PEnv.has
  split at hg
  · exact nomatch hg
  · exact nomatch hg
  · rename_i o' he
    injection hg with hg
    rw [he, hg]

variable (strerror : Strerror) (full : Bool)

/-- One call of LockFile. -/
theorem LockFile_held {e : PEnv} {held : List (Nat × Bytes)} (h : HeldInv e held) (n : Bytes) :
    Ret (fun r => HeldInv r.2.2 (heldStep held (.lockFile n, .opened r.1 r.2.1))) (e.LockFile strerror n) := by
  have step_err : ∀ st x, st ≠ .ok → heldStep held (.lockFile n, .opened st x) = held := by
    intro st x hs
    unfold heldStep
    split
    · rename_i hh; injection hh with _ hh; injection hh with hh _; exact absurd hh hs
    · rename_i hh; injection hh with hh; exact nomatch hh
    · rfl
  unfold PEnv.LockFile
  refine Ret.then fun r => ?_
  split
  · refine Ret.pure ?_
    dsimp only
    rw [step_err _ _ (PosixError_ne_ok _ _ _)]; exact h
  · unfold lockInsert
    by_cases hn : n ∈ e.locks
    · simp only [hn, if_true]
      refine Ret.then fun r => Ret.pure ?_
      dsimp only
      rw [step_err _ _ (by simp)]
      exact h
    · simp only [hn, if_false, if_true]
      have hno : ∀ i, (i, n) ∉ held := fun i hi => hn ((h.table n).2 ⟨i, hi⟩)
      refine Ret.then fun r => ?_
      split
      · refine Ret.then fun r => Ret.pure ?_
        dsimp only
        rw [step_err _ _ (PosixError_ne_ok _ _ _)]
        refine ⟨h.objs, fun m => ?_, h.pw⟩
        rw [← h.table m]
        unfold lockRemove
        simp only [List.mem_filter, List.mem_cons, decide_eq_true_eq]
        constructor
        · rintro ⟨h1 | h1, h2⟩
          · exact absurd h1 h2
          · exact h1
        · intro h1
          exact ⟨.inr h1, fun h2 => hn (h2 ▸ h1)⟩
      · refine Ret.pure ?_
        unfold heldStep
        dsimp only
        refine ⟨fun i m => ?_, fun m => ?_, ?_⟩
        · rw [List.mem_cons]
          simp only [has_alloc]
          constructor
          · rintro (h1 | h1)
            · injection h1 with h1 h2
              exact ⟨_, .inr ⟨h1, by rw [h2]⟩⟩
            · obtain ⟨fd, h2⟩ := (h.objs i m).1 h1
              exact ⟨fd, .inl h2⟩
          · rintro ⟨fd', h1 | ⟨h1, h2⟩⟩
            · exact .inr ((h.objs i m).2 ⟨fd', h1⟩)
            · injection h2 with _ h2
              exact .inl (by rw [h1, h2]; rfl)
        · show m ∈ n :: e.locks ↔ _
          simp only [List.mem_cons, h.table m]
          constructor
          · rintro (h1 | ⟨i, h1⟩)
            · exact ⟨_, .inl (by rw [h1])⟩
            · exact ⟨i, .inr h1⟩
          · rintro ⟨i, h1 | h1⟩
            · injection h1 with _ h1; exact .inl h1
            · exact .inr ⟨i, h1⟩
        · rw [List.pairwise_cons]
          refine ⟨fun a ha hc => hno a.1 (by
            have : n = a.2 := hc
            rw [this]; exact ha), h.pw⟩

theorem UnlockFile_held {e : PEnv} {held : List (Nat × Bytes)} (h : HeldInv e held) (i : Nat) :
    Ret (fun r => HeldInv r.2 (heldStep held (.unlockFile i, .status r.1))) (e.UnlockFile strerror i) := by
  unfold PEnv.UnlockFile
  refine Ret.bind (Ret.pureM (Q := fun o => e.has i o) fun o ho => get_has' ho) fun o ho => ?_
  split
  · rename_i fd n
    refine Ret.then fun r => ?_
    split
    · refine Ret.pure ?_
      have : ∀ st : St, st ≠ .ok → heldStep held (.unlockFile i, .status st) = held := by
        intro st hs
        cases st with
        | ok => exact absurd rfl hs
        | err _ _ _ => rfl
      dsimp only
      rw [this _ (PosixError_ne_ok _ _ _)]
      exact h
    · refine Ret.then fun r => Ret.pure ?_
      have hin : (i, n) ∈ held := (h.objs i n).2 ⟨fd, ho⟩
      unfold heldStep
      dsimp only
      have hmem : ∀ j m, (j, m) ∈ held.filter (fun l => decide (l.1 ≠ i)) ↔ (j, m) ∈ held ∧ j ≠ i := by
        intro j m; simp [List.mem_filter]
      -- a held lock has the name `n` only if it is `i`
      have huniq : ∀ j, (j, n) ∈ held → j = i := by
        intro j hj
        by_contra hne
        have hpw := h.pw
        obtain ⟨a, ha, ha'⟩ := List.getElem_of_mem hin
        obtain ⟨b, hb, hb'⟩ := List.getElem_of_mem hj
        rcases Nat.lt_trichotomy a b with hl | hl | hl
        · exact List.pairwise_iff_getElem.1 hpw a b ha hb hl (by rw [ha', hb'])
        · subst hl
          rw [ha'] at hb'
          injection hb' with hb' _
          exact hne hb'.symm
        · exact List.pairwise_iff_getElem.1 hpw b a hb ha hl (by rw [ha', hb'])
      refine ⟨fun j m => ?_, fun m => ?_, h.pw.filter _⟩
      · rw [hmem, h.objs]
        unfold PEnv.has
        dsimp only
        rw [List.getElem?_set]
        split
        · rename_i hij
          subst hij
          constructor
          · rintro ⟨_, h2⟩; exact absurd rfl h2
          · rintro ⟨fd', h2⟩; split at h2 <;> exact nomatch h2
        · rename_i hij
          exact ⟨fun h => h.1, fun h => ⟨h, fun h' => hij h'.symm⟩⟩
      · unfold lockRemove
        simp only [List.mem_filter, decide_eq_true_eq, h.table m, hmem]
        constructor
        · rintro ⟨⟨j, h1⟩, h2⟩
          refine ⟨j, h1, fun h3 => h2 ?_⟩
          subst h3
          obtain ⟨fd', h4⟩ := (h.objs j m).1 h1
          unfold PEnv.has at ho h4
          rw [ho] at h4
          injection h4 with h4; injection h4 with h4; injection h4 with _ h4
          exact h4.symm
        · rintro ⟨j, h1, h2⟩
          exact ⟨⟨j, h1⟩, fun h3 => h2 (huniq j (h3 ▸ h1))⟩
  · exact Ret.pureM fun _ hh => nomatch hh

/-- LockFile or UnlockFile. -/
def POp.isLock : POp → Bool
  | .lockFile _ => true
  | .unlockFile _ => true
  | _ => false

theorem heldStep_other {held : List (Nat × Bytes)} {o : POp} (h : o.isLock = false) (r : PRes) :
    heldStep held (o, r) = held := by
  cases o <;> first | rfl | exact nomatch h

theorem NewSequential_same (e : PEnv) (n : Bytes) : Ret (fun r => SameLocks e r.2.2) (e.NewSequentialFile strerror n) := by
  unfold PEnv.NewSequentialFile
  refine Ret.then fun r => ?_
  split
  · exact Ret.pure (SameLocks.refl e)
  · exact Ret.pure ((SameLocks.refl e).alloc fun _ _ h => nomatch h)

theorem NewRandom_same (e : PEnv) (n : Bytes) : Ret (fun r => SameLocks e r.2.2) (e.NewRandomAccessFile strerror n) := by
  unfold PEnv.NewRandomAccessFile
  refine Ret.then fun r => ?_
  split
  · exact Ret.pure (SameLocks.refl e)
  · split
    dsimp only []
    split
    · refine Ret.then fun r => ?_
      have tail : ∀ (fd : Int) (a : St) (b : Option Nat) (e' : PEnv), SameLocks e e' → Ret (fun r => SameLocks e r.2.2) (do
          let _ ← sysClose fd
          if a ≠ .ok then
            return (a, b, { e' with mmap_limiter := Limiter.Release e'.mmap_limiter })
          else return (a, b, e') : P _) := by
        intro fd a b e' hs
        refine Ret.then fun r => ?_
        split
        · exact Ret.pure (hs.limits _ _)
        · exact Ret.pure hs
      split
      · refine Ret.then fun r => ?_
        split
        · exact tail _ _ _ _ (((SameLocks.refl e).limits _ _).alloc fun _ _ h => nomatch h)
        · exact tail _ _ _ _ ((SameLocks.refl e).limits _ _)
      · exact tail _ _ _ _ ((SameLocks.refl e).limits _ _)
    · refine Ret.then fun r => ?_
      exact Ret.pure (((SameLocks.refl e).limits _ _).alloc fun _ _ h => nomatch h)

theorem newWFile_same (e : PEnv) (m : Mode) (n : Bytes) : Ret (fun r => SameLocks e r.2.2) (e.newWFile strerror m n) := by
  unfold PEnv.newWFile
  refine Ret.then fun r => ?_
  split
  · exact Ret.pure (SameLocks.refl e)
  · exact Ret.then fun f => Ret.pure ((SameLocks.refl e).alloc fun _ _ h => nomatch h)

theorem NewLogger_same (e : PEnv) (n : Bytes) : Ret (fun r => SameLocks e r.2.2) (e.NewLogger strerror n) := by
  unfold PEnv.NewLogger
  refine Ret.then fun r => ?_
  split
  · exact Ret.pure (SameLocks.refl e)
  · refine Ret.then fun r => ?_
    split
    · refine Ret.then fun r => ?_
      split
      · exact Ret.pure (SameLocks.refl e)
      · exact Ret.pure (SameLocks.refl e)
    · exact Ret.pure ((SameLocks.refl e).alloc fun _ _ h => nomatch h)

theorem delete_same (e : PEnv) (h : Nat) : Ret (fun r => SameLocks e r) (e.delete strerror h) := by
  unfold PEnv.delete
  refine Ret.bind (Ret.pureM (Q := fun o => e.has h o) fun o ho => get_has' ho) fun o ho => ?_
  have tail : ∀ e' : PEnv, e'.objs = e.objs → e'.locks = e.locks → (∀ fd n, o ≠ .lock fd n) →
      Ret (fun r => SameLocks e r) (Pure.pure { e' with objs := e'.objs.set h none } : P PEnv) := by
    intro e' h1 h2 h3
    refine Ret.pure ?_
    rw [h1, h2]
    exact SameLocks.set ho h3 (by intro _ _ h; cases h) _ _
  cases o with
  | lock fd n => exact Ret.bind (Ret.pureM (Q := fun _ => False) fun _ hh => nomatch hh) fun _ hf => hf.elim
  | seq f => exact Ret.then fun _ => tail _ rfl rfl fun _ _ h => nomatch h
  | rand f => exact Ret.then fun _ => tail _ rfl rfl fun _ _ h => nomatch h
  | mmap f => exact Ret.then fun _ => tail _ rfl rfl fun _ _ h => nomatch h
  | wr f => exact Ret.then fun _ => tail _ rfl rfl fun _ _ h => nomatch h
  | logger f => exact Ret.then fun _ => tail _ rfl rfl fun _ _ h => nomatch h

theorem step_held {e : PEnv} {held : List (Nat × Bytes)} (h : HeldInv e held) (o : POp) :
    Ret (fun r => HeldInv r.1 (heldStep held (o, r.2))) (e.step strerror full o) := by
  cases o with
  | lockFile n => exact Ret.bind (LockFile_held strerror h n) fun r hr => Ret.pure hr
  | unlockFile i => exact Ret.bind (UnlockFile_held strerror h i) fun r hr => Ret.pure hr
  | _ =>
    refine Ret.mono (Q := fun r => SameLocks e r.1) ?_ fun r hr => (by
      rw [heldStep_other rfl]; exact h.same hr)
    unfold PEnv.step
    first
    | exact Ret.bind (NewSequential_same strerror e _) fun r hr => Ret.pure hr
    | exact Ret.bind (NewRandom_same strerror e _) fun r hr => Ret.pure hr
    | exact Ret.bind (newWFile_same strerror e _ _) fun r hr => Ret.pure hr
    | exact Ret.bind (NewLogger_same strerror e _) fun r hr => Ret.pure hr
    | exact Ret.bind (delete_same strerror e _) fun r hr => Ret.pure hr
    | exact Ret.then fun r => Ret.pure (SameLocks.refl e)
    | (refine Ret.bind (Ret.pureM (Q := fun o => e.has _ o) fun o ho => get_has' ho) fun o ho => ?_
       cases o <;> first
        | exact Ret.pureM fun _ hh => nomatch hh
        | exact Ret.then fun r => Ret.pure (SameLocks.refl e)
        | exact Ret.pure (SameLocks.refl e)
        | exact Ret.then fun r => Ret.pure (SameLocks.set ho (fun _ _ h => nomatch h) (fun _ _ h => by injection h with h; exact nomatch h) _ _))

theorem run_held (ops : List POp) : ∀ {e : PEnv} {held : List (Nat × Bytes)}, HeldInv e held →
    Ret (fun r => HeldInv r.1 ((ops.zip r.2).foldl heldStep held)) (e.run strerror full ops) := by
  induction ops with
  | nil => intro e held h; exact Ret.pure h
  | cons o ops ih =>
    intro e held h
    unfold PEnv.run
    refine Ret.bind (step_held strerror full h o) fun r hr => ?_
    refine Ret.bind (ih hr) fun r' hr' => Ret.pure hr'

end Posix
end Lsmdb
