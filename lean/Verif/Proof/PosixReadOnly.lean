import Verif.Model.PosixEnv
import Verif.Proof.PosixPres

/-!
# Reading changes no file

`Keeps π x`: whatever happens (also a crash on the way), `x` leaves the part `π` of the kernel as it was, if nobody else changes it.
-/

namespace Lsmdb
namespace Posix

open MemEnv (St lit)

/-- The files, directories and their names, with everything a crash can make of them. -/
def disk (k : Kernel) : List (Bytes × Nat) × List (Bytes × Option Nat) × List Inode := (k.names, k.pend, k.inodes)

/-- Nobody else changes it. -/
def NoOther (c : Choice) : Prop := ∀ k, disk (c.other k) = disk k

/-- `x` leaves the disk alone and yields a result with `Q`. -/
def Keeps {α : Type} (Q : α → Prop) (x : P α) : Prop :=
  ∀ w, (∀ c ∈ w.choices, NoOther c) →
    match x w with
    | .done a w' => Q a ∧ disk w'.k = disk w.k ∧ w'.choices <:+ w.choices
    | .crash w' => disk w'.k = disk w.k
    | .fault _ => True

theorem Keeps.pure {α : Type} {Q : α → Prop} {a : α} (h : Q a) : Keeps Q (Pure.pure a : P α) :=
  fun _ _ => ⟨h, rfl, List.suffix_refl _⟩

theorem Keeps.pureM {α : Type} {Q : α → Prop} {x : M α} (h : ∀ a, x = .ok a → Q a) : Keeps Q (Posix.pureM x) := by
  intro w _
  cases x with
  | error e => trivial
  | ok a => exact ⟨h a rfl, rfl, List.suffix_refl _⟩

theorem Keeps.fault {α : Type} {Q : α → Prop} (f : Fault) : Keeps Q (fun _ => .fault f : P α) := fun _ _ => trivial

theorem Keeps.bind {α β : Type} {Q : α → Prop} {R : β → Prop} {x : P α} {f : α → P β} (hx : Keeps Q x)
    (hf : ∀ a, Q a → Keeps R (f a)) : Keeps R (x >>= f) := by
  intro w hc
  rw [bind_eq]
  have h := hx w hc
  cases h1 : x w with
  | crash w1 => rw [h1] at h; exact h
  | fault e => trivial
  | done a w1 =>
    rw [h1] at h
    obtain ⟨hq, h2, h3⟩ := h
    have h' := hf a hq w1 fun c hm => hc c (h3.subset hm)
    dsimp only
    cases h4 : f a w1 with
    | crash w2 => rw [h4] at h'; exact h'.trans h2
    | fault e => trivial
    | done b w2 =>
      rw [h4] at h'
      exact ⟨h'.1, h'.2.1.trans h2, h'.2.2.trans h3⟩

theorem Keeps.sys {α : Type} {call : α → List Call} {f : Choice → Kernel → α × Kernel} (h : ∀ c k, disk (f c k).2 = disk k) :
    Keeps (fun _ => True) (Posix.sys call f) := by
  intro w hc
  unfold Posix.sys
  cases hw : w.choices with
  | nil => rfl
  | cons c cs => exact ⟨trivial, (h c _).trans (hc c (hw ▸ List.mem_cons_self) w.k), List.suffix_cons _ _⟩

theorem Keeps.dep {α : Type} {Q : α → Prop} {g : Nat → P α} (n : World → Nat) (h : ∀ n, Keeps Q (g n)) :
    Keeps Q (fun w => g (n w) w) := fun w hc => h (n w) w hc

/-- As `Keeps.bind` when nothing is known of the first result. -/
theorem Keeps.then {α β : Type} {R : β → Prop} {x : P α} {f : α → P β} (hx : Keeps (fun _ => True) x)
    (hf : ∀ a, Keeps R (f a)) : Keeps R (x >>= f) := Keeps.bind hx fun a _ => hf a

macro "sys_keeps" : tactic => `(tactic| (refine Keeps.sys fun c k => ?_; (try dsimp only []); (repeat' split) <;> rfl))

theorem kopen_disk (p : Bytes) (k : Kernel) : disk (kopen .rdonly p k).2 = disk k := by
  unfold kopen
  dsimp only []
  repeat' split
  all_goals first
    | rfl
    | (rename_i h; exact nomatch h)
    | skip

theorem open_keeps (p : Bytes) : Keeps (fun _ => True) (sysOpen .rdonly p) := by
  refine Keeps.sys fun c k => ?_
  split
  · rfl
  · exact kopen_disk _ _

theorem close_keeps (fd : Int) : Keeps (fun _ => True) (sysClose fd) := by unfold sysClose; sys_keeps
theorem read_keeps (fd : Int) (n : Nat) : Keeps (fun _ => True) (sysRead fd n) := by unfold sysRead kread; sys_keeps
theorem pread_keeps (fd : Int) (n : Nat) (o : Int) : Keeps (fun _ => True) (sysPread fd n o) := by unfold sysPread; sys_keeps
theorem lseek_keeps (fd : Int) (o : Int) : Keeps (fun _ => True) (sysLseekCur fd o) := by unfold sysLseekCur; sys_keeps
theorem stat_keeps (p : Bytes) : Keeps (fun _ => True) (sysStat p) := by unfold sysStat; sys_keeps
theorem access_keeps (p : Bytes) : Keeps (fun _ => True) (sysAccess p) := by unfold sysAccess; sys_keeps
theorem mmap_keeps (fd : Int) (n : Nat) : Keeps (fun _ => True) (sysMmap fd n) := by unfold sysMmap; sys_keeps
theorem munmap_keeps (m : Nat) : Keeps (fun _ => True) (sysMunmap m) := by unfold sysMunmap; sys_keeps
theorem readdir_keeps (l : List Bytes) : Keeps (fun _ => True) (sysReaddir l) := by unfold sysReaddir; sys_keeps
theorem opendir_keeps (p : Bytes) : Keeps (fun _ => True) (sysOpendir p) := by
  refine Keeps.sys fun c k => ?_
  dsimp only []
  repeat' split
  all_goals first | rfl | exact kopen_disk _ _

variable (strerror : Strerror) (full : Bool)

theorem seqReadLoop_keeps (f : SeqFile) (n cap : Nat) : ∀ fuel, Keeps (fun _ => True) (seqReadLoop strerror f n cap fuel) := by
  intro fuel
  induction fuel with
  | zero => exact Keeps.fault _
  | succ fuel ih =>
    unfold seqReadLoop
    refine Keeps.then (read_keeps _ _) fun r => ?_
    split
    · split
      · exact ih
      · exact Keeps.pure trivial
    · split
      · exact Keeps.pure trivial
      · exact Keeps.pureM fun _ _ => trivial

theorem readdirLoop_keeps : ∀ (fuel : Nat) (a b : List Bytes), Keeps (fun _ => True) (readdirLoop fuel a b) := by
  intro fuel
  induction fuel with
  | zero => intro _ _; exact Keeps.fault _
  | succ fuel ih =>
    intro a b
    unfold readdirLoop
    refine Keeps.then (readdir_keeps _) fun r => ?_
    split
    · exact Keeps.pure trivial
    · exact ih _ _

theorem RandRead_keeps (f : RandFile) (o n cap : Nat) : Keeps (fun _ => True) (f.Read strerror o n cap) := by
  unfold RandFile.Read
  repeat' first
    | exact Keeps.pure trivial | exact Keeps.pureM fun _ _ => trivial | exact open_keeps _ | exact close_keeps _
    | exact pread_keeps _ _ _ | refine Keeps.then ?_ (fun _ => ?_) | split | dsimp only []

/-- No object of the Env writes. -/
def Readers (e : PEnv) : Prop := ∀ (h : Nat) (f : WFile), e.objs[h]? ≠ some (some (.wr f))

theorem Readers.alloc {e : PEnv} (he : Readers e) {o : Obj} (ho : ∀ f, o ≠ .wr f) : Readers (e.alloc o).2 := by
  intro h f hh
  unfold PEnv.alloc at hh
  rcases Nat.lt_trichotomy h e.objs.length with hl | hl | hl
  · rw [List.getElem?_append_left hl] at hh; exact he h f hh
  · subst hl
    rw [List.getElem?_append_right (le_refl _)] at hh
    simp at hh
    exact ho f hh
  · rw [List.getElem?_eq_none (by simp; omega)] at hh; exact nomatch hh

theorem Readers.unset {e : PEnv} (he : Readers e) (i : Nat) (m l : Int) :
    Readers ⟨e.objs.set i none, e.locks, m, l⟩ := by
  intro h f hh
  dsimp only at hh
  rw [List.getElem?_set] at hh
  split at hh
  · split at hh <;> exact nomatch hh
  · exact he h f hh

theorem Readers.limits {e : PEnv} (he : Readers e) (m l : Int) : Readers ⟨e.objs, e.locks, m, l⟩ := he

theorem NewSequential_keeps {e : PEnv} (he : Readers e) (n : Bytes) :
    Keeps (fun r => Readers r.2.2) (e.NewSequentialFile strerror n) := by
  unfold PEnv.NewSequentialFile
  refine Keeps.then (open_keeps _) fun r => ?_
  split
  · exact Keeps.pure he
  · exact Keeps.pure (he.alloc fun f => (nomatch ·))

theorem GetFileSize_keeps (p : Bytes) : Keeps (fun _ => True) (GetFileSize strerror p) := by
  unfold GetFileSize
  refine Keeps.then (stat_keeps _) fun r => ?_
  split <;> exact Keeps.pure trivial

theorem RandNew_keeps (n : Bytes) (fd l : Int) : Keeps (fun _ => True) (RandFile.new n fd l) := by
  unfold RandFile.new
  split
  dsimp only []
  split
  · exact Keeps.pure trivial
  · exact Keeps.then (Keeps.pureM fun _ _ => trivial) fun _ => Keeps.then (close_keeps _) fun _ => Keeps.pure trivial

theorem NewRandom_keeps {e : PEnv} (he : Readers e) (n : Bytes) :
    Keeps (fun r => Readers r.2.2) (e.NewRandomAccessFile strerror n) := by
  unfold PEnv.NewRandomAccessFile
  refine Keeps.then (open_keeps _) fun r => ?_
  split
  · exact Keeps.pure he
  · split
    dsimp only []
    split
    · refine Keeps.then (GetFileSize_keeps strerror _) fun r => ?_
      have tail : ∀ (fd : Int) (a : St) (b : Option Nat) (e' : PEnv), Readers e' → Keeps (fun r => Readers r.2.2) (do
          let _ ← sysClose fd
          if a ≠ .ok then
            return (a, b, { e' with mmap_limiter := Limiter.Release e'.mmap_limiter })
          else return (a, b, e') : P (St × Option Nat × PEnv)) := by
        intro fd a b e' he'
        refine Keeps.then (close_keeps _) fun _ => ?_
        split
        · exact Keeps.pure (he'.limits _ _)
        · exact Keeps.pure he'
      split
      · refine Keeps.bind (Q := fun _ => True) (mmap_keeps _ _) fun r _ => ?_
        split
        · refine Keeps.bind (Q := fun r => Readers r.2.2) (Keeps.pure (by exact (he.limits _ _).alloc (by intro f h; cases h))) fun r hr => ?_
          exact tail _ _ _ _ hr
        · refine Keeps.bind (Q := fun r => Readers r.2.2) (Keeps.pure (he.limits _ _)) fun r hr => ?_
          exact tail _ _ _ _ hr
      · refine Keeps.bind (Q := fun r => Readers r.2.2) (Keeps.pure (he.limits _ _)) fun r hr => ?_
        exact tail _ _ _ _ hr
    · refine Keeps.then (RandNew_keeps _ _ _) fun r => ?_
      exact Keeps.pure (Readers.alloc (he.limits _ _) fun f => (nomatch ·))

theorem GetChildren_keeps (p : Bytes) : Keeps (fun _ => True) (GetChildren strerror p) := by
  unfold GetChildren
  refine Keeps.then (opendir_keeps _) fun r => ?_
  split
  · exact Keeps.pure trivial
  · refine Keeps.then (x := readdirAll _) (Keeps.dep (g := fun n => readdirLoop n _ []) (fun w => w.choices.length + 1)
      fun n => readdirLoop_keeps n _ _) fun _ => Keeps.then (close_keeps _) fun _ => Keeps.pure trivial

theorem get_reader {e : PEnv} (he : Readers e) {h : Nat} {o : Obj} (hg : e.get h = .ok o) : ∀ f, o ≠ .wr f := by
  unfold PEnv.get at hg
  cases ho : e.objs[h]? with
  | none => rw [ho] at hg; exact nomatch hg
  | some x =>
    cases x with
    | none => rw [ho] at hg; exact nomatch hg
    | some y =>
      rw [ho] at hg
      injection hg with hg
      subst hg
      intro f hf
      subst hf
      exact he h f ho

theorem delete_keeps {e : PEnv} (he : Readers e) (h : Nat) : Keeps Readers (e.delete strerror h) := by
  unfold PEnv.delete
  refine Keeps.bind (Q := fun o => ∀ f, o ≠ .wr f) (Keeps.pureM fun o hg => get_reader he hg) fun o ho => ?_
  dsimp only []
  cases o with
  | seq f =>
    exact Keeps.then (close_keeps _) fun _ => Keeps.bind (Q := Readers) (Keeps.pure he) fun e' he' => Keeps.pure (he'.unset _ _ _)
  | rand f =>
    refine Keeps.then (x := f.destroy e.fd_limiter) ?_ fun l => Keeps.bind (Q := Readers) (Keeps.pure (he.limits _ _)) fun e' he' => Keeps.pure (he'.unset _ _ _)
    unfold RandFile.destroy
    split
    · exact Keeps.then (Keeps.pureM fun _ _ => trivial) fun _ => Keeps.then (close_keeps _) fun _ => Keeps.pure trivial
    · exact Keeps.pure trivial
  | mmap f =>
    refine Keeps.then (x := f.destroy e.mmap_limiter) ?_ fun l => Keeps.bind (Q := Readers) (Keeps.pure (he.limits _ _)) fun e' he' => Keeps.pure (he'.unset _ _ _)
    unfold MmapFile.destroy
    exact Keeps.then (munmap_keeps _) fun _ => Keeps.pure trivial
  | wr f => exact absurd rfl (ho f)
  | logger fd =>
    exact Keeps.then (close_keeps _) fun _ => Keeps.bind (Q := Readers) (Keeps.pure he) fun e' he' => Keeps.pure (he'.unset _ _ _)
  | lock a b => exact Keeps.bind (Q := fun _ => False) (Keeps.pureM fun _ h => nomatch h) fun _ h => h.elim

/-- The calls that read. -/
inductive POp.Reads : POp → Prop
  | newSequential (n : Bytes) : Reads (.newSequential n)
  | newRandomAccess (n : Bytes) : Reads (.newRandomAccess n)
  | fileExists (n : Bytes) : Reads (.fileExists n)
  | getChildren (d : Bytes) : Reads (.getChildren d)
  | getFileSize (n : Bytes) : Reads (.getFileSize n)
  | seqRead (h n : Nat) : Reads (.seqRead h n)
  | seqSkip (h n : Nat) : Reads (.seqSkip h n)
  | randRead (h o n : Nat) : Reads (.randRead h o n)
  | delete (h : Nat) : Reads (.delete h)

theorem step_keeps {e : PEnv} (he : Readers e) {op : POp} (hop : op.Reads) :
    Keeps (fun r => Readers r.1) (e.step strerror full op) := by
  cases hop with
  | newSequential n => exact Keeps.bind (NewSequential_keeps strerror he n) fun r hr => Keeps.pure hr
  | newRandomAccess n => exact Keeps.bind (NewRandom_keeps strerror he n) fun r hr => Keeps.pure hr
  | fileExists n =>
    refine Keeps.then (x := FileExists n) ?_ fun _ => Keeps.pure he
    unfold FileExists
    refine Keeps.then (access_keeps _) fun r => ?_
    split <;> exact Keeps.pure trivial
  | getChildren d => exact Keeps.then (GetChildren_keeps strerror d) fun _ => Keeps.pure he
  | getFileSize n => exact Keeps.then (GetFileSize_keeps strerror n) fun _ => Keeps.pure he
  | seqRead h n =>
    refine Keeps.then (Keeps.pureM fun _ _ => trivial) fun o => ?_
    split
    · exact Keeps.then (x := SeqFile.Read strerror _ n n) (Keeps.dep (g := seqReadLoop strerror _ n n)
        (fun w => w.choices.length + 1) (seqReadLoop_keeps strerror _ n n)) fun _ => Keeps.pure he
    · exact Keeps.pureM fun _ h => nomatch h
  | seqSkip h n =>
    refine Keeps.then (Keeps.pureM fun _ _ => trivial) fun o => ?_
    split
    · refine Keeps.then (x := SeqFile.Skip strerror _ n) ?_ fun _ => Keeps.pure he
      unfold SeqFile.Skip
      refine Keeps.then (lseek_keeps _ _) fun r => ?_
      split <;> exact Keeps.pure trivial
    · exact Keeps.pureM fun _ h => nomatch h
  | randRead h o n =>
    refine Keeps.then (Keeps.pureM fun _ _ => trivial) fun o => ?_
    split
    · exact Keeps.then (RandRead_keeps strerror _ _ _ _) fun _ => Keeps.pure he
    · split
      exact Keeps.pure he
    · exact Keeps.pureM fun _ h => nomatch h
  | delete h => exact Keeps.bind (delete_keeps strerror he h) fun r hr => Keeps.pure hr

theorem runKeeps : ∀ (os : List POp) (e : PEnv), Readers e → (∀ o ∈ os, o.Reads) →
    Keeps (fun r => Readers r.1) (e.run strerror full os) := by
  intro os
  induction os with
  | nil => intro e he _; exact Keeps.pure he
  | cons o os ih =>
    intro e he ho
    unfold PEnv.run
    refine Keeps.bind (step_keeps strerror full he (ho o List.mem_cons_self)) fun r hr => ?_
    exact Keeps.bind (ih r.1 hr fun o h => ho o (List.mem_cons_of_mem _ h)) fun r' hr' => Keeps.pure hr'

end Posix
end Lsmdb
