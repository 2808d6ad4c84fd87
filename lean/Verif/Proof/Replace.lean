import Verif.Spec.Replace
import Verif.Proof.EnvUtilPosix

/-!
# Replacing a file: what the calls on the temporary file leave of the target, at every crash point
-/

namespace Lsmdb
namespace Iface

open MemEnv (St lit)
open Posix

/-- What is guarded: the name `t` and the inodes it means or might mean. -/
structure Guard (k0 : Kernel) (t : Bytes) (k : Kernel) : Prop where
  look : k.lookup t = k0.lookup t
  pend : ∀ v, (t, v) ∈ k.pend → (t, v) ∈ k0.pend
  ino : ∀ i, k0.NameAfterCrash t (some i) → ∃ n0 n, k0.inodes[i]? = some n0 ∧ k.inodes[i]? = some n ∧ n.dir = n0.dir ∧ n.data = n0.data ∧
    ∀ c ∈ n.old, c ∈ n0.old

/-- The guard, with a descriptor that may be written to. -/
structure Inv (k0 : Kernel) (tmp target : Bytes) (fd : Int) (w : World) : Prop where
  guard : Guard k0 (cstr target) w.k
  fd : ∀ o, w.k.ofd fd = some o → o.wr = true → ¬ k0.NameAfterCrash (cstr target) (some o.ino)
  quiet : ∀ c ∈ w.choices, QuietPair tmp target c

/-- `I` holds whenever the machine crashes, and at the end, together with `Q`. -/
def Guards (I : World → Prop) {α : Type} (Q : α → Prop) (x : P α) : Prop :=
  ∀ w, I w → match x w with
    | .done a w' => I w' ∧ Q a
    | .crash w' => I w'
    | .fault _ => True

/-- `C` holds at the end, and where the machine crashes. -/
def _root_.Lsmdb.Posix.Out.Ends {α : Type} (o : Out α) (C : World → Prop) : Prop :=
  match o with
  | .done _ w => C w
  | .crash w => C w
  | .fault _ => True

section
variable {I : World → Prop} {α β : Type}

theorem Guards.pure {Q : α → Prop} {a : α} (h : Q a) : Guards I Q (Pure.pure a : P α) := fun _ hi => ⟨hi, h⟩

theorem Guards.pureM {Q : α → Prop} {x : M α} (h : ∀ a, x = .ok a → Q a) : Guards I Q (Posix.pureM x) := by
  intro w hi
  cases x with
  | error e => trivial
  | ok a => exact ⟨hi, h a rfl⟩

theorem Guards.bind {Q : α → Prop} {R : β → Prop} {x : P α} {f : α → P β} (hx : Guards I Q x) (hf : ∀ a, Q a → Guards I R (f a)) :
    Guards I R (x >>= f) := by
  intro w hi
  rw [bind_eq]
  have := hx w hi
  cases h : x w with
  | crash w' => rw [h] at this; exact this
  | fault e => trivial
  | done a w' => rw [h] at this; exact hf a this.2 w' this.1

theorem Guards.then {R : β → Prop} {x : P α} {f : α → P β} (hx : Guards I (fun _ => True) x) (hf : ∀ a, Guards I R (f a)) :
    Guards I R (x >>= f) := hx.bind fun a _ => hf a

theorem Guards.dep {Q : α → Prop} {g : Nat → P α} (n : World → Nat) (h : ∀ n, Guards I Q (g n)) : Guards I Q (fun w => g (n w) w) :=
  fun w hi => h (n w) w hi

theorem Guards.mono {Q R : α → Prop} {x : P α} (hx : Guards I Q x) (h : ∀ a, Q a → R a) : Guards I R x := by
  intro w hi
  have := hx w hi
  cases hr : x w with
  | crash w' => rw [hr] at this; exact this
  | fault e => trivial
  | done a w' => rw [hr] at this; exact ⟨this.1, h a this.2⟩
end

section
variable {k0 : Kernel} {tmp target : Bytes} {fd : Int}

theorem Guard.other {t : Bytes} {k : Kernel} (h : Guard k0 (cstr target) k) {c : Choice} (hc : QuietPair tmp target c) :
    Guard k0 (cstr target) (c.other k) := by
  obtain ⟨_, h2, h3⟩ := hc
  obtain ⟨g1, g2, g3⟩ := h2 k
  exact ⟨g1.trans h.look, fun v hv => h.pend v ((h3 k v).1 hv), fun i hi => by
    obtain ⟨n0, n, e1, e2, e3⟩ := h.ino i hi
    exact ⟨n0, n, e1, g2 _ _ e2, e3⟩⟩

/-- A system call keeps the invariant if it does so on kernels. -/
theorem Guards.sys {α : Type} {call : α → List Call} {f : Choice → Kernel → α × Kernel} {Q : α → Prop}
    (h : ∀ c k, Guard k0 (cstr target) k → (∀ o, k.ofd fd = some o → o.wr = true → ¬ k0.NameAfterCrash (cstr target) (some o.ino)) →
      Guard k0 (cstr target) (f c k).2 ∧
      (∀ o, (f c k).2.ofd fd = some o → o.wr = true → ¬ k0.NameAfterCrash (cstr target) (some o.ino)) ∧ Q (f c k).1) :
    Guards (Inv k0 tmp target fd) Q (Posix.sys call f) := by
  rintro w ⟨h1, h2, h3⟩
  unfold Posix.sys
  cases hw : w.choices with
  | nil => exact ⟨h1, h2, h3⟩
  | cons c cs =>
    rw [hw] at h3
    have hc := h3 c List.mem_cons_self
    have hofd : (c.other w.k).ofd fd = w.k.ofd fd := by unfold Kernel.ofd; rw [(hc.1 w.k).2.2]
    obtain ⟨a1, a2, a3⟩ := h c (c.other w.k) (Guard.other (t := tmp) h1 hc) (by rw [hofd]; exact h2)
    exact ⟨⟨a1, a2, fun c' hc' => h3 c' (List.mem_cons_of_mem _ hc')⟩, a3⟩

/-- Changes of inodes that are not guarded. -/
theorem Guard.setInode {k : Kernel} {t : Bytes} (h : Guard k0 t k) {i : Nat} (n : Inode) (hi : ¬ k0.NameAfterCrash t (some i)) :
    Guard k0 t { k with inodes := k.inodes.set i n } := by
  refine ⟨h.look, h.pend, fun j hj => ?_⟩
  obtain ⟨n0, n1, a1, a2, a3⟩ := h.ino j hj
  exact ⟨n0, n1, a1, (List.getElem?_set_ne (by rintro rfl; exact hi hj)).trans a2, a3⟩

theorem ofd_set_fd {k : Kernel} {fd fd' : Int} {x : Option Ofd} {o : Ofd} (h : Kernel.ofd { k with fds := k.fds.set fd'.toNat x } fd = some o) :
    k.ofd fd = some o ∨ (x = some o ∧ fd.toNat = fd'.toNat) := by
  unfold Kernel.ofd at h ⊢
  split at h
  · exact nomatch h
  · rename_i hn
    rw [if_neg hn]
    by_cases he : fd'.toNat = fd.toNat
    · rw [he, List.getElem?_set] at h
      rw [if_pos rfl] at h
      split at h
      · simp only [Option.join_some] at h
        exact .inr ⟨h, he.symm⟩
      · exact nomatch h
    · rw [List.getElem?_set_ne he] at h
      exact .inl h

theorem ofd_put {k k' : Kernel} {fd : Int} {o o' : Ofd} {n : Nat} (hk : k'.fds = Kernel.putFd k.fds n o') (h : k'.ofd fd = some o) (hn : n ≤ k.fds.length) :
    k.ofd fd = some o ∨ o = o' := by
  unfold Kernel.ofd at h ⊢
  split at h
  · exact nomatch h
  · rename_i hneg
    rw [if_neg hneg]
    rw [hk] at h
    unfold Kernel.putFd at h
    split at h
    · by_cases he : n = fd.toNat
      · rw [he, List.getElem?_set, if_pos rfl] at h
        split at h
        · simp only [Option.join_some] at h
          injection h with h
          exact .inr h.symm
        · exact nomatch h
      · rw [List.getElem?_set_ne he] at h
        exact .inl h
    · rw [List.getElem?_append] at h
      split at h
      · exact .inl h
      · generalize fd.toNat - k.fds.length = j at h
        cases j with
        | zero => simp only [List.getElem?_cons_zero, Option.join_some] at h; injection h with h; exact .inr h.symm
        | succ j => simp at h

theorem freeFd_le (l : List (Option Ofd)) : Kernel.freeFd l ≤ l.length := by
  induction l with
  | nil => simp [Kernel.freeFd]
  | cons a l ih => cases a <;> simp [Kernel.freeFd]; omega

theorem write_guards {f : Int} (hf : f = fd ∨ f = -1) (d : Bytes) : Guards (Inv k0 tmp target fd) (fun _ => True) (sysWrite f d) := by
  refine Guards.sys fun c k hg hfd => ?_
  cases hcf : c.fail with
  | some e => exact ⟨hg, hfd, trivial⟩
  | none =>
    dsimp only []
    unfold kwrite
    cases ho : k.ofd f with
    | none => exact ⟨hg, hfd, trivial⟩
    | some o =>
      dsimp only []
      by_cases hw : o.wr = true
      · rw [if_pos hw]
        rcases hf with rfl | rfl
        · cases hn : k.inodes[o.ino]? with
          | none => exact ⟨hg, hfd, trivial⟩
          | some n =>
            refine ⟨?_, ?_, trivial⟩
            · have h1 := hg.setInode (writeInode n (if o.app = true then n.data.length else o.off) (d.take c.count)) (hfd o ho hw)
              exact ⟨h1.look, h1.pend, h1.ino⟩
            · intro o' ho' hw'
              rcases ofd_set_fd (k := { k with inodes := _ }) ho' with h | ⟨h, _⟩
              · exact hfd o' h hw'
              · injection h with h
                rw [← h]
                exact hfd o ho hw
        · exact absurd ho (by simp [Kernel.ofd])
      · rw [if_neg hw]
        exact ⟨hg, hfd, trivial⟩

theorem sync_guards (f : Int) : Guards (Inv k0 tmp target fd) (fun _ => True) (sysSync f) := by
  refine Guards.sys fun c k hg hfd => ?_
  cases hcf : c.fail with
  | some e => exact ⟨hg, hfd, trivial⟩
  | none =>
    dsimp only []
    unfold ksync
    cases k.inodeOf f with
    | none => exact ⟨hg, hfd, trivial⟩
    | some i =>
      dsimp only []
      cases hn : k.inodes[i]? with
      | none => exact ⟨hg, hfd, trivial⟩
      | some n =>
        dsimp only []
        by_cases hd : n.dir = true
        · rw [if_pos hd]
          refine ⟨⟨hg.look, fun v hv => hg.pend v (List.mem_filter.1 hv).1, hg.ino⟩, hfd, trivial⟩
        · rw [if_neg hd]
          refine ⟨⟨hg.look, hg.pend, fun j hj => ?_⟩, hfd, trivial⟩
          obtain ⟨n0, n1, a1, a2, a3, a4, a5⟩ := hg.ino j hj
          by_cases hij : i = j
          · subst hij
            rw [hn] at a2
            injection a2 with a2
            subst a2
            exact ⟨n0, { n with old := [] }, a1, List.getElem?_set_self (by rw [List.getElem?_eq_some_iff] at hn; exact hn.1), a3, a4,
              fun c hc => nomatch hc⟩
          · exact ⟨n0, n1, a1, (List.getElem?_set_ne hij).trans a2, a3, a4, a5⟩

theorem close_guards (f : Int) : Guards (Inv k0 tmp target fd) (fun _ => True) (sysClose f) := by
  refine Guards.sys fun c k hg hfd => ?_
  cases ho : k.ofd f with
  | none => exact ⟨hg, hfd, trivial⟩
  | some o =>
    have : ∀ o, Kernel.ofd { k with fds := k.fds.set f.toNat none } fd = some o → o.wr = true →
        ¬ k0.NameAfterCrash (cstr target) (some o.ino) := by
      intro o' ho' hw'
      rcases ofd_set_fd ho' with h | ⟨h, _⟩
      · exact hfd o' h hw'
      · exact nomatch h
    cases hcf : c.fail <;> exact ⟨⟨hg.look, hg.pend, hg.ino⟩, this, trivial⟩

theorem openRd_guards (p : Bytes) : Guards (Inv k0 tmp target fd) (fun _ => True) (sysOpen .rdonly p) := by
  refine Guards.sys fun c k hg hfd => ?_
  cases hcf : c.fail with
  | some e => exact ⟨hg, hfd, trivial⟩
  | none =>
    dsimp only []
    unfold kopen
    dsimp only [Mode.creat]
    split
    · exact ⟨hg, hfd, trivial⟩
    · split
      · exact ⟨hg, hfd, trivial⟩
      · split
        · exact ⟨hg, hfd, trivial⟩
        · split
          · exact ⟨hg, hfd, trivial⟩
          · refine ⟨⟨hg.look, hg.pend, hg.ino⟩, fun o ho hw => ?_, trivial⟩
            rcases ofd_put (k := k) rfl ho (freeFd_le _) with h | h
            · exact hfd o h hw
            · rw [h] at hw
              exact nomatch hw

/-- The file object works on the descriptor, or is closed. -/
def On (fd : Int) (f : WFile) : Prop := f.fd = fd ∨ f.fd = -1

variable (strerror : Strerror) (full : Bool)

theorem writeLoop_guards {f : Int} (hf : f = fd ∨ f = -1) (name : Bytes) : ∀ (fuel : Nat) (d : Bytes),
    Guards (Inv k0 tmp target fd) (fun _ => True) (writeLoop strerror f name fuel d) := by
  intro fuel
  induction fuel with
  | zero => intro d w _; trivial
  | succ fuel ih =>
    intro d
    unfold writeLoop
    split
    · refine Guards.then (write_guards hf d) fun r => ?_
      split
      · split
        · exact ih _
        · exact Guards.pure trivial
      · exact ih _
    · exact Guards.pure trivial

theorem WriteUnbuffered_guards {f : WFile} (hf : On fd f) (d : Bytes) :
    Guards (Inv k0 tmp target fd) (fun _ => True) (f.WriteUnbuffered strerror d) :=
  Guards.dep (g := fun n => writeLoop strerror f.fd f.filename n d) (fun w => w.choices.length + 2)
    fun n => writeLoop_guards strerror hf f.filename n d

theorem FlushBuffer_guards {f : WFile} (hf : On fd f) : Guards (Inv k0 tmp target fd) (fun r => On fd r.2) (f.FlushBuffer strerror) :=
  Guards.then (Guards.pureM fun _ _ => trivial) fun _ => Guards.then (WriteUnbuffered_guards strerror hf _) fun _ => Guards.pure hf

theorem Append_guards {f : WFile} (hf : On fd f) (d : Slice) : Guards (Inv k0 tmp target fd) (fun r => On fd r.2) (f.Append strerror d) := by
  unfold WFile.Append
  refine Guards.then (Guards.pureM fun _ _ => trivial) fun _ => Guards.then (Guards.pureM fun _ _ => trivial) fun _ => ?_
  dsimp only []
  split
  · exact Guards.pure hf
  · refine Guards.bind (FlushBuffer_guards strerror (fd := fd) hf) fun r hr => ?_
    split
    · exact Guards.pure hr
    · split
      · exact Guards.then (Guards.pureM fun _ _ => trivial) fun _ => Guards.pure hr
      · exact Guards.then (WriteUnbuffered_guards strerror hr _) fun _ => Guards.pure hr

theorem Close_guards {f : WFile} (hf : On fd f) : Guards (Inv k0 tmp target fd) (fun r => On fd r.2) (f.Close strerror) :=
  Guards.bind (FlushBuffer_guards strerror hf) fun _ _ => Guards.then (close_guards _) fun _ => Guards.pure (.inr rfl)

theorem SyncFd_guards (f : Int) (p : Bytes) : Guards (Inv k0 tmp target fd) (fun _ => True) (SyncFd strerror full f p) := by
  unfold SyncFd
  dsimp only []
  split
  all_goals
    refine Guards.then (by first | exact sync_guards _ | exact Guards.pure trivial) fun r => ?_
    split
    · exact Guards.pure trivial
    · refine Guards.then (sync_guards _) fun r => ?_
      split <;> exact Guards.pure trivial

theorem Sync_guards {f : WFile} (hf : On fd f) : Guards (Inv k0 tmp target fd) (fun r => On fd r.2) (f.Sync strerror full) := by
  unfold WFile.Sync
  refine Guards.then (x := f.SyncDirIfManifest strerror full) ?_ fun st => ?_
  · unfold WFile.SyncDirIfManifest
    split
    · refine Guards.then (openRd_guards _) fun r => ?_
      split
      · exact Guards.pure trivial
      · exact Guards.then (SyncFd_guards strerror full _ _) fun _ => Guards.then (close_guards _) fun _ => Guards.pure trivial
    · exact Guards.pure trivial
  · split
    · exact Guards.pure hf
    · refine Guards.bind (FlushBuffer_guards strerror hf) fun r hr => ?_
      repeat' first | exact Guards.pure hr | exact SyncFd_guards strerror full _ _ | refine Guards.then ?_ (fun _ => ?_) | split

theorem wstep_guards {f : WFile} (hf : On fd f) (op : WOp) : Guards (Inv k0 tmp target fd) (fun r => On fd r.2) (f.step strerror full op) := by
  cases op with
  | append d => exact Append_guards strerror hf d
  | flush => exact FlushBuffer_guards strerror hf
  | sync => exact Sync_guards strerror full hf
  | close => exact Close_guards strerror hf

theorem destroy_guards {f : WFile} (hf : On fd f) : Guards (Inv k0 tmp target fd) (fun _ => True) (f.destroy strerror) := by
  unfold WFile.destroy
  split
  · exact Guards.bind (Close_guards strerror hf) fun _ _ => Guards.pure trivial
  · exact Guards.pure trivial

theorem remove_guards (hne : cstr tmp ≠ cstr target) : Guards (Inv k0 tmp target fd) (fun _ => True) (RemoveFile strerror tmp) := by
  refine Guards.then (x := sysUnlink tmp) (Guards.sys fun c k hg hfd => ?_) fun _ => Guards.pure trivial
  cases hcf : c.fail with
  | some e => exact ⟨hg, hfd, trivial⟩
  | none =>
    dsimp only []
    split
    · exact ⟨hg, hfd, trivial⟩
    · split
      · exact ⟨hg, hfd, trivial⟩
      · refine ⟨⟨?_, ?_, hg.ino⟩, hfd, trivial⟩
        · rw [lookup_setName, if_neg (Ne.symm hne)]; exact hg.look
        · intro v hv
          rcases List.mem_cons.1 hv with h | h
          · injection h with h _; exact absurd h.symm hne
          · exact hg.pend v h

theorem freeFd_ofd {k : Kernel} {o : Ofd} (h : k.ofd (Kernel.freeFd k.fds : Nat) = some o) : False :=
  freeFd_ne h (Int.toNat_natCast _)

/-- Opening the temporary file, on the kernel. -/
theorem kopen_guards {k : Kernel} (hne : cstr tmp ≠ cstr target) (hg : Guard k0 (cstr target) k)
    (hb : ¬ k0.NameAfterCrash (cstr target) (some k.inodes.length))
    (hl : ∀ i, k.lookup (cstr tmp) = some i → ¬ k0.NameAfterCrash (cstr target) (some i)) :
    Guard k0 (cstr target) (kopen .trunc (cstr tmp) k).2 ∧ ∀ fd, (kopen .trunc (cstr tmp) k).1 = .ok fd →
      ∀ o, (kopen .trunc (cstr tmp) k).2.ofd fd = some o → o.wr = true → ¬ k0.NameAfterCrash (cstr target) (some o.ino) := by
  have key : ∀ (k' : Kernel) (i : Nat), k'.fds = Kernel.putFd k.fds (Kernel.freeFd k.fds) (Mode.trunc.ofd i) →
      ¬ k0.NameAfterCrash (cstr target) (some i) → ∀ o, k'.ofd (Kernel.freeFd k.fds : Nat) = some o →
      ¬ k0.NameAfterCrash (cstr target) (some o.ino) := by
    intro k' i hk' hi o ho
    rcases ofd_put (k := k) hk' ho (freeFd_le _) with h | h
    · exact absurd h freeFd_ofd
    · rw [h]; exact hi
  have hnil : ∀ e : Errno, Guard k0 (cstr target) k ∧ ∀ fd : Int, (Except.error e : Except Errno Int) = .ok fd →
      ∀ o, k.ofd fd = some o → o.wr = true → ¬ k0.NameAfterCrash (cstr target) (some o.ino) := fun e => ⟨hg, fun fd h => nomatch h⟩
  unfold kopen
  split
  · exact hnil _
  · dsimp only [Mode.creat]
    split
    · simp only [↓reduceIte]
      refine ⟨⟨?_, ?_, fun i hi => ?_⟩, fun fd hfd o ho _ => ?_⟩
      · exact ((lookup_setName k (cstr tmp) (cstr target) (some k.inodes.length)).trans (if_neg (Ne.symm hne))).trans hg.look
      · intro v hv
        rcases List.mem_cons.1 hv with h | h
        · injection h with h _; exact absurd h.symm hne
        · exact hg.pend v h
      · obtain ⟨n0, n, a1, a2, a3⟩ := hg.ino i hi
        refine ⟨n0, n, a1, ?_, a3⟩
        show (k.inodes ++ _)[i]? = _
        rw [List.getElem?_append_left (by rw [List.getElem?_eq_some_iff] at a2; exact a2.1)]
        exact a2
      · injection hfd with hfd
        subst hfd
        exact key _ k.inodes.length rfl hb o ho
    · rename_i i hi
      split
      · exact hnil _
      · rename_i n hn
        split
        · exact hnil _
        · simp only [↓reduceIte]
          have h1 := hg.setInode (truncInode n) (hl i hi)
          refine ⟨⟨h1.look, h1.pend, h1.ino⟩, fun fd hfd o ho _ => ?_⟩
          injection hfd with hfd
          subst hfd
          exact key _ i rfl (hl i hi) o ho

theorem Separate.guard {k : Kernel} (hs : Separate k tmp target) : Guard k (cstr target) k := by
  refine ⟨rfl, fun v h => h, fun i hi => ?_⟩
  obtain ⟨h1, _⟩ := hs.2 i hi
  exact ⟨k.inodes[i], k.inodes[i], List.getElem?_eq_getElem h1, List.getElem?_eq_getElem h1, rfl, rfl, fun c h => h⟩

theorem noFd {k : Kernel} : ∀ o, k.ofd (-1) = some o → o.wr = true → ¬ k0.NameAfterCrash (cstr target) (some o.ino) := by
  intro o h; exact absurd h (by simp [Kernel.ofd])

/-- Opening the temporary file. -/
theorem open_guards {w : World} (hs : Separate w.k tmp target) (hq : ∀ c ∈ w.choices, QuietPair tmp target c) :
    (sysOpen .trunc tmp w).Sat (fun r w' => Inv w.k tmp target ((val r).getD (-1)) w') (fun w' => Inv w.k tmp target (-1) w') := by
  refine Out.Sat.sys (fun _ => ⟨hs.guard, noFd, hq⟩) fun c cs hw => ?_
  have hc := hq c (by rw [hw]; exact List.mem_cons_self)
  have hq' : ∀ c ∈ cs, QuietPair tmp target c := fun c' h => hq c' (by rw [hw]; exact List.mem_cons_of_mem _ h)
  have hg := Guard.other (t := tmp) hs.guard hc
  have hlt := (hc.1 w.k).1
  have hin := (hc.1 w.k).2.1
  cases hcf : c.fail with
  | some e => exact ⟨hg, noFd, hq'⟩
  | none =>
    obtain ⟨g1, g2⟩ := kopen_guards (k := c.other w.k) hs.1 hg
      (fun h => by
        have hlt := (hs.2 _ h).1
        have := hin _ _ (List.getElem?_eq_getElem hlt)
        have := (List.getElem?_eq_some_iff.1 this).1
        omega) (fun i hi h => (hs.2 i h).2 (hlt ▸ hi))
    cases hr : (kopen .trunc (cstr tmp) (c.other w.k)).1 with
    | error e => exact ⟨g1, by show ∀ o, _ → _; simp only [hr, val, Option.getD_none]; exact noFd, hq'⟩
    | ok fd => exact ⟨g1, by simp only [hr, val, Option.getD_some]; exact g2 fd hr, hq'⟩

/-- The Env holds the file object as number `i`. -/
def Holding (fd : Int) (i : Nat) (e : PEnv) : Prop := ∃ f, e.has i (.wr f) ∧ On fd f

/-- Calls on file object `i`. -/
def GuardsS (I : World → Prop) (E E' : PEnv → Prop) {α : Type} (x : StateT PEnv P α) : Prop :=
  ∀ e, E e → Guards I (fun r => E' r.2) (x.run e)

theorem GuardsS.bind {I : World → Prop} {E E' E'' : PEnv → Prop} {α β : Type} {x : StateT PEnv P α} {f : α → StateT PEnv P β}
    (hx : GuardsS I E E' x) (hf : ∀ a, GuardsS I E' E'' (f a)) : GuardsS I E E'' (x >>= f) :=
  fun e he => Guards.bind (hx e he) fun r hr => hf r.1 r.2 hr

theorem GuardsS.pure {I : World → Prop} {E : PEnv → Prop} {α : Type} (a : α) : GuardsS I E E (Pure.pure a : StateT PEnv P α) :=
  fun _ he => Guards.pure he

theorem write_guardsS (i : Nat) (op : WOp) :
    GuardsS (Inv k0 tmp target fd) (Holding fd i) (Holding fd i) (posixFiles.write strerror full (.obj i) op) := by
  rintro e ⟨f, h1, h2⟩
  refine Guards.bind (Q := fun h => h = i) (Guards.pureM fun a h => ?_) ?_
  · injection h with h; exact h.symm
  · rintro _ rfl
    refine Guards.bind (Q := fun o => o = .wr f) (Guards.pureM fun a h => ?_) ?_
    · rw [get_has h1] at h; injection h with h; exact h.symm
    · rintro _ rfl
      refine Guards.bind (wstep_guards strerror full h2 op) fun r hr => ?_
      exact Guards.pure ⟨r.2, has_set h1, hr⟩

theorem delete_guardsS (i : Nat) :
    GuardsS (Inv k0 tmp target fd) (Holding fd i) (fun _ => True) ((posixFiles strerror full).delete (.obj i)) := by
  rintro e ⟨f, h1, h2⟩
  refine Guards.bind (Q := fun h => h = i) (Guards.pureM fun a h => ?_) ?_
  · injection h with h; exact h.symm
  · rintro _ rfl
    refine Guards.then (x := e.delete strerror _) ?_ fun _ => Guards.pure trivial
    unfold PEnv.delete
    refine Guards.bind (Q := fun o => o = .wr f) (Guards.pureM fun a h => ?_) ?_
    · rw [get_has h1] at h; injection h with h; exact h.symm
    · rintro _ rfl
      exact Guards.then (destroy_guards strerror h2) fun _ => Guards.pure trivial

theorem Guards.ends {α : Type} {Q : α → Prop} {x : P α} (h : Guards (Inv k0 tmp target fd) Q x) {w : World} (hi : Inv k0 tmp target fd w) :
    (x w).Ends (fun w' => ∃ fd, Inv k0 tmp target fd w') := by
  have := h w hi
  cases hr : x w with
  | done a w' => rw [hr] at this; exact ⟨fd, this.1⟩
  | crash w' => rw [hr] at this; exact ⟨fd, this⟩
  | fault er => trivial

/-- At every crash point and at the end of WriteStringToFile on the temporary file the target is as it was. -/
theorem write_guarded (pr : Process) (e : PEnv) (data : Slice) (sync : Bool) {w : World} (hs : Separate w.k tmp target)
    (hq : ∀ c ∈ w.choices, QuietPair tmp target c) :
    ((DoWriteStringToFile (PosixEnv strerror pr) (posixFiles strerror full) data tmp sync).run e w).Ends
      (fun w' => ∃ fd, Inv w.k tmp target fd w') := by
  have hopen : match (e.newWFile strerror .trunc tmp) w with
      | .done r w' => ∃ fd, Inv w.k tmp target fd w' ∧ (r.1 = .ok → ∃ h, r.2.1 = some h ∧ Holding fd h r.2.2)
      | .crash w' => ∃ fd, Inv w.k tmp target fd w'
      | .fault _ => True := by
    have h0 := open_guards hs hq
    unfold PEnv.newWFile
    rw [bind_eq]
    cases h1 : sysOpen .trunc tmp w with
    | crash w' => rw [h1] at h0; exact ⟨_, h0⟩
    | fault e => trivial
    | done r w' =>
      rw [h1] at h0
      cases r with
      | error er => exact ⟨_, h0, fun h => absurd h (PosixError_ne_ok _ _ _)⟩
      | ok fd =>
        obtain ⟨m, d, _, _, h4⟩ := new_eq tmp fd
        simp only [bind_eq, h4, Posix.pureM]
        refine ⟨fd, h0, fun _ => ⟨_, rfl, ?_⟩⟩
        exact ⟨⟨fun _ => none, 0, fd, m, tmp, d⟩, by unfold PEnv.has PEnv.alloc; simp, .inl rfl⟩
  have hrest : ∀ (e : PEnv) (fd : Int) (i : Nat), Holding fd i e → Guards (Inv w.k tmp target fd) (fun _ => True) ((do
      let s ← (posixFiles strerror full).append (.obj i) data
      let s ← if s = .ok ∧ sync then (posixFiles strerror full).sync (.obj i) else pure s
      let s ← if s = .ok then (posixFiles strerror full).close (.obj i) else pure s
      (posixFiles strerror full).delete (.obj i)
      if s ≠ .ok then do
        let _ ← (PosixEnv strerror pr).RemoveFile tmp
        return s
      else return s : StateT PEnv P St).run e) := by
    intro e fd i he
    have hpure : ∀ s : St, GuardsS (Inv w.k tmp target fd) (Holding fd i) (Holding fd i) (pure s : StateT PEnv P St) := fun s => GuardsS.pure s
    refine GuardsS.bind (E' := Holding fd i) (E'' := fun _ => True) (write_guardsS strerror full i _) (fun s1 => ?_) e he
    have hend : ∀ s : St, GuardsS (Inv w.k tmp target fd) (Holding fd i) (fun _ => True) (do
        (posixFiles strerror full).delete (.obj i)
        if s ≠ .ok then do
          let _ ← (PosixEnv strerror pr).RemoveFile tmp
          return s
        else return s : StateT PEnv P St) := by
      intro s
      refine GuardsS.bind (delete_guardsS strerror full i) fun _ => ?_
      split
      · refine GuardsS.bind (E' := fun _ => True) (fun e _ => ?_) fun _ => fun _ _ => Guards.pure trivial
        exact Guards.then (remove_guards strerror hs.1) fun _ => Guards.pure trivial
      · exact fun _ _ => Guards.pure trivial
    dsimp only []
    split
    · refine GuardsS.bind (E' := Holding fd i) (write_guardsS strerror full i _) fun s2 => ?_
      split
      · exact GuardsS.bind (E' := Holding fd i) (write_guardsS strerror full i _) fun s3 => hend s3
      · exact GuardsS.bind (hpure _) fun s3 => hend s3
    · refine GuardsS.bind (hpure _) fun s2 => ?_
      split
      · exact GuardsS.bind (E' := Holding fd i) (write_guardsS strerror full i _) fun s3 => hend s3
      · exact GuardsS.bind (hpure _) fun s3 => hend s3
  show Out.Ends ((do
    let r ← (do
      let (s, h, e) ← e.newWFile strerror .trunc tmp
      return ((s, Ptr.of h), e) : P ((St × Ptr) × PEnv))
    (match r.1 with
      | (s, file) =>
        if s ≠ .ok then return s
        else do
          let s ← (posixFiles strerror full).append file data
          let s ← if s = .ok ∧ sync then (posixFiles strerror full).sync file else pure s
          let s ← if s = .ok then (posixFiles strerror full).close file else pure s
          (posixFiles strerror full).delete file
          if s ≠ .ok then do
            let _ ← (PosixEnv strerror pr).RemoveFile tmp
            return s
          else return s : StateT PEnv P St).run r.2 : P (St × PEnv)) w) _
  rw [bind_eq, bind_eq]
  cases h1 : (e.newWFile strerror .trunc tmp) w with
  | crash w' => rw [h1] at hopen; exact hopen
  | fault er => trivial
  | done r w1 =>
    rw [h1] at hopen
    obtain ⟨fd, hi, hh⟩ := hopen
    obtain ⟨st, h, e1⟩ := r
    dsimp only [pure_eq]
    by_cases hst : st = .ok
    · rw [if_neg (by simp [hst])]
      obtain ⟨i, rfl, hi2⟩ := hh hst
      exact Guards.ends (hrest e1 fd i hi2) hi
    · rw [if_pos hst]
      exact ⟨fd, hi⟩

end

end Iface
end Lsmdb
