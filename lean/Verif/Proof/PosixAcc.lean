import Verif.Proof.PosixOwn

/-! # PosixEnv: every call keeps the accounts -/

namespace Lsmdb
namespace Posix

open MemEnv (St lit)

variable (strerror : Strerror) (full : Bool) {ext extm : Nat → Prop} {L1 L2 : Int}

/-- The accounts are right. -/
def Acc (ext extm : Nat → Prop) (L1 L2 : Int) (e : PEnv) (w : World) : Prop :=
  ∃ S T, EInv ext extm L1 L2 e S T ∧ Res S T w

/-- A new object that owns descriptor `i` only and no limiter slot. -/
theorem EInv.alloc {e : PEnv} {S T : Nat → Prop} {w : World} {i : Nat} {o : Obj} (H : EInv ext extm L1 L2 e S T)
    (hw : Res (fun j => S j ∨ j = i) T w) (hi : ¬ S i) (ho : ObjOk o) (h1 : ∀ j, o.ownsFd j ↔ j = i)
    (h2 : ∀ j, ¬ o.ownsMap j) (h3 : o.isMmap = false) (h4 : o.isPermanent = false) :
    Acc ext extm L1 L2 (e.alloc o).2 w := by
  refine ⟨_, _, ⟨H.own.push ho ?_ ?_, ?_, ?_⟩, hw.congr ?_ ?_⟩
  · intro j hj; rw [(h1 j).1 hj]; exact hi
  · intro j hj; exact absurd hj (h2 j)
  · show Slots L1 (cnt Obj.isMmap (e.objs ++ [some o])) e.mmap_limiter
    rw [cnt_push, h3]; exact H.mm
  · show Slots L2 (cnt Obj.isPermanent (e.objs ++ [some o])) e.fd_limiter
    rw [cnt_push, h4]; exact H.fd
  · intro j; rw [h1 j]
  · intro j
    constructor
    · exact fun h => .inl h
    · rintro (h | h)
      · exact h
      · exact absurd h (h2 j)

theorem NewSequential_acc {e : PEnv} {w : World} (h : Acc ext extm L1 L2 e w) (n : Bytes) :
    (e.NewSequentialFile strerror n w).Sat (fun r w' => Acc ext extm L1 L2 r.2.2 w') (fun _ => True) := by
  obtain ⟨S, T, H, hw⟩ := h
  unfold PEnv.NewSequentialFile
  apply Out.Sat.bind
  apply true_mono (sysOpen_res hw .rdonly n)
  rintro r w1 (⟨err, rfl, h1⟩ | ⟨i, rfl, hi, h1⟩)
  · exact ⟨S, T, H, h1⟩
  · exact H.alloc h1 hi ⟨i, rfl⟩ (fun j => by show ((i : Int) = j) ↔ _; omega) (fun _ h => h) rfl rfl

theorem newWFile_acc {e : PEnv} {w : World} (h : Acc ext extm L1 L2 e w) (m : Mode) (n : Bytes) :
    (e.newWFile strerror m n w).Sat (fun r w' => Acc ext extm L1 L2 r.2.2 w') (fun _ => True) := by
  obtain ⟨S, T, H, hw⟩ := h
  unfold PEnv.newWFile
  apply Out.Sat.bind
  apply true_mono (sysOpen_res hw m n)
  rintro r w1 (⟨err, rfl, h1⟩ | ⟨i, rfl, hi, h1⟩)
  · exact ⟨S, T, H, h1⟩
  · simp only []
    apply Out.Sat.bind
    obtain ⟨m', d, _, _, h3⟩ := new_eq n (i : Int)
    apply Out.Sat.pureM h3
    exact H.alloc h1 hi ⟨.inr ⟨i, rfl⟩, [], rfl, Nat.zero_le _, fun i hi => absurd hi (by simp)⟩
      (fun j => by show ((i : Int) = j) ↔ _; omega) (fun _ h => h) rfl rfl

theorem NewLogger_acc {e : PEnv} {w : World} (h : Acc ext extm L1 L2 e w) (n : Bytes) :
    (e.NewLogger strerror n w).Sat (fun r w' => Acc ext extm L1 L2 r.2.2 w') (fun _ => True) := by
  obtain ⟨S, T, H, hw⟩ := h
  unfold PEnv.NewLogger
  apply Out.Sat.bind
  apply true_mono (sysOpen_res hw .append n)
  rintro r w1 (⟨err, rfl, h1⟩ | ⟨i, rfl, hi, h1⟩)
  · exact ⟨S, T, H, h1⟩
  · simp only []
    apply Out.Sat.bind
    apply true_mono (sysOther_res h1)
    intro r w2 h2
    cases r with
    | ok _ =>
      exact H.alloc h2 hi ⟨i, rfl⟩ (fun j => by show ((i : Int) = j) ↔ _; omega) (fun _ h => h) rfl rfl
    | error e =>
      simp only []
      apply Out.Sat.bind
      apply true_mono (sysClose_res h2 i (.inr rfl))
      intro r w3 h3
      have h4 : Res S T w3 := h3.congr (add_remove hi) (fun _ => Iff.rfl)
      cases r <;> exact ⟨S, T, H, h4⟩

theorem LockFile_acc {e : PEnv} {w : World} (h : Acc ext extm L1 L2 e w) (n : Bytes) :
    (e.LockFile strerror n w).Sat (fun r w' => Acc ext extm L1 L2 r.2.2 w') (fun _ => True) := by
  obtain ⟨S, T, H, hw⟩ := h
  unfold PEnv.LockFile
  apply Out.Sat.bind
  apply true_mono (sysOpen_res hw .rdwr n)
  rintro r w1 (⟨err, rfl, h1⟩ | ⟨i, rfl, hi, h1⟩)
  · exact ⟨S, T, H, h1⟩
  · simp only []
    have H' : ∀ l, EInv ext extm L1 L2 { e with locks := l } S T := fun l => ⟨H.own, H.mm, H.fd⟩
    cases hins : (lockInsert e.locks n).1 with
    | true =>
      simp only [if_true]
      apply Out.Sat.bind
      apply true_mono (sysOther_res h1)
      intro r w2 h2
      cases r with
      | ok _ =>
        exact (H' _).alloc h2 hi ⟨i, rfl⟩ (fun j => by show ((i : Int) = j) ↔ _; omega) (fun _ h => h) rfl rfl
      | error e =>
        simp only []
        apply Out.Sat.bind
        apply true_mono (sysClose_res h2 i (.inr rfl))
        intro r w3 h3
        exact ⟨S, T, H' _, h3.congr (add_remove hi) (fun _ => Iff.rfl)⟩
    | false =>
      simp only [Bool.false_eq_true, if_false]
      apply Out.Sat.bind
      apply true_mono (sysClose_res h1 i (.inr rfl))
      intro r w3 h3
      exact ⟨S, T, H' _, h3.congr (add_remove hi) (fun _ => Iff.rfl)⟩

theorem GetFileSize_res {S T : Nat → Prop} {w : World} (h : Res S T w) (n : Bytes) :
    (GetFileSize strerror n w).Sat (fun _ w' => Res S T w') (fun _ => True) := by
  unfold GetFileSize
  apply Out.Sat.bind
  apply true_mono (sysStat_res h n)
  intro r w1 h1
  cases r <;> exact h1

theorem NewRandom_acc {e : PEnv} {w : World} (h : Acc ext extm L1 L2 e w) (n : Bytes) :
    (e.NewRandomAccessFile strerror n w).Sat (fun r w' => Acc ext extm L1 L2 r.2.2 w') (fun _ => True) := by
  obtain ⟨S, T, H, hw⟩ := h
  unfold PEnv.NewRandomAccessFile
  apply Out.Sat.bind
  apply true_mono (sysOpen_res hw .rdonly n)
  rintro r w1 (⟨err, rfl, h1⟩ | ⟨i, rfl, hi, h1⟩)
  · exact ⟨S, T, H, h1⟩
  · simp only []
    rcases H.mm.acquire with ⟨_, hacq, hs⟩ | ⟨_, hacq, hs⟩
    · -- mmap
      simp only [hacq, if_true]
      generalize hv : (Limiter.Acquire e.mmap_limiter).2 = v at hs
      have hfail : ∀ (st : St) (res : Option Nat) (w2 : World), st ≠ .ok → Res (fun j => S j ∨ j = i) T w2 →
          ((do
            let _ ← sysClose (i : Int)
            if st ≠ .ok then
              return (st, res, { e with mmap_limiter := Limiter.Release v })
            else return (st, res, { e with mmap_limiter := v }) : P (St × Option Nat × PEnv)) w2).Sat
            (fun r w' => Acc ext extm L1 L2 r.2.2 w') (fun _ => True) := by
        intro st res w2 hst h2
        apply Out.Sat.bind
        apply true_mono (sysClose_res h2 i (.inr rfl))
        intro r w3 h3
        simp only [ne_eq, hst, not_false_eq_true, if_true]
        exact ⟨S, T, ⟨H.own, hs.release, H.fd⟩, h3.congr (add_remove hi) (fun _ => Iff.rfl)⟩
      apply Out.Sat.bind
      apply true_mono (GetFileSize_res strerror h1 n)
      rintro ⟨st, size⟩ w2 h2
      simp only []
      by_cases hst : st = .ok
      · simp only [hst, if_true]
        apply Out.Sat.bind
        apply true_mono (sysMmap_res h2 (i : Int) size)
        rintro r w3 (⟨err, rfl, h3⟩ | ⟨m, rfl, hm, h3⟩)
        · simp only []
          apply Out.Sat.bind
          apply Out.Sat.pure
          exact hfail _ none w3 (PosixError_ne_ok _ _ _) h3
        · simp only []
          apply Out.Sat.bind
          apply Out.Sat.pure
          simp only []
          apply Out.Sat.bind
          apply true_mono (sysClose_res h3 i (.inr rfl))
          intro r w4 h4
          simp only [ne_eq, not_true_eq_false, if_false]
          refine ⟨_, _, ⟨H.own.push (o := .mmap ⟨m, size, n⟩) trivial (fun j h => absurd h (fun h => h)) ?_, ?_, ?_⟩,
            h4.congr ?_ ?_⟩
          · intro j hj
            have hj : m = j := hj
            subst hj; exact hm
          · show Slots L1 (cnt Obj.isMmap (e.objs ++ [_])) v
            rw [cnt_push]; exact hs
          · show Slots L2 (cnt Obj.isPermanent (e.objs ++ [_])) e.fd_limiter
            rw [cnt_push]; exact H.fd
          · intro j
            rw [add_remove hi j]
            constructor
            · exact fun h => .inl h
            · rintro (h | h)
              · exact h
              · exact absurd h (fun h => h)
          · intro j
            constructor
            · rintro (h | h)
              · exact .inl h
              · exact .inr h.symm
            · rintro (h | h)
              · exact .inl h
              · exact .inr (Eq.symm h)
      · simp only [hst, if_false]
        apply Out.Sat.bind
        apply Out.Sat.pure
        exact hfail st none w2 hst h2
    · simp only [hacq, Bool.false_eq_true, if_false]
      unfold RandFile.new
      rcases H.fd.acquire with ⟨_, hfacq, hfs⟩ | ⟨_, hfacq, hfs⟩
      · simp only [hfacq, if_true]
        apply Out.Sat.bind
        apply Out.Sat.pure
        refine ⟨_, _, ⟨H.own.push (o := .rand ⟨true, i, n⟩) ⟨i, rfl⟩ ?_ (fun j h => absurd h (fun h => h)), ?_, ?_⟩,
          h1.congr ?_ ?_⟩
        · rintro j ⟨_, hj⟩
          have hj : (i : Int) = j := hj
          have : j = i := by omega
          rw [this]; exact hi
        · show Slots L1 (cnt Obj.isMmap (e.objs ++ [_])) (Limiter.Acquire e.mmap_limiter).2
          rw [cnt_push, hs]; exact H.mm
        · show Slots L2 (cnt Obj.isPermanent (e.objs ++ [_])) (Limiter.Acquire e.fd_limiter).2
          rw [cnt_push]; exact hfs
        · intro j
          constructor
          · rintro (h | h)
            · exact .inl h
            · exact .inr ⟨rfl, by subst h; rfl⟩
          · rintro (h | ⟨_, h⟩)
            · exact .inl h
            · have h : (i : Int) = j := h
              exact .inr (by omega)
        · intro j
          constructor
          · exact fun h => .inl h
          · rintro (h | h)
            · exact h
            · exact absurd h (fun h => h)
      · simp only [hfacq, Bool.false_eq_true, if_false]
        apply Out.Sat.bind
        apply Out.Sat.bind
        apply Out.Sat.pureM (a := ()) (by unfold cassert; rw [if_pos]; simp)
        apply Out.Sat.bind
        apply true_mono (sysClose_res h1 i (.inr rfl))
        intro r w2 h2
        apply Out.Sat.pure
        refine ⟨_, _, ⟨H.own.push (o := .rand ⟨false, -1, n⟩) rfl (fun j h => by exact absurd h.1 (by simp))
          (fun j h => absurd h (fun h => h)), ?_, ?_⟩, h2.congr ?_ ?_⟩
        · show Slots L1 (cnt Obj.isMmap (e.objs ++ [_])) (Limiter.Acquire e.mmap_limiter).2
          rw [cnt_push, hs]; exact H.mm
        · show Slots L2 (cnt Obj.isPermanent (e.objs ++ [_])) (Limiter.Acquire e.fd_limiter).2
          rw [cnt_push, hfs]; exact H.fd
        · intro j
          rw [add_remove hi j]
          constructor
          · exact fun h => .inl h
          · rintro (h | h)
            · exact h
            · exact absurd h.1 (by simp)
        · intro j
          constructor
          · exact fun h => .inl h
          · rintro (h | h)
            · exact h
            · exact absurd h (fun h => h)

/-! ## Calls on objects -/

theorem get_has {e : PEnv} {h : Nat} {o : Obj} (ho : e.has h o) : e.get h = .ok o := by
  unfold PEnv.get; unfold PEnv.has at ho; rw [ho]

/-- Deleting an object after its descriptors and mappings were given back. -/
theorem EInv.drop {e e' : PEnv} {S T : Nat → Prop} {w : World} {h : Nat} {o : Obj} (H : EInv ext extm L1 L2 e S T)
    (ho : e.has h o) (hobjs : e'.objs = e.objs.set h none)
    (hm : e'.mmap_limiter = if o.isMmap then Limiter.Release e.mmap_limiter else e.mmap_limiter)
    (hf : e'.fd_limiter = if o.isPermanent then Limiter.Release e.fd_limiter else e.fd_limiter)
    (hw : Res (fun i => S i ∧ ¬ o.ownsFd i) (fun i => T i ∧ ¬ o.ownsMap i) w) : Acc ext extm L1 L2 e' w := by
  refine ⟨_, _, ⟨?_, ?_, ?_⟩, hw⟩
  · rw [hobjs]; exact H.own.drop ho
  · rw [hobjs, hm]
    have := cnt_drop Obj.isMmap ho
    have hs := H.mm
    cases hb : o.isMmap
    · rw [hb] at this
      simp only [Bool.false_eq_true, if_false, Nat.add_zero] at this ⊢
      rw [this]; exact hs
    · rw [hb] at this
      simp only [if_true] at this ⊢
      rw [← this] at hs
      exact hs.release
  · rw [hobjs, hf]
    have := cnt_drop Obj.isPermanent ho
    have hs := H.fd
    cases hb : o.isPermanent
    · rw [hb] at this
      simp only [Bool.false_eq_true, if_false, Nat.add_zero] at this ⊢
      rw [this]; exact hs
    · rw [hb] at this
      simp only [if_true] at this ⊢
      rw [← this] at hs
      exact hs.release

/-- The world after the one descriptor of an object was closed. -/
theorem fd_gone {S T : Nat → Prop} {w : World} {i : Nat} {o : Obj} (h : Res (fun j => S j ∧ j ≠ i) T w)
    (h1 : ∀ j, o.ownsFd j ↔ j = i) (h2 : ∀ j, ¬ o.ownsMap j) :
    Res (fun j => S j ∧ ¬ o.ownsFd j) (fun j => T j ∧ ¬ o.ownsMap j) w :=
  h.congr (fun j => by rw [h1 j]) (fun j => ⟨fun h => ⟨h, h2 j⟩, fun h => h.1⟩)

theorem UnlockFile_acc {e : PEnv} {w : World} (h : Acc ext extm L1 L2 e w) {hd : Nat} {fd : Int} {n : Bytes}
    (ho : e.has hd (.lock fd n)) :
    (e.UnlockFile strerror hd w).Sat (fun r w' => Acc ext extm L1 L2 r.2 w') (fun _ => True) := by
  obtain ⟨S, T, H, hw⟩ := h
  unfold PEnv.UnlockFile
  apply Out.Sat.bind
  apply Out.Sat.pureM (get_has ho)
  simp only []
  apply Out.Sat.bind
  apply true_mono (sysOther_res hw)
  intro r w1 h1
  cases r with
  | error err => exact ⟨S, T, H, h1⟩
  | ok _ =>
    simp only []
    obtain ⟨i, hi⟩ := H.own.ok hd _ ho
    subst hi
    have howns : ∀ j, Obj.ownsFd (.lock (i : Int) n) j ↔ j = i := fun j => by show ((i : Int) = j) ↔ _; omega
    have hSi : S i := (H.own.fds i).2 (.inr ⟨hd, _, ho, (howns i).2 rfl⟩)
    apply Out.Sat.bind
    apply true_mono (sysClose_res h1 i hSi)
    intro r w2 h2
    exact H.drop ho rfl rfl rfl (fd_gone h2 howns (fun _ h => h))

theorem delete_acc {e : PEnv} {w : World} (h : Acc ext extm L1 L2 e w) {hd : Nat} {o : Obj}
    (ho : e.has hd o) (hlock : ∀ fd n, o ≠ .lock fd n) :
    (e.delete strerror hd w).Sat (fun e' w' => Acc ext extm L1 L2 e' w') (fun _ => True) := by
  obtain ⟨S, T, H, hw⟩ := h
  unfold PEnv.delete
  apply Out.Sat.bind
  apply Out.Sat.pureM (get_has ho)
  have hok := H.own.ok hd _ ho
  cases o with
  | seq f =>
    simp only []
    obtain ⟨i, hi⟩ := hok
    have howns : ∀ j, Obj.ownsFd (.seq f) j ↔ j = i := fun j => by
      show (f.fd = j) ↔ _
      rw [hi]; omega
    have hSi : S i := (H.own.fds i).2 (.inr ⟨hd, _, ho, (howns i).2 rfl⟩)
    rw [hi]
    apply Out.Sat.bind
    apply true_mono (sysClose_res hw i hSi)
    intro r w2 h2
    exact H.drop ho rfl rfl rfl (fd_gone h2 howns (fun _ h => h))
  | rand f =>
    simp only []
    unfold RandFile.destroy
    simp only [ObjOk] at hok
    cases hp : f.has_permanent_fd
    · rw [hp] at hok
      simp only [Bool.false_eq_true, if_false] at hok ⊢
      apply Out.Sat.bind
      apply Out.Sat.pure
      refine H.drop ho rfl rfl ?_ (hw.congr ?_ ?_)
      · show e.fd_limiter = if f.has_permanent_fd = true then _ else _
        rw [hp]; rfl
      · intro j
        constructor
        · intro h
          refine ⟨h, ?_⟩
          rintro ⟨h', _⟩
          rw [hp] at h'; exact nomatch h'
        · exact fun h => h.1
      · intro j; exact ⟨fun h => ⟨h, fun h => h⟩, fun h => h.1⟩
    · rw [hp] at hok
      simp only [if_true] at hok ⊢
      obtain ⟨i, hi⟩ := hok
      have howns : ∀ j, Obj.ownsFd (.rand f) j ↔ j = i := fun j => by
        show (f.has_permanent_fd = true ∧ f.fd = j) ↔ _
        rw [hi, hp]; simp; omega
      have hSi : S i := (H.own.fds i).2 (.inr ⟨hd, _, ho, (howns i).2 rfl⟩)
      apply Out.Sat.bind
      apply Out.Sat.bind
      apply Out.Sat.pureM (a := ()) (by unfold cassert; rw [if_pos]; rw [hi]; simp)
      rw [hi]
      apply Out.Sat.bind
      apply true_mono (sysClose_res hw i hSi)
      intro r w2 h2
      apply Out.Sat.pure
      refine H.drop ho rfl rfl ?_ (fd_gone h2 howns (fun _ h => h))
      show Limiter.Release e.fd_limiter = if f.has_permanent_fd = true then _ else _
      rw [hp]; rfl
  | mmap f =>
    simp only []
    unfold MmapFile.destroy
    have hT : T f.mmap_base := (H.own.maps _).2 (.inr ⟨hd, _, ho, rfl⟩)
    apply Out.Sat.bind
    apply Out.Sat.bind
    apply true_mono (sysMunmap_res hw f.mmap_base hT)
    intro r w2 h2
    apply Out.Sat.pure
    refine H.drop ho rfl rfl rfl (h2.congr ?_ ?_)
    · intro j; exact ⟨fun h => ⟨h, fun h => h⟩, fun h => h.1⟩
    · intro j
      constructor
      · rintro ⟨a, b⟩; exact ⟨a, fun h => b (Eq.symm h)⟩
      · rintro ⟨a, b⟩; exact ⟨a, fun h => b (Eq.symm h)⟩
  | wr f =>
    simp only []
    obtain ⟨hfd, b, hb⟩ := hok
    have hfd' : f.fd = -1 ∨ ∃ i : Nat, f.fd = i ∧ S i := by
      rcases hfd with hfd | ⟨i, hi⟩
      · exact .inl hfd
      · exact .inr ⟨i, hi, (H.own.fds i).2 (.inr ⟨hd, _, ho, hi⟩)⟩
    apply Out.Sat.bind
    apply true_mono (wdestroy_res strerror hw hb hfd')
    intro r w2 h2
    refine H.drop ho rfl rfl rfl (h2.congr ?_ ?_)
    · intro j; exact Iff.rfl
    · intro j; exact ⟨fun h => ⟨h, fun h => h⟩, fun h => h.1⟩
  | logger fd =>
    simp only []
    obtain ⟨i, hi⟩ := hok
    subst hi
    have howns : ∀ j, Obj.ownsFd (.logger (i : Int)) j ↔ j = i := fun j => by show ((i : Int) = j) ↔ _; omega
    have hSi : S i := (H.own.fds i).2 (.inr ⟨hd, _, ho, (howns i).2 rfl⟩)
    apply Out.Sat.bind
    apply true_mono (sysClose_res hw i hSi)
    intro r w2 h2
    exact H.drop ho rfl rfl rfl (fd_gone h2 howns (fun _ h => h))
  | lock fd n => exact absurd rfl (hlock fd n)

/-- A call on a writable file. -/
theorem write_acc {e : PEnv} {w : World} (h : Acc ext extm L1 L2 e w) {hd : Nat} {f : WFile}
    (ho : e.has hd (.wr f)) (op : WOp) (hv : ValidOps [op]) :
    (f.step strerror full op w).Sat
      (fun r w' => Acc ext extm L1 L2 { e with objs := e.objs.set hd (some (.wr r.2)) } w') (fun _ => True) := by
  obtain ⟨S, T, H, hw⟩ := h
  obtain ⟨hfd, b, hb⟩ := H.own.ok hd _ ho
  have same : ∀ (f' : WFile) (w' : World), Res S T w' → f'.fd = f.fd → (∃ b', BufHas f' b') →
      Acc ext extm L1 L2 { e with objs := e.objs.set hd (some (.wr f')) } w' := by
    intro f' w' h1 h2 h3
    refine ⟨_, _, ⟨H.own.upd ho ⟨by rw [h2]; exact hfd, h3⟩ (.inl h2), ?_, ?_⟩, h1.congr ?_ (fun _ => Iff.rfl)⟩
    · show Slots L1 (cnt Obj.isMmap (e.objs.set hd _)) e.mmap_limiter
      rw [cnt_upd (o' := .wr f') Obj.isMmap ho rfl]; exact H.mm
    · show Slots L2 (cnt Obj.isPermanent (e.objs.set hd _)) e.fd_limiter
      rw [cnt_upd (o' := .wr f') Obj.isPermanent ho rfl]; exact H.fd
    · intro j; rw [h2]; exact ⟨fun h => ⟨h, fun h => h⟩, fun h => h.1⟩
  cases op with
  | append d =>
    apply true_mono (Append_res strerror hw hb d (hv d (by simp)))
    rintro r w1 ⟨h1, h2, h3⟩
    exact same _ _ h1 h2 h3
  | flush =>
    apply true_mono (FlushBuffer_res strerror hw hb)
    rintro r w1 ⟨h1, h2⟩
    exact same _ _ h1 (by rw [h2]) ⟨[], by rw [h2]; exact BufHas.zero f⟩
  | sync =>
    apply true_mono (Sync_res strerror full hw hb)
    rintro r w1 ⟨h1, h2, h3⟩
    exact same _ _ h1 h2 h3
  | close =>
    have hfd' : f.fd = -1 ∨ ∃ i : Nat, f.fd = i ∧ S i := by
      rcases hfd with hfd | ⟨i, hi⟩
      · exact .inl hfd
      · exact .inr ⟨i, hi, (H.own.fds i).2 (.inr ⟨hd, _, ho, hi⟩)⟩
    apply true_mono (Close_res strerror hw hb hfd')
    rintro r w1 ⟨h1, h2, h3⟩
    refine ⟨_, _, ⟨H.own.upd ho ⟨.inl h2, h3⟩ (.inr h2), ?_, ?_⟩, h1.congr ?_ (fun _ => Iff.rfl)⟩
    · show Slots L1 (cnt Obj.isMmap (e.objs.set hd _)) e.mmap_limiter
      rw [cnt_upd (o' := .wr r.2) Obj.isMmap ho rfl]; exact H.mm
    · show Slots L2 (cnt Obj.isPermanent (e.objs.set hd _)) e.fd_limiter
      rw [cnt_upd (o' := .wr r.2) Obj.isPermanent ho rfl]; exact H.fd
    · intro j
      rw [h2]
      constructor
      · rintro ⟨a, b⟩; exact ⟨a, fun h => absurd h b⟩
      · rintro ⟨a, b⟩; exact ⟨a, fun h => by have := b h; omega⟩

/-! ## Histories -/

theorem step_acc {e : PEnv} {w : World} (h : Acc ext extm L1 L2 e w) (op : POp) (hh : HandleOk e op)
    (hv : ValidPOps [op]) :
    (e.step strerror full op w).Sat (fun r w' => Acc ext extm L1 L2 r.1 w') (fun _ => True) := by
  have plain : ∀ {α : Type} (x : P α) (g : α → PEnv × PRes), (∀ S T, Res S T w →
      (x w).Sat (fun _ w' => Res S T w') (fun _ => True)) → (∀ a, (g a).1 = e) →
      ((do let a ← x; return g a : P (PEnv × PRes)) w).Sat (fun r w' => Acc ext extm L1 L2 r.1 w')
        (fun _ => True) := by
    intro α x g hx hg
    obtain ⟨S, T, H, hw⟩ := h
    apply Out.Sat.bind
    apply true_mono (hx S T hw)
    intro a w1 h1
    apply Out.Sat.pure
    rw [hg a]
    exact ⟨S, T, H, h1⟩
  have st : ∀ (x : P (Except Errno Unit)) (n : Bytes), (∀ S T, Res S T w →
      (x w).Sat (fun _ w' => Res S T w') (fun _ => True)) → ∀ S T, Res S T w →
      ((do return statusOf strerror n (← x) : P St) w).Sat (fun _ w' => Res S T w') (fun _ => True) := by
    intro x n hx S T hw
    apply Out.Sat.bind
    exact true_mono (hx S T hw) (fun _ _ h => h)
  cases op with
  | newSequential n => exact Out.Sat.bind (true_mono (NewSequential_acc strerror h n) (fun _ _ h => h))
  | newRandomAccess n => exact Out.Sat.bind (true_mono (NewRandom_acc strerror h n) (fun _ _ h => h))
  | newWritable n => exact Out.Sat.bind (true_mono (newWFile_acc strerror h .trunc n) (fun _ _ h => h))
  | newAppendable n => exact Out.Sat.bind (true_mono (newWFile_acc strerror h .append n) (fun _ _ h => h))
  | newLogger n => exact Out.Sat.bind (true_mono (NewLogger_acc strerror h n) (fun _ _ h => h))
  | fileExists n =>
    refine plain (FileExists n) (fun b => (e, .bool b)) (fun S T hw => ?_) (fun _ => rfl)
    unfold FileExists
    apply Out.Sat.bind
    apply true_mono (sysAccess_res hw n)
    intro r w1 h1
    cases r <;> exact h1
  | getChildren d =>
    exact plain (GetChildren strerror d) (fun r => (e, .list r.1 r.2)) (fun S T hw => GetChildren_res strerror hw d)
      (fun _ => rfl)
  | removeFile n =>
    exact plain (RemoveFile strerror n) (fun s => (e, .status s)) (st _ n (fun _ _ hw => sysUnlink_res hw n)) (fun _ => rfl)
  | createDir n =>
    exact plain (CreateDir strerror n) (fun s => (e, .status s)) (st _ n (fun _ _ hw => sysMkdir_res hw n)) (fun _ => rfl)
  | removeDir n =>
    exact plain (RemoveDir strerror n) (fun s => (e, .status s)) (st _ n (fun _ _ hw => sysRmdir_res hw n)) (fun _ => rfl)
  | getFileSize n =>
    exact plain (GetFileSize strerror n) (fun r => (e, .size r.1 r.2)) (fun _ _ hw => GetFileSize_res strerror hw n)
      (fun _ => rfl)
  | renameFile a b =>
    exact plain (RenameFile strerror a b) (fun s => (e, .status s)) (st _ a (fun _ _ hw => sysRename_res hw a b))
      (fun _ => rfl)
  | lockFile n => exact Out.Sat.bind (true_mono (LockFile_acc strerror h n) (fun _ _ h => h))
  | unlockFile hd =>
    obtain ⟨fd, n, ho⟩ := hh
    exact Out.Sat.bind (true_mono (UnlockFile_acc strerror h ho) (fun _ _ h => h))
  | seqRead hd n =>
    obtain ⟨f, ho⟩ := hh
    apply Out.Sat.bind
    apply Out.Sat.pureM (get_has ho)
    exact plain (f.Read strerror n n) (fun r => (e, .data r.1 r.2))
      (fun S T hw => SeqRead_res strerror hw f n n (Nat.le_refl n)) (fun _ => rfl)
  | seqSkip hd n =>
    obtain ⟨f, ho⟩ := hh
    apply Out.Sat.bind
    apply Out.Sat.pureM (get_has ho)
    exact plain (f.Skip strerror n) (fun r => (e, .status r)) (fun S T hw => SeqSkip_res strerror hw f n) (fun _ => rfl)
  | randRead hd off n =>
    rcases hh with ⟨f, ho⟩ | ⟨f, ho⟩
    · apply Out.Sat.bind
      apply Out.Sat.pureM (get_has ho)
      obtain ⟨S, T, H, hw⟩ := h
      have hok : RandOk S f := by
        have hok := H.own.ok hd _ ho
        simp only [ObjOk] at hok
        unfold RandOk
        cases hp : f.has_permanent_fd
        · rw [hp] at hok; exact hok
        · rw [hp] at hok
          obtain ⟨i, hi⟩ := hok
          exact ⟨i, hi, (H.own.fds i).2 (.inr ⟨hd, _, ho, hp, hi⟩)⟩
      apply Out.Sat.bind
      apply true_mono (RandRead_res strerror hw hok off n n (Nat.le_refl n))
      intro r w1 h1
      exact ⟨S, T, H, h1⟩
    · apply Out.Sat.bind
      apply Out.Sat.pureM (get_has ho)
      exact h
  | write hd op =>
    obtain ⟨f, ho⟩ := hh
    apply Out.Sat.bind
    apply Out.Sat.pureM (get_has ho)
    apply Out.Sat.bind
    apply true_mono (write_acc strerror full h ho op (fun d hd' => hv hd d (by
      rw [List.mem_singleton] at hd' ⊢; rw [hd'])))
    intro r w1 h1
    exact h1
  | delete hd =>
    obtain ⟨o, ho, hl⟩ := hh
    apply Out.Sat.bind
    apply true_mono (delete_acc strerror h ho hl)
    intro r w1 h1
    exact h1

/-- Using an address wrongly is undefined behaviour. -/
theorem step_bad {e : PEnv} {op : POp} (hh : ¬ HandleOk e op) (w : World) :
    ∃ f, e.step strerror full op w = .fault f := by
  have hget : ∀ h, (∃ o, e.has h o ∧ e.get h = .ok o) ∨ ∃ f, e.get h = .error f := by
    intro h
    unfold PEnv.get PEnv.has
    cases e.objs[h]? with
    | none => exact .inr ⟨_, rfl⟩
    | some x =>
      cases x with
      | none => exact .inr ⟨_, rfl⟩
      | some o => exact .inl ⟨o, rfl, rfl⟩
  cases op with
  | unlockFile h =>
    rcases hget h with ⟨o, ho, hg⟩ | ⟨f, hg⟩
    · cases o with
      | lock fd n => exact absurd ⟨fd, n, ho⟩ hh
      | _ => exact ⟨_, by simp only [PEnv.step, PEnv.UnlockFile, bind_eq, pureM, hg]; rfl⟩
    · exact ⟨_, by simp only [PEnv.step, PEnv.UnlockFile, bind_eq, pureM, hg]; rfl⟩
  | seqRead h n =>
    rcases hget h with ⟨o, ho, hg⟩ | ⟨f, hg⟩
    · cases o with
      | seq f => exact absurd ⟨f, ho⟩ hh
      | _ => exact ⟨_, by simp only [PEnv.step, bind_eq, pureM, hg]; rfl⟩
    · exact ⟨_, by simp only [PEnv.step, bind_eq, pureM, hg]; rfl⟩
  | seqSkip h n =>
    rcases hget h with ⟨o, ho, hg⟩ | ⟨f, hg⟩
    · cases o with
      | seq f => exact absurd ⟨f, ho⟩ hh
      | _ => exact ⟨_, by simp only [PEnv.step, bind_eq, pureM, hg]; rfl⟩
    · exact ⟨_, by simp only [PEnv.step, bind_eq, pureM, hg]; rfl⟩
  | randRead h off n =>
    rcases hget h with ⟨o, ho, hg⟩ | ⟨f, hg⟩
    · cases o with
      | rand f => exact absurd (.inl ⟨f, ho⟩) hh
      | mmap f => exact absurd (.inr ⟨f, ho⟩) hh
      | _ => exact ⟨_, by simp only [PEnv.step, bind_eq, pureM, hg]; rfl⟩
    · exact ⟨_, by simp only [PEnv.step, bind_eq, pureM, hg]; rfl⟩
  | write h op =>
    rcases hget h with ⟨o, ho, hg⟩ | ⟨f, hg⟩
    · cases o with
      | wr f => exact absurd ⟨f, ho⟩ hh
      | _ => exact ⟨_, by simp only [PEnv.step, bind_eq, pureM, hg]; rfl⟩
    · exact ⟨_, by simp only [PEnv.step, bind_eq, pureM, hg]; rfl⟩
  | delete h =>
    rcases hget h with ⟨o, ho, hg⟩ | ⟨f, hg⟩
    · cases o with
      | lock fd n => exact ⟨_, by simp only [PEnv.step, PEnv.delete, bind_eq, pureM, hg]; rfl⟩
      | _ => exact absurd ⟨_, ho, fun _ _ h => nomatch h⟩ hh
    · exact ⟨_, by simp only [PEnv.step, PEnv.delete, bind_eq, pureM, hg]; rfl⟩
  | _ => exact absurd trivial hh

theorem run_acc : ∀ (ops : List POp) (e : PEnv) (w : World), ValidPOps ops → Acc ext extm L1 L2 e w →
    ∀ e' rs w', e.run strerror full ops w = .done (e', rs) w' → Acc ext extm L1 L2 e' w' := by
  intro ops
  induction ops with
  | nil =>
    intro e w _ h e' rs w' hr
    have hr : Out.done (e, []) w = .done (e', rs) w' := hr
    injection hr with h1 h2
    injection h1 with h1 _
    subst h1 h2; exact h
  | cons op ops ih =>
    intro e w hv h e' rs w' hr
    unfold PEnv.run at hr
    rw [bind_eq] at hr
    have hv1 : ValidPOps [op] := fun h d hm => hv h d (by rw [List.mem_singleton] at hm; rw [hm]; exact List.mem_cons_self)
    have hv2 : ValidPOps ops := fun h d hm => hv h d (List.mem_cons_of_mem _ hm)
    by_cases hh : HandleOk e op
    · have hs := step_acc strerror full h op hh hv1
      cases hx : e.step strerror full op w with
      | fault f => rw [hx] at hr; exact nomatch hr
      | crash w1 => rw [hx] at hr; exact nomatch hr
      | done r w1 =>
        rw [hx] at hr
        simp only [bind_eq] at hr
        cases hy : PEnv.run strerror full r.1 ops w1 with
        | fault f => rw [hy] at hr; exact nomatch hr
        | crash w1 => rw [hy] at hr; exact nomatch hr
        | done r2 w2 =>
          rw [hy] at hr
          have hr : Out.done (r2.1, r.2 :: r2.2) w2 = .done (e', rs) w' := hr
          injection hr with h1 h2
          injection h1 with h1 _
          subst h1 h2
          exact ih r.1 w1 hv2 (hs.done hx) r2.1 r2.2 w2 hy
    · obtain ⟨f, hf⟩ := step_bad strerror full hh w
      rw [hf] at hr; exact nomatch hr

end Posix
end Lsmdb
