import Verif.Spec.PosixEnv
import Verif.Proof.PosixRun2

/-! # PosixEnv: descriptors and mappings -/

namespace Lsmdb
namespace Posix

open MemEnv (St lit)

variable (strerror : Strerror) (full : Bool)

/-- Exactly the descriptors in `S` and the mappings in `T` are open, and no descriptor was closed that was
not open. -/
structure Res (S T : Nat → Prop) (w : World) : Prop where
  quiet : ∀ c ∈ w.choices, KeepsFds c
  fds : ∀ i, w.k.isOpen i ↔ S i
  maps : ∀ m, w.k.isMapped m ↔ T m
  calls : ∀ fd err, Call.close fd err ∈ w.calls → 0 ≤ fd → err ≠ some EBADF

theorem Res.congr {S S' T T' : Nat → Prop} {w : World} (h : Res S T w) (hs : ∀ i, S i ↔ S' i) (ht : ∀ i, T i ↔ T' i) :
    Res S' T' w :=
  ⟨h.quiet, fun i => (h.fds i).trans (hs i), fun i => (h.maps i).trans (ht i), h.calls⟩

/-- The kernel has the same open descriptors and mappings. -/
def SameRes (k k' : Kernel) : Prop := (∀ i, k'.isOpen i ↔ k.isOpen i) ∧ ∀ m, k'.isMapped m ↔ k.isMapped m

theorem SameRes.refl (k : Kernel) : SameRes k k := ⟨fun _ => Iff.rfl, fun _ => Iff.rfl⟩

theorem SameRes.of_eq {k k' : Kernel} (h1 : k'.fds = k.fds) (h2 : k'.maps = k.maps) : SameRes k k' := by
  refine ⟨fun i => ?_, fun m => ?_⟩
  · unfold Kernel.isOpen; rw [h1]
  · unfold Kernel.isMapped; rw [h2]

theorem isOpen_iff_ofd (k : Kernel) (i : Nat) : k.isOpen i ↔ ∃ o, k.ofd (i : Int) = some o := by
  unfold Kernel.isOpen Kernel.ofd
  rw [if_neg (by omega)]
  simp only [Int.toNat_natCast]
  constructor
  · rintro ⟨o, h⟩; exact ⟨o, by rw [h]; rfl⟩
  · rintro ⟨o, h⟩
    cases hx : k.fds[i]? with
    | none => rw [hx] at h; exact nomatch h
    | some x => rw [hx] at h; simp at h; exact ⟨o, by rw [h]⟩

theorem SameRes.set {k : Kernel} {fd : Int} {o o' : Ofd} (h : k.ofd fd = some o) (k' : Kernel)
    (h1 : k'.fds = k.fds.set fd.toNat (some o')) (h2 : k'.maps = k.maps) : SameRes k k' := by
  obtain ⟨h0, h3⟩ := toNat_lt_of_ofd h
  refine ⟨fun i => ?_, fun m => ?_⟩
  · unfold Kernel.isOpen
    rw [h1]
    by_cases hi : fd.toNat = i
    · subst hi
      have hlt : fd.toNat < k.fds.length := by
        rcases Nat.lt_or_ge fd.toNat k.fds.length with h | h
        · exact h
        · rw [List.getElem?_eq_none h] at h3; exact nomatch h3
      rw [List.getElem?_set_self hlt, h3]
      simp
    · rw [List.getElem?_set_ne hi]
  · unfold Kernel.isMapped; rw [h2]

/-- A system call that neither opens nor closes anything. -/
theorem Res.sys {S T : Nat → Prop} {α : Type} {call : α → List Call} {f : Choice → Kernel → α × Kernel} {w : World}
    (h : Res S T w) (hf : ∀ c k, SameRes k (f c k).2) (hc : ∀ a fd err, Call.close fd err ∉ call a) :
    (Posix.sys call f w).Sat (fun _ w' => Res S T w' ∧ w.choices.length = w'.choices.length + 1) (fun _ => True) := by
  apply Out.Sat.sys
  · intro _; trivial
  · intro c cs hcs
    have hq := h.quiet c (by rw [hcs]; exact List.mem_cons_self) w.k
    have hs := hf c (c.other w.k)
    refine ⟨⟨fun c' hc' => h.quiet c' (by rw [hcs]; exact List.mem_cons_of_mem _ hc'), ?_, ?_, ?_⟩, by rw [hcs]; rfl⟩
    · intro i; exact (hs.1 i).trans ((hq.1 i).trans (h.fds i))
    · intro m; exact (hs.2 m).trans ((hq.2 m).trans (h.maps m))
    · intro fd err hm
      rcases List.mem_append.1 hm with hm | hm
      · exact h.calls fd err hm
      · exact absurd hm (hc _ fd err)

theorem Res.sys' {S T : Nat → Prop} {α : Type} {call : α → List Call} {f : Choice → Kernel → α × Kernel} {w : World}
    (h : Res S T w) (hf : ∀ c k, SameRes k (f c k).2) (hc : ∀ a fd err, Call.close fd err ∉ call a) :
    (Posix.sys call f w).Sat (fun _ w' => Res S T w') (fun _ => True) :=
  (h.sys hf hc).mono (fun _ _ h => h.1) (fun _ h => h)

theorem quiet_no {α : Type} : ∀ (a : α) fd err, Call.close fd err ∉ quiet a := by
  intro a fd err h; exact nomatch h

theorem sysWrite_res {S T : Nat → Prop} {w : World} (h : Res S T w) (fd : Int) (d : Bytes) :
    (sysWrite fd d w).Sat (fun _ w' => Res S T w' ∧ w.choices.length = w'.choices.length + 1) (fun _ => True) := by
  apply h.sys
  · intro c k
    cases hf : c.fail with
    | some e => exact SameRes.refl k
    | none =>
      simp only []
      unfold kwrite
      split
      · exact SameRes.refl k
      · rename_i o ho
        split
        · split
          · exact SameRes.refl k
          · exact SameRes.set ho _ rfl rfl
        · exact SameRes.refl k
  · intro a fd err; simp

theorem sysSync_res {S T : Nat → Prop} {w : World} (h : Res S T w) (fd : Int) :
    (sysSync fd w).Sat (fun _ w' => Res S T w') (fun _ => True) := by
  apply h.sys'
  · intro c k
    cases hf : c.fail with
    | some e => exact SameRes.refl k
    | none =>
      simp only []
      unfold ksync
      split
      · exact SameRes.refl k
      · split
        · exact SameRes.refl k
        · split
          · exact SameRes.of_eq rfl rfl
          · exact SameRes.of_eq rfl rfl
  · intro a fd err; simp

theorem sysRead_res {S T : Nat → Prop} {w : World} (h : Res S T w) (fd : Int) (n : Nat) :
    (sysRead fd n w).Sat (fun r w' => Res S T w' ∧ w.choices.length = w'.choices.length + 1) (fun _ => True) := by
  apply h.sys
  · intro c k
    cases hf : c.fail with
    | some e => exact SameRes.refl k
    | none =>
      simp only []
      unfold kread
      split
      · exact SameRes.refl k
      · rename_i o ho
        split
        · split
          · exact SameRes.refl k
          · split
            · exact SameRes.refl k
            · exact SameRes.set ho _ rfl rfl
        · exact SameRes.refl k
  · exact quiet_no

theorem sysLseek_res {S T : Nat → Prop} {w : World} (h : Res S T w) (fd off : Int) :
    (sysLseekCur fd off w).Sat (fun _ w' => Res S T w') (fun _ => True) := by
  apply h.sys'
  · intro c k
    cases hf : c.fail with
    | some e => exact SameRes.refl k
    | none =>
      simp only []
      split
      · exact SameRes.refl k
      · rename_i o ho
        split
        · exact SameRes.refl k
        · split
          · exact SameRes.refl k
          · exact SameRes.set ho _ rfl rfl
  · exact quiet_no

theorem SameRes.names {k k' : Kernel} (h1 : k'.fds = k.fds) (h2 : k'.maps = k.maps) : SameRes k k' :=
  SameRes.of_eq h1 h2

theorem sysPread_res {S T : Nat → Prop} {w : World} (h : Res S T w) (fd : Int) (n : Nat) (off : Int) :
    (sysPread fd n off w).Sat (fun _ w' => Res S T w') (fun _ => True) := by
  apply h.sys'
  · intro c k
    repeat' split
    all_goals exact SameRes.refl k
  · exact quiet_no

theorem sysStat_res {S T : Nat → Prop} {w : World} (h : Res S T w) (p : Bytes) :
    (sysStat p w).Sat (fun _ w' => Res S T w') (fun _ => True) := by
  apply h.sys'
  · intro c k
    repeat' split
    all_goals exact SameRes.refl k
  · exact quiet_no

theorem sysAccess_res {S T : Nat → Prop} {w : World} (h : Res S T w) (p : Bytes) :
    (sysAccess p w).Sat (fun _ w' => Res S T w') (fun _ => True) := by
  apply h.sys'
  · intro c k
    repeat' split
    all_goals exact SameRes.refl k
  · exact quiet_no

theorem sysUnlink_res {S T : Nat → Prop} {w : World} (h : Res S T w) (p : Bytes) :
    (sysUnlink p w).Sat (fun _ w' => Res S T w') (fun _ => True) := by
  apply h.sys'
  · intro c k
    repeat' split
    all_goals exact SameRes.of_eq rfl rfl
  · exact quiet_no

theorem sysMkdir_res {S T : Nat → Prop} {w : World} (h : Res S T w) (p : Bytes) :
    (sysMkdir p w).Sat (fun _ w' => Res S T w') (fun _ => True) := by
  apply h.sys'
  · intro c k
    repeat' split
    all_goals exact SameRes.of_eq rfl rfl
  · exact quiet_no

theorem sysRmdir_res {S T : Nat → Prop} {w : World} (h : Res S T w) (p : Bytes) :
    (sysRmdir p w).Sat (fun _ w' => Res S T w') (fun _ => True) := by
  apply h.sys'
  · intro c k
    repeat' split
    all_goals exact SameRes.of_eq rfl rfl
  · exact quiet_no

theorem sysRename_res {S T : Nat → Prop} {w : World} (h : Res S T w) (p q : Bytes) :
    (sysRename p q w).Sat (fun _ w' => Res S T w') (fun _ => True) := by
  apply h.sys'
  · intro c k
    repeat' split
    all_goals exact SameRes.of_eq rfl rfl
  · exact quiet_no

theorem sysOther_res {S T : Nat → Prop} {w : World} (h : Res S T w) :
    (sysOther w).Sat (fun _ w' => Res S T w') (fun _ => True) := by
  apply h.sys'
  · intro c k
    repeat' split
    all_goals exact SameRes.of_eq rfl rfl
  · exact quiet_no

theorem sysReaddir_res {S T : Nat → Prop} {w : World} (h : Res S T w) (l : List Bytes) :
    (sysReaddir l w).Sat (fun _ w' => Res S T w' ∧ w.choices.length = w'.choices.length + 1) (fun _ => True) := by
  apply h.sys
  · intro c k
    repeat' split
    all_goals exact SameRes.of_eq rfl rfl
  · exact quiet_no

/-! ## Opening and closing -/

theorem kopen_res (m : Mode) (p : Bytes) (k : Kernel) :
    (∃ e, (kopen m p k).1 = .error e ∧ SameRes k (kopen m p k).2) ∨
    ∃ i : Nat, (kopen m p k).1 = .ok (i : Int) ∧ ¬ k.isOpen i ∧
      (∀ j, (kopen m p k).2.isOpen j ↔ k.isOpen j ∨ j = i) ∧
      ∀ n, (kopen m p k).2.isMapped n ↔ k.isMapped n := by
  have hput : ∀ (k' : Kernel) (o : Ofd), k'.fds = Kernel.putFd k.fds (Kernel.freeFd k.fds) o → k'.maps = k.maps →
      ¬ k.isOpen (Kernel.freeFd k.fds) ∧ (∀ j, k'.isOpen j ↔ k.isOpen j ∨ j = Kernel.freeFd k.fds) ∧
      ∀ n, k'.isMapped n ↔ k.isMapped n := by
    intro k' o h1 h2
    refine ⟨?_, ?_, ?_⟩
    · rintro ⟨o, h⟩
      rcases freeFd_none k.fds with h' | h' <;> rw [h'] at h <;> exact nomatch h
    · intro j
      unfold Kernel.isOpen
      rw [h1]
      by_cases hj : j = Kernel.freeFd k.fds
      · subst hj; rw [putFd_get_same]; simp
      · rw [putFd_get_other _ _ _ hj]; simp [hj]
    · intro n; unfold Kernel.isMapped; rw [h2]
  unfold kopen
  by_cases h0 : p = []
  · rw [if_pos h0]; exact .inl ⟨_, rfl, SameRes.refl k⟩
  · rw [if_neg h0]
    simp only []
    cases hl : k.lookup p with
    | none =>
      simp only []
      cases hm : m.creat with
      | true =>
        simp only [if_true]
        exact .inr ⟨_, rfl, hput _ _ rfl rfl⟩
      | false =>
        simp only [Bool.false_eq_true, if_false]
        exact .inl ⟨_, rfl, SameRes.refl k⟩
    | some i =>
      simp only []
      cases hi : k.inodes[i]? with
      | none => exact .inl ⟨_, rfl, SameRes.refl k⟩
      | some n =>
        simp only []
        by_cases hd : n.dir = true ∧ m ≠ .rdonly
        · rw [if_pos hd]; exact .inl ⟨_, rfl, SameRes.refl k⟩
        · rw [if_neg hd]
          right
          refine ⟨_, rfl, ?_⟩
          by_cases hm : m = .trunc
          · simp only [hm, if_true]; exact hput _ _ rfl rfl
          · simp only [hm, if_false]; exact hput _ _ rfl rfl

theorem sysOpen_res {S T : Nat → Prop} {w : World} (h : Res S T w) (m : Mode) (p : Bytes) :
    (sysOpen m p w).Sat (fun r w' => (∃ e, r = .error e ∧ Res S T w') ∨
      ∃ i : Nat, r = .ok (i : Int) ∧ ¬ S i ∧ Res (fun j => S j ∨ j = i) T w') (fun _ => True) := by
  apply Out.Sat.sys
  · intro _; trivial
  · intro c cs hcs
    have hq := h.quiet c (by rw [hcs]; exact List.mem_cons_self) w.k
    have hqs : ∀ c ∈ cs, KeepsFds c := fun c' hc' => h.quiet c' (by rw [hcs]; exact List.mem_cons_of_mem _ hc')
    have hcalls : ∀ (r : Except Errno Int) fd err, Call.close fd err ∈ w.calls ++ [Call.open p (val r)] → 0 ≤ fd →
        err ≠ some EBADF := by
      intro r fd err hm
      rcases List.mem_append.1 hm with hm | hm
      · exact h.calls fd err hm
      · simp at hm
    cases hf : c.fail with
    | some e =>
      left
      exact ⟨e, rfl, hqs, fun i => (hq.1 i).trans (h.fds i), fun m => (hq.2 m).trans (h.maps m), hcalls _⟩
    | none =>
      simp only []
      rcases kopen_res m (cstr p) (c.other w.k) with ⟨e, h1, h2⟩ | ⟨i, h1, h2, h3, h4⟩
      · left
        exact ⟨e, h1, hqs, fun i => (h2.1 i).trans ((hq.1 i).trans (h.fds i)),
          fun m => (h2.2 m).trans ((hq.2 m).trans (h.maps m)), hcalls _⟩
      · right
        refine ⟨i, h1, ?_, hqs, ?_, fun m => (h4 m).trans ((hq.2 m).trans (h.maps m)), hcalls _⟩
        · intro hs; exact h2 ((hq.1 i).2 ((h.fds i).2 hs))
        · intro j; rw [h3 j, hq.1 j, h.fds j]

theorem sysClose_res {S T : Nat → Prop} {w : World} (h : Res S T w) (i : Nat) (hi : S i) :
    (sysClose (i : Int) w).Sat (fun _ w' => Res (fun j => S j ∧ j ≠ i) T w') (fun _ => True) := by
  apply Out.Sat.sys
  · intro _; trivial
  · intro c cs hcs
    have hq := h.quiet c (by rw [hcs]; exact List.mem_cons_self) w.k
    have hqs : ∀ c ∈ cs, KeepsFds c := fun c' hc' => h.quiet c' (by rw [hcs]; exact List.mem_cons_of_mem _ hc')
    have hop : (c.other w.k).isOpen i := (hq.1 i).2 ((h.fds i).2 hi)
    obtain ⟨o, ho⟩ := (isOpen_iff_ofd _ _).1 hop
    simp only [ho, Int.toNat_natCast]
    have hk : ∀ (k' : Kernel), k'.fds = (c.other w.k).fds.set i none → k'.maps = (c.other w.k).maps →
        (∀ j, k'.isOpen j ↔ S j ∧ j ≠ i) ∧ ∀ m, k'.isMapped m ↔ T m := by
      intro k' h1 h2
      refine ⟨fun j => ?_, fun m => ?_⟩
      · rw [← h.fds j, ← hq.1 j]
        unfold Kernel.isOpen
        rw [h1]
        by_cases hj : i = j
        · subst hj
          have hlt : i < (c.other w.k).fds.length := by
            obtain ⟨o, ho⟩ := hop
            rcases Nat.lt_or_ge i (c.other w.k).fds.length with h | h
            · exact h
            · rw [List.getElem?_eq_none h] at ho; exact nomatch ho
          rw [List.getElem?_set_self hlt]; simp
        · rw [List.getElem?_set_ne hj]; simp [Ne.symm hj]
      · rw [← h.maps m, ← hq.2 m]; unfold Kernel.isMapped; rw [h2]
    have hcalls : ∀ (r : Except Errno Unit), errOf r ≠ some EBADF → ∀ fd err,
        Call.close fd err ∈ w.calls ++ [Call.close (i : Int) (errOf r)] → 0 ≤ fd → err ≠ some EBADF := by
      intro r hr fd err hm h0
      rcases List.mem_append.1 hm with hm | hm
      · exact h.calls fd err hm h0
      · simp only [List.mem_singleton, Call.close.injEq] at hm
        rw [hm.2]; exact hr
    cases hf : c.fail with
    | none =>
      simp only []
      exact ⟨hqs, (hk { c.other w.k with fds := (c.other w.k).fds.set i none } rfl rfl).1,
        (hk { c.other w.k with fds := (c.other w.k).fds.set i none } rfl rfl).2, hcalls _ (by simp [errOf])⟩
    | some e =>
      simp only []
      refine ⟨hqs, (hk { c.other w.k with fds := (c.other w.k).fds.set i none } rfl rfl).1,
        (hk { c.other w.k with fds := (c.other w.k).fds.set i none } rfl rfl).2, hcalls _ ?_⟩
      simp only [errOf]
      split
      · simp [EIO, EBADF]
      · simpa using ‹_›

/-- `close(-1)` does nothing. -/
theorem sysClose_neg_res {S T : Nat → Prop} {w : World} (h : Res S T w) :
    (sysClose (-1) w).Sat (fun _ w' => Res S T w') (fun _ => True) := by
  apply Out.Sat.sys
  · intro _; trivial
  · intro c cs hcs
    have hq := h.quiet c (by rw [hcs]; exact List.mem_cons_self) w.k
    have hqs : ∀ c ∈ cs, KeepsFds c := fun c' hc' => h.quiet c' (by rw [hcs]; exact List.mem_cons_of_mem _ hc')
    simp only [ofd_neg]
    refine ⟨hqs, fun i => (hq.1 i).trans (h.fds i), fun m => (hq.2 m).trans (h.maps m), ?_⟩
    intro fd err hm h0
    rcases List.mem_append.1 hm with hm | hm
    · exact h.calls fd err hm h0
    · simp only [List.mem_singleton, Call.close.injEq] at hm
      omega

theorem sysMmap_res {S T : Nat → Prop} {w : World} (h : Res S T w) (fd : Int) (len : Nat) :
    (sysMmap fd len w).Sat (fun r w' => (∃ e, r = .error e ∧ Res S T w') ∨
      ∃ i, r = .ok i ∧ ¬ T i ∧ Res S (fun j => T j ∨ j = i) w') (fun _ => True) := by
  apply Out.Sat.sys
  · intro _; trivial
  · intro c cs hcs
    have hq := h.quiet c (by rw [hcs]; exact List.mem_cons_self) w.k
    have hqs : ∀ c ∈ cs, KeepsFds c := fun c' hc' => h.quiet c' (by rw [hcs]; exact List.mem_cons_of_mem _ hc')
    have hbase : Res S T ⟨c.other w.k, cs, w.calls ++ []⟩ :=
      ⟨hqs, fun i => (hq.1 i).trans (h.fds i), fun m => (hq.2 m).trans (h.maps m), by
        rw [List.append_nil]; exact h.calls⟩
    cases hf : c.fail with
    | some e => exact .inl ⟨e, rfl, hbase⟩
    | none =>
      simp only []
      by_cases hl : len = 0
      · rw [if_pos hl]; exact .inl ⟨_, rfl, hbase⟩
      · rw [if_neg hl]
        cases hi : (c.other w.k).inodeOf fd with
        | none => exact .inl ⟨_, rfl, hbase⟩
        | some i =>
          simp only []
          right
          refine ⟨_, rfl, ?_, hqs, hbase.fds, ?_, hbase.calls⟩
          · rw [← hbase.maps]
            rintro ⟨x, hx⟩
            simp at hx
          · intro j
            rw [← hbase.maps j]
            unfold Kernel.isMapped
            simp only []
            rcases Nat.lt_trichotomy j (c.other w.k).maps.length with hj | hj | hj
            · rw [List.getElem?_append_left hj]
              constructor
              · intro h; exact .inl h
              · rintro (h | h)
                · exact h
                · omega
            · subst hj; simp
            · rw [List.getElem?_eq_none (by simp; omega), List.getElem?_eq_none (by omega)]
              constructor
              · rintro ⟨x, h⟩; exact nomatch h
              · rintro (⟨x, h⟩ | h)
                · exact nomatch h
                · omega

theorem sysMunmap_res {S T : Nat → Prop} {w : World} (h : Res S T w) (i : Nat) (hi : T i) :
    (sysMunmap i w).Sat (fun _ w' => Res S (fun j => T j ∧ j ≠ i) w') (fun _ => True) := by
  apply Out.Sat.sys
  · intro _; trivial
  · intro c cs hcs
    have hq := h.quiet c (by rw [hcs]; exact List.mem_cons_self) w.k
    have hqs : ∀ c ∈ cs, KeepsFds c := fun c' hc' => h.quiet c' (by rw [hcs]; exact List.mem_cons_of_mem _ hc')
    have hbase : Res S T ⟨c.other w.k, cs, w.calls ++ []⟩ :=
      ⟨hqs, fun i => (hq.1 i).trans (h.fds i), fun m => (hq.2 m).trans (h.maps m), by
        rw [List.append_nil]; exact h.calls⟩
    obtain ⟨x, hx⟩ := (hbase.maps i).2 hi
    simp only at hx
    simp only [hx, Option.join_some]
    have hlt : i < (c.other w.k).maps.length := by
      rcases Nat.lt_or_ge i (c.other w.k).maps.length with h | h
      · exact h
      · rw [List.getElem?_eq_none h] at hx; exact nomatch hx
    refine ⟨hqs, hbase.fds, ?_, hbase.calls⟩
    intro j
    rw [← hbase.maps j]
    unfold Kernel.isMapped
    simp only []
    by_cases hj : i = j
    · subst hj; rw [List.getElem?_set_self hlt]; simp
    · rw [List.getElem?_set_ne hj]; simp [Ne.symm hj]

end Posix
end Lsmdb
