import Verif.Proof.PosixRes

/-! # PosixEnv: what the file operations do to descriptors and mappings -/

namespace Lsmdb
namespace Posix

open MemEnv (St lit)

variable (strerror : Strerror) (full : Bool)

theorem true_mono {α : Type} {o : Out α} {Q Q' : α → World → Prop} (h : o.Sat Q (fun _ => True))
    (hq : ∀ a w, Q a w → Q' a w) : o.Sat Q' (fun _ => True) := h.mono hq (fun _ h => h)

/-! ## Writable files -/

theorem writeLoop_res {S T : Nat → Prop} (fd : Int) (name : Bytes) : ∀ (fuel : Nat) (data : Bytes) (w : World),
    w.choices.length < fuel → Res S T w →
    (writeLoop strerror fd name fuel data w).Sat (fun _ w' => Res S T w') (fun _ => True) := by
  intro fuel
  induction fuel with
  | zero => intro _ _ h; omega
  | succ fuel ih =>
    intro data w hfuel h
    unfold writeLoop
    by_cases hd : data.length > 0
    · rw [if_pos hd]
      apply Out.Sat.bind
      apply true_mono (sysWrite_res h fd data)
      rintro r w1 ⟨h1, h2⟩
      cases r with
      | error e =>
        simp only []
        by_cases he : e = EINTR
        · rw [if_pos he]; exact ih _ _ (by omega) h1
        · rw [if_neg he]; exact h1
      | ok n => exact ih _ _ (by omega) h1
    · rw [if_neg hd]; exact h

theorem WriteUnbuffered_res {S T : Nat → Prop} {w : World} (h : Res S T w) (f : WFile) (data : Bytes) :
    (f.WriteUnbuffered strerror data w).Sat (fun _ w' => Res S T w') (fun _ => True) :=
  writeLoop_res strerror _ _ _ _ _ (by omega) h

theorem FlushBuffer_res {S T : Nat → Prop} {w : World} (h : Res S T w) {f : WFile} {b : Bytes} (hb : BufHas f b) :
    (f.FlushBuffer strerror w).Sat (fun r w' => Res S T w' ∧ r.2 = { f with pos := 0 }) (fun _ => True) := by
  unfold WFile.FlushBuffer
  apply Out.Sat.bind
  apply Out.Sat.pureM hb.load
  apply Out.Sat.bind
  apply true_mono (WriteUnbuffered_res strerror h f b)
  intro st w1 h1
  exact ⟨h1, rfl⟩

theorem Append_res {S T : Nat → Prop} {w : World} (h : Res S T w) {f : WFile} {b : Bytes} (hb : BufHas f b)
    (d : Slice) (hd : d.WF) :
    (f.Append strerror d w).Sat (fun r w' => Res S T w' ∧ r.2.fd = f.fd ∧ ∃ b', BufHas r.2 b') (fun _ => True) := by
  unfold WFile.Append
  apply Out.Sat.bind
  apply Out.Sat.pureM (toString_ok hd)
  have hl : d.bytes.length = d.len := bytes_len hd
  generalize hc : min d.len (kWritableFileBufferSize - f.pos) = copy
  have hle := hb.le
  have hst : f.pos + (d.bytes.take copy).length ≤ kWritableFileBufferSize := by
    simp; omega
  have hcl : (d.bytes.take copy).length = copy := by simp; omega
  apply Out.Sat.bind
  apply Out.Sat.pureM (store_ok hst)
  simp only []
  have hb1 := hb.append hst
  rw [hcl] at hb1
  rw [hcl]
  generalize hf1 : ({ f with
      buf := fun i => if f.pos ≤ i ∧ i < f.pos + copy then (List.take copy d.bytes)[i - f.pos]? else f.buf i
      pos := f.pos + copy } : WFile) = f1 at hb1 ⊢
  have hs1 : f1.fd = f.fd := by subst hf1; rfl
  by_cases hz : d.len - copy = 0
  · simp only [hz, if_true]
    exact ⟨h, hs1, _, hb1⟩
  · simp only [hz, if_false]
    apply Out.Sat.bind
    apply true_mono (FlushBuffer_res strerror h hb1)
    rintro ⟨st, f2⟩ w1 ⟨e3, e5⟩
    simp only at e5 ⊢
    have hs2 : f2.fd = f.fd := by rw [e5]; exact hs1
    have hb2 : BufHas f2 [] := by rw [e5]; exact BufHas.zero f1
    by_cases hst : st = .ok
    · simp only [hst, ne_eq, not_true_eq_false, if_false]
      have hdl : (d.bytes.drop copy).length = d.len - copy := by simp [hl]
      by_cases hsm : d.len - copy < kWritableFileBufferSize
      · simp only [hsm, if_true]
        apply Out.Sat.bind
        apply Out.Sat.pureM (store_ok (by omega))
        have hb3 := BufHas.fresh f2 (d.bytes.drop copy) (by omega)
        rw [hdl] at hb3
        rw [hdl]
        exact ⟨e3, hs2, _, hb3⟩
      · simp only [hsm, if_false]
        apply Out.Sat.bind
        apply true_mono (WriteUnbuffered_res strerror e3 f2 (d.bytes.drop copy))
        intro st w2 h2
        exact ⟨h2, hs2, _, hb2⟩
    · simp only [ne_eq, hst, not_false_eq_true, if_true]
      exact ⟨e3, hs2, _, hb2⟩

theorem SyncFd_res {S T : Nat → Prop} {w : World} (h : Res S T w) (fd : Int) (p : Bytes) :
    (SyncFd strerror full fd p w).Sat (fun _ w' => Res S T w') (fun _ => True) := by
  unfold SyncFd
  cases full
  · simp only [Bool.false_eq_true, if_false]
    apply Out.Sat.bind
    apply Out.Sat.pure
    simp only []
    apply Out.Sat.bind
    apply true_mono (sysSync_res h fd)
    intro r w1 h1
    cases r <;> exact h1
  · simp only [if_true]
    apply Out.Sat.bind
    apply true_mono (sysSync_res h fd)
    intro r w1 h1
    cases r with
    | ok _ => exact h1
    | error e =>
      simp only []
      apply Out.Sat.bind
      apply true_mono (sysSync_res h1 fd)
      intro r w1 h1
      cases r <;> exact h1

theorem SyncDir_res {S T : Nat → Prop} {w : World} (h : Res S T w) (f : WFile) :
    (f.SyncDirIfManifest strerror full w).Sat (fun _ w' => Res S T w') (fun _ => True) := by
  unfold WFile.SyncDirIfManifest
  cases f.is_manifest
  · simp only [Bool.false_eq_true, if_false]; exact h
  · simp only [if_true]
    apply Out.Sat.bind
    apply true_mono (sysOpen_res h .rdonly f.dirname)
    rintro r w1 (⟨e, rfl, h1⟩ | ⟨i, rfl, hi, h1⟩)
    · exact h1
    · simp only []
      apply Out.Sat.bind
      apply true_mono (SyncFd_res strerror full h1 (i : Int) f.dirname)
      intro st w2 h2
      apply Out.Sat.bind
      apply true_mono (sysClose_res h2 i (.inr rfl))
      intro r w3 h3
      refine h3.congr ?_ (fun _ => Iff.rfl)
      intro j
      constructor
      · rintro ⟨h | h, hne⟩
        · exact h
        · exact absurd h hne
      · intro h; exact ⟨.inl h, fun e => hi (e ▸ h)⟩

theorem Sync_res {S T : Nat → Prop} {w : World} (h : Res S T w) {f : WFile} {b : Bytes} (hb : BufHas f b) :
    (f.Sync strerror full w).Sat (fun r w' => Res S T w' ∧ r.2.fd = f.fd ∧ ∃ b', BufHas r.2 b') (fun _ => True) := by
  unfold WFile.Sync
  apply Out.Sat.bind
  apply true_mono (SyncDir_res strerror full h f)
  intro st w1 h1
  by_cases hst : st = .ok
  · simp only [hst, ne_eq, not_true_eq_false, if_false]
    apply Out.Sat.bind
    apply true_mono (FlushBuffer_res strerror h1 hb)
    rintro ⟨st, f2⟩ w2 ⟨h2, e⟩
    simp only at e ⊢
    subst e
    by_cases hst : st = .ok
    · simp only [hst, ne_eq, not_true_eq_false, if_false]
      apply Out.Sat.bind
      apply true_mono (SyncFd_res strerror full h2 f.fd f.filename)
      intro st w3 h3
      exact ⟨h3, rfl, _, BufHas.zero f⟩
    · simp only [ne_eq, hst, not_false_eq_true, if_true]
      exact ⟨h2, rfl, _, BufHas.zero f⟩
  · simp only [ne_eq, hst, not_false_eq_true, if_true]
    exact ⟨h1, rfl, _, hb⟩

/-- `Close`: the descriptor is gone. -/
theorem Close_res {S T : Nat → Prop} {w : World} (h : Res S T w) {f : WFile} {b : Bytes} (hb : BufHas f b)
    (hf : f.fd = -1 ∨ ∃ i : Nat, f.fd = i ∧ S i) :
    (f.Close strerror w).Sat (fun r w' => Res (fun j => S j ∧ f.fd ≠ j) T w' ∧ r.2.fd = -1 ∧ ∃ b', BufHas r.2 b')
      (fun _ => True) := by
  unfold WFile.Close
  apply Out.Sat.bind
  apply true_mono (FlushBuffer_res strerror h hb)
  rintro ⟨st, f2⟩ w2 ⟨h2, e⟩
  simp only at e ⊢
  subst e
  simp only []
  have hbz : BufHas { f with pos := 0, fd := -1 } [] := ⟨rfl, Nat.zero_le _, fun i hi => absurd hi (by simp)⟩
  apply Out.Sat.bind
  rcases hf with hf | ⟨i, hf, hi⟩
  · rw [hf]
    apply true_mono (sysClose_neg_res h2)
    intro r w3 h3
    have h3' : Res (fun j => S j ∧ (-1 : Int) ≠ j) T w3 :=
      h3.congr (fun j => ⟨fun h => ⟨h, by omega⟩, fun h => h.1⟩) (fun _ => Iff.rfl)
    cases r
    · exact ⟨h3', rfl, _, hbz⟩
    · exact ⟨h3', rfl, _, hbz⟩
  · rw [hf]
    apply true_mono (sysClose_res h2 i hi)
    intro r w3 h3
    have h3' : Res (fun j => S j ∧ (i : Int) ≠ j) T w3 :=
      h3.congr (fun j => ⟨fun h => ⟨h.1, by have := h.2; omega⟩, fun h => ⟨h.1, by have := h.2; omega⟩⟩)
        (fun _ => Iff.rfl)
    cases r
    · exact ⟨h3', rfl, _, hbz⟩
    · exact ⟨h3', rfl, _, hbz⟩

theorem wdestroy_res {S T : Nat → Prop} {w : World} (h : Res S T w) {f : WFile} {b : Bytes} (hb : BufHas f b)
    (hf : f.fd = -1 ∨ ∃ i : Nat, f.fd = i ∧ S i) :
    (f.destroy strerror w).Sat (fun _ w' => Res (fun j => S j ∧ f.fd ≠ j) T w') (fun _ => True) := by
  unfold WFile.destroy
  by_cases h0 : f.fd ≥ 0
  · rw [if_pos h0]
    apply Out.Sat.bind
    apply true_mono (Close_res strerror h hb hf)
    rintro r w1 ⟨h1, _⟩
    exact h1
  · rw [if_neg h0]
    exact h.congr (fun j => ⟨fun h => ⟨h, by omega⟩, fun h => h.1⟩) (fun _ => Iff.rfl)

/-! ## Readable files -/

theorem kread_len {fd : Int} {n count : Nat} {k : Kernel} {d : Bytes} (h : (kread fd n count k).1 = .ok d) :
    d.length ≤ n := by
  unfold kread at h
  repeat' split at h
  all_goals first
    | (cases h; done)
    | (injection h with h; rw [← h]; simp; omega)

theorem sysRead_len (fd : Int) (n : Nat) (w : World) :
    (sysRead fd n w).Sat (fun r _ => ∀ d, r = .ok d → d.length ≤ n) (fun _ => True) := by
  apply Out.Sat.sys
  · intro _; trivial
  · intro c cs _ d h
    cases hf : c.fail with
    | some e => rw [hf] at h; exact nomatch h
    | none => rw [hf] at h; exact kread_len h

theorem sysPread_len (fd : Int) (n : Nat) (off : Int) (w : World) :
    (sysPread fd n off w).Sat (fun r _ => ∀ d, r = .ok d → d.length ≤ n) (fun _ => True) := by
  apply Out.Sat.sys
  · intro _; trivial
  · intro c cs _ d h
    repeat' split at h
    all_goals first
      | (cases h; done)
      | (injection h with h; rw [← h]; simp; omega)

theorem seqReadLoop_res {S T : Nat → Prop} (f : SeqFile) (n cap : Nat) (hn : n ≤ cap) : ∀ (fuel : Nat) (w : World),
    w.choices.length < fuel → Res S T w →
    (seqReadLoop strerror f n cap fuel w).Sat (fun _ w' => Res S T w') (fun _ => True) := by
  intro fuel
  induction fuel with
  | zero => intro _ h; omega
  | succ fuel ih =>
    intro w hfuel h
    unfold seqReadLoop
    apply Out.Sat.bind
    apply true_mono (((sysRead_res h f.fd n).and (sysRead_len f.fd n w)).mono (fun _ _ h => h) (fun _ _ => trivial))
    rintro r w1 ⟨⟨h1, h2⟩, h3⟩
    cases r with
    | error e =>
      simp only []
      by_cases he : e = EINTR
      · rw [if_pos he]; exact ih _ (by omega) h1
      · rw [if_neg he]; exact h1
    | ok d =>
      simp only []
      rw [if_pos (Nat.le_trans (h3 d rfl) hn)]
      exact h1

theorem SeqRead_res {S T : Nat → Prop} {w : World} (h : Res S T w) (f : SeqFile) (n cap : Nat) (hn : n ≤ cap) :
    (f.Read strerror n cap w).Sat (fun _ w' => Res S T w') (fun _ => True) :=
  seqReadLoop_res strerror f n cap hn _ _ (by omega) h

theorem SeqSkip_res {S T : Nat → Prop} {w : World} (h : Res S T w) (f : SeqFile) (n : Nat) :
    (f.Skip strerror n w).Sat (fun _ w' => Res S T w') (fun _ => True) := by
  unfold SeqFile.Skip
  apply Out.Sat.bind
  apply true_mono (sysLseek_res h f.fd (toOff n))
  intro r w1 h1
  cases r <;> exact h1

/-- A `PosixRandomAccessFile` in a possible state. -/
def RandOk (S : Nat → Prop) (f : RandFile) : Prop :=
  if f.has_permanent_fd then ∃ i : Nat, f.fd = i ∧ S i else f.fd = -1

theorem add_remove {S : Nat → Prop} {i : Nat} (hi : ¬ S i) (j : Nat) : ((S j ∨ j = i) ∧ j ≠ i) ↔ S j := by
  constructor
  · rintro ⟨h | h, hne⟩
    · exact h
    · exact absurd h hne
  · intro h; exact ⟨.inl h, fun e => hi (e ▸ h)⟩

theorem RandRead_res {S T : Nat → Prop} {w : World} (h : Res S T w) {f : RandFile} (hf : RandOk S f)
    (offset n cap : Nat) (hn : n ≤ cap) :
    (f.Read strerror offset n cap w).Sat (fun _ w' => Res S T w') (fun _ => True) := by
  unfold RandFile.Read
  have hread : ∀ {S' : Nat → Prop} {w1 : World} (fd : Int), Res S' T w1 →
      (sysPread fd n (toOff offset) w1).Sat (fun r w' => Res S' T w' ∧ ∀ d, r = .ok d → d.length ≤ n)
        (fun _ => True) := fun fd h1 =>
    ((sysPread_res h1 fd n (toOff offset)).and (sysPread_len fd n (toOff offset) _)).mono (fun _ _ h => h)
      (fun _ _ => trivial)
  unfold RandOk at hf
  cases hp : f.has_permanent_fd
  · rw [hp] at hf
    simp only [Bool.false_eq_true, if_false] at hf ⊢
    apply Out.Sat.bind
    apply true_mono (sysOpen_res h .rdonly f.filename)
    rintro r w1 (⟨e, rfl, h1⟩ | ⟨i, rfl, hi, h1⟩)
    · exact h1
    · simp only []
      apply Out.Sat.bind
      apply Out.Sat.pureM (a := ()) (by unfold cassert; rw [if_pos]; simp)
      apply Out.Sat.bind
      apply true_mono (hread (i : Int) h1)
      rintro r w2 ⟨h2, hd⟩
      have hclose : ∀ (res : St × Option Bytes), ((do
          pureM (cassert (decide ((i : Int) ≠ f.fd)))
          let _ ← sysClose (i : Int)
          return res : P (St × Option Bytes)) w2).Sat (fun _ w' => Res S T w') (fun _ => True) := by
        intro res
        apply Out.Sat.bind
        apply Out.Sat.pureM (a := ()) (by unfold cassert; rw [if_pos]; rw [hf]; simp)
        apply Out.Sat.bind
        apply true_mono (sysClose_res h2 i (.inr rfl))
        intro r w3 h3
        exact h3.congr (add_remove hi) (fun _ => Iff.rfl)
      cases r with
      | error e =>
        simp only []
        apply Out.Sat.bind
        apply Out.Sat.pure
        exact hclose _
      | ok d =>
        simp only []
        rw [if_pos (Nat.le_trans (hd d rfl) hn)]
        apply Out.Sat.bind
        apply Out.Sat.pure
        exact hclose _
  · rw [hp] at hf
    simp only [if_true] at hf ⊢
    obtain ⟨i, hfi, hi⟩ := hf
    apply Out.Sat.bind
    apply Out.Sat.pure
    simp only []
    rw [hfi]
    apply Out.Sat.bind
    apply Out.Sat.pureM (a := ()) (by unfold cassert; rw [if_pos]; simp)
    apply Out.Sat.bind
    apply true_mono (hread (i : Int) h)
    rintro r w2 ⟨h2, hd⟩
    cases r with
    | error e =>
      simp only []
      apply Out.Sat.bind
      apply Out.Sat.pure
      exact h2
    | ok d =>
      simp only []
      rw [if_pos (Nat.le_trans (hd d rfl) hn)]
      apply Out.Sat.bind
      apply Out.Sat.pure
      exact h2

/-! ## Directories -/

theorem readdirLoop_res {S T : Nat → Prop} : ∀ (fuel : Nat) (rest l : List Bytes) (w : World),
    w.choices.length < fuel → Res S T w →
    (readdirLoop fuel rest l w).Sat (fun _ w' => Res S T w') (fun _ => True) := by
  intro fuel
  induction fuel with
  | zero => intro _ _ _ h; omega
  | succ fuel ih =>
    intro rest l w hfuel h
    unfold readdirLoop
    apply Out.Sat.bind
    apply true_mono (sysReaddir_res h rest)
    rintro r w1 ⟨h1, h2⟩
    cases r with
    | none => exact h1
    | some d => exact ih _ _ _ (by omega) h1

theorem sysOpendir_res {S T : Nat → Prop} {w : World} (h : Res S T w) (p : Bytes) :
    (sysOpendir p w).Sat (fun r w' => (∃ e, r = .error e ∧ Res S T w') ∨
      ∃ (i : Nat) (l : List Bytes), r = .ok ((i : Int), l) ∧ ¬ S i ∧ Res (fun j => S j ∨ j = i) T w')
      (fun _ => True) := by
  apply Out.Sat.sys
  · intro _; trivial
  · intro c cs hcs
    have hq := h.quiet c (by rw [hcs]; exact List.mem_cons_self) w.k
    have hqs : ∀ c ∈ cs, KeepsFds c := fun c' hc' => h.quiet c' (by rw [hcs]; exact List.mem_cons_of_mem _ hc')
    have hcalls : ∀ (r : Except Errno (Int × List Bytes)) fd err,
        Call.close fd err ∈ w.calls ++ [Call.open p ((val r).map (·.1))] → 0 ≤ fd → err ≠ some EBADF := by
      intro r fd err hm
      rcases List.mem_append.1 hm with hm | hm
      · exact h.calls fd err hm
      · simp at hm
    have hsame : ∀ e : Errno, Res S T ⟨c.other w.k, cs,
        w.calls ++ [Call.open p ((val (.error e : Except Errno (Int × List Bytes))).map (·.1))]⟩ := fun e =>
      ⟨hqs, fun i => (hq.1 i).trans (h.fds i), fun m => (hq.2 m).trans (h.maps m), hcalls _⟩
    cases hf : c.fail with
    | some e => exact .inl ⟨e, rfl, hsame e⟩
    | none =>
      simp only []
      cases hl : (c.other w.k).lookup (cstr p) with
      | none => exact .inl ⟨_, rfl, hsame _⟩
      | some i =>
        simp only []
        split
        · rcases kopen_res .rdonly (cstr p) (c.other w.k) with ⟨e, h1, h2⟩ | ⟨i, h1, h2, h3, h4⟩
          · left
            simp only [h1]
            exact ⟨e, rfl, hqs, fun i => (h2.1 i).trans ((hq.1 i).trans (h.fds i)),
              fun m => (h2.2 m).trans ((hq.2 m).trans (h.maps m)), hcalls _⟩
          · right
            simp only [h1]
            refine ⟨i, _, rfl, ?_, hqs, ?_, fun m => (h4 m).trans ((hq.2 m).trans (h.maps m)), hcalls _⟩
            · intro hs; exact h2 ((hq.1 i).2 ((h.fds i).2 hs))
            · intro j
              show (kopen .rdonly (cstr p) (c.other w.k)).2.isOpen j ↔ _
              rw [h3 j, hq.1 j, h.fds j]
        · exact .inl ⟨_, rfl, hsame _⟩

theorem GetChildren_res {S T : Nat → Prop} {w : World} (h : Res S T w) (p : Bytes) :
    (GetChildren strerror p w).Sat (fun _ w' => Res S T w') (fun _ => True) := by
  unfold GetChildren
  apply Out.Sat.bind
  apply true_mono (sysOpendir_res h p)
  rintro r w1 (⟨e, rfl, h1⟩ | ⟨i, l, rfl, hi, h1⟩)
  · exact h1
  · simp only []
    apply Out.Sat.bind
    apply true_mono (readdirLoop_res (w1.choices.length + 1) l [] w1 (by omega) h1)
    intro l w2 h2
    apply Out.Sat.bind
    apply true_mono (sysClose_res h2 i (.inr rfl))
    intro r w3 h3
    exact h3.congr (add_remove hi) (fun _ => Iff.rfl)

end Posix
end Lsmdb
