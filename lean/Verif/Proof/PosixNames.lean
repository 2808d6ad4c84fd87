import Verif.Proof.PosixRun2

/-! # PosixWritableFile: Sync makes the name of a manifest durable -/

namespace Lsmdb
namespace Posix

open MemEnv (St lit)

variable (strerror : Strerror) (full : Bool)

/-- The names are `N` and what a crash can undo of them satisfies `Q`. -/
structure NamesAt (N : List (Bytes × Nat)) (Q : Bytes × Option Nat → Prop) (w : World) : Prop where
  quiet : ∀ c ∈ w.choices, QuietNames c
  names : w.k.names = N
  pend : ∀ e ∈ w.k.pend, Q e

theorem NamesAt.other {N : List (Bytes × Nat)} {Q : Bytes × Option Nat → Prop} {w : World} {c : Choice}
    {cs : List Choice} (h : NamesAt N Q w) (hc : w.choices = c :: cs) (l : List Call) :
    NamesAt N Q ⟨c.other w.k, cs, l⟩ := by
  have hq := h.quiet c (by rw [hc]; exact List.mem_cons_self) w.k
  exact ⟨fun c' hc' => h.quiet c' (by rw [hc]; exact List.mem_cons_of_mem _ hc'), hq.1.trans h.names,
    fun e he => h.pend e (by rw [← hq.2.1]; exact he)⟩

theorem NamesAt.frame {N : List (Bytes × Nat)} {Q : Bytes × Option Nat → Prop} {w w' : World}
    (h : NamesAt N Q w) (h1 : w'.choices = w.choices) (h2 : w'.k.names = w.k.names)
    (h3 : ∀ e ∈ w'.k.pend, e ∈ w.k.pend) : NamesAt N Q w' :=
  ⟨by rw [h1]; exact h.quiet, h2.trans h.names, fun e he => h.pend e (h3 e he)⟩

theorem sysWrite_names {N : List (Bytes × Nat)} {Q : Bytes × Option Nat → Prop} {fd : Int} {d : Bytes} {w : World}
    (h : NamesAt N Q w) : (sysWrite fd d w).Sat
      (fun _ w' => NamesAt N Q w' ∧ w.choices.length = w'.choices.length + 1) (fun _ => True) := by
  apply Out.Sat.sys
  · intro _; trivial
  · intro c cs hcs
    have h1 := h.other hcs []
    refine ⟨?_, by rw [hcs]; rfl⟩
    cases hf : c.fail with
    | some e => exact h1.frame rfl rfl (fun e he => he)
    | none =>
      simp only []
      unfold kwrite
      split
      · exact h1.frame rfl rfl (fun e he => he)
      · split
        · split
          · exact h1.frame rfl rfl (fun e he => he)
          · exact h1.frame rfl rfl (fun e he => he)
        · exact h1.frame rfl rfl (fun e he => he)

theorem writeLoop_names (fd : Int) (name : Bytes) {N : List (Bytes × Nat)} {Q : Bytes × Option Nat → Prop} :
    ∀ (fuel : Nat) (data : Bytes) (w : World), w.choices.length < fuel → NamesAt N Q w →
    (writeLoop strerror fd name fuel data w).Sat (fun _ w' => NamesAt N Q w') (fun _ => True) := by
  intro fuel
  induction fuel with
  | zero => intro _ _ h; omega
  | succ fuel ih =>
    intro data w hfuel h
    unfold writeLoop
    by_cases hd : data.length > 0
    · rw [if_pos hd]
      apply Out.Sat.bind
      apply (sysWrite_names h).mono
      · rintro r w1 ⟨h1, h2⟩
        cases r with
        | error e =>
          simp only []
          by_cases he : e = EINTR
          · rw [if_pos he]; exact ih data w1 (by omega) h1
          · rw [if_neg he]; exact h1
        | ok n => exact ih _ w1 (by omega) h1
      · intro _ _; trivial
    · rw [if_neg hd]; exact h

theorem FlushBuffer_names {N : List (Bytes × Nat)} {Q : Bytes × Option Nat → Prop} {f : WFile} {b : Bytes}
    (hb : BufHas f b) {w : World} (h : NamesAt N Q w) :
    (f.FlushBuffer strerror w).Sat (fun _ w' => NamesAt N Q w') (fun _ => True) := by
  unfold WFile.FlushBuffer
  apply Out.Sat.bind
  apply Out.Sat.pureM hb.load
  apply Out.Sat.bind
  apply (writeLoop_names strerror f.fd f.filename _ b w (by omega) h).mono
  · intro st w1 h1; exact h1
  · intro _ _; trivial

theorem sysSync_names {N : List (Bytes × Nat)} {Q : Bytes × Option Nat → Prop} {fd : Int} {w : World}
    (h : NamesAt N Q w) : (sysSync fd w).Sat (fun _ w' => NamesAt N Q w') (fun _ => True) := by
  apply Out.Sat.sys
  · intro _; trivial
  · intro c cs hcs
    have h1 := h.other hcs []
    cases hf : c.fail with
    | some e => exact h1.frame rfl rfl (fun e he => he)
    | none =>
      simp only []
      unfold ksync
      split
      · exact h1.frame rfl rfl (fun e he => he)
      · split
        · exact h1.frame rfl rfl (fun e he => he)
        · split
          · exact h1.frame rfl rfl (fun e he => (List.mem_filter.1 he).1)
          · exact h1.frame rfl rfl (fun e he => he)

theorem SyncFd_names {N : List (Bytes × Nat)} {Q : Bytes × Option Nat → Prop} {fd : Int} {path : Bytes} {w : World}
    (h : NamesAt N Q w) :
    (SyncFd strerror full fd path w).Sat (fun _ w' => NamesAt N Q w') (fun _ => True) := by
  have h2 : ∀ w1, NamesAt N Q w1 →
      ((do match ← sysSync fd with
            | .ok _ => return .ok
            | .error e => return PosixError strerror path e : P St) w1).Sat
        (fun _ w' => NamesAt N Q w') (fun _ => True) := by
    intro w1 h1
    apply Out.Sat.bind
    apply (sysSync_names h1).mono
    · intro r w2 h2
      cases r <;> exact h2
    · intro _ _; trivial
  unfold SyncFd
  cases full with
  | true =>
    simp only [if_true]
    apply Out.Sat.bind
    apply (sysSync_names h).mono
    · intro r w1 h1
      cases r with
      | ok _ => exact h1
      | error e => exact h2 w1 h1
    · intro _ _; trivial
  | false => simp only [Bool.false_eq_true, if_false]; exact h2 w h

/-- Directory `i` is open at `fd`. -/
def DirAt (i : Nat) (fd : Int) (w : World) : Prop :=
  w.k.inodeOf fd = some i ∧ (w.k.inodes[i]?).map (·.dir) = some true

/-- Undoable names outside directory `i`. -/
def Outside (N : List (Bytes × Nat)) (i : Nat) (e : Bytes × Option Nat) : Prop := aFind N (parentDir e.1) ≠ some i

theorem sysSync_dir {N : List (Bytes × Nat)} {i : Nat} {fd : Int} {w : World}
    (h : NamesAt N (fun _ => True) w) (hd : DirAt i fd w) :
    (sysSync fd w).Sat (fun r w' => NamesAt N (fun _ => True) w' ∧ DirAt i fd w' ∧
      (r = .ok () → NamesAt N (Outside N i) w')) (fun _ => True) := by
  apply Out.Sat.sys
  · intro _; trivial
  · intro c cs hcs
    have h1 := h.other hcs []
    have hq := h.quiet c (by rw [hcs]; exact List.mem_cons_self) w.k
    have hino : (c.other w.k).inodeOf fd = some i := by
      rw [← hd.1]; unfold Kernel.inodeOf Kernel.ofd; rw [hq.2.2.1]
    have hdir : ((c.other w.k).inodes[i]?).map (·.dir) = some true := by rw [hq.2.2.2 i]; exact hd.2
    cases hf : c.fail with
    | some e => exact ⟨h1.frame rfl rfl (fun e he => he), ⟨hino, hdir⟩, fun h => (nomatch h)⟩
    | none =>
      simp only []
      have hk : ksync fd (c.other w.k) = (.ok (), { c.other w.k with
          pend := (c.other w.k).pend.filter
            (fun e => decide ((c.other w.k).lookup (parentDir e.1) ≠ some i)) }) := by
        unfold ksync
        rw [hino]
        simp only []
        cases hn : (c.other w.k).inodes[i]? with
        | none => rw [hn] at hdir; exact nomatch hdir
        | some n =>
          rw [hn] at hdir
          simp only [Option.map_some, Option.some.injEq] at hdir
          simp only [hdir, if_true]
      rw [hk]
      refine ⟨h1.frame rfl rfl (fun e he => (List.mem_filter.1 he).1), ⟨hino, hdir⟩, fun _ => ?_⟩
      refine ⟨h1.quiet, h1.names, ?_⟩
      intro e he
      have := (List.mem_filter.1 he).2
      simp only [decide_eq_true_eq] at this
      unfold Outside
      have hn : (c.other w.k).names = N := h1.names
      unfold Kernel.lookup at this
      rw [hn] at this
      exact this

theorem SyncFd_dir {N : List (Bytes × Nat)} {i : Nat} {fd : Int} {path : Bytes} {w : World}
    (h : NamesAt N (fun _ => True) w) (hd : DirAt i fd w) :
    (SyncFd strerror full fd path w).Sat (fun st w' => NamesAt N (fun _ => True) w' ∧
      (st = .ok → NamesAt N (Outside N i) w')) (fun _ => True) := by
  have h2 : ∀ w1, NamesAt N (fun _ => True) w1 → DirAt i fd w1 →
      ((do match ← sysSync fd with
            | .ok _ => return .ok
            | .error e => return PosixError strerror path e : P St) w1).Sat
        (fun st w' => NamesAt N (fun _ => True) w' ∧ (st = .ok → NamesAt N (Outside N i) w')) (fun _ => True) := by
    intro w1 h1 d1
    apply Out.Sat.bind
    apply (sysSync_dir h1 d1).mono
    · rintro r w2 ⟨a1, a2, a3⟩
      cases r with
      | ok _ => exact ⟨a1, fun _ => a3 rfl⟩
      | error e => exact ⟨a1, fun h => absurd h (PosixError_ne_ok _ _ _)⟩
    · intro _ _; trivial
  unfold SyncFd
  cases full with
  | true =>
    simp only [if_true]
    apply Out.Sat.bind
    apply (sysSync_dir h hd).mono
    · rintro r w1 ⟨a1, a2, a3⟩
      cases r with
      | ok _ => exact ⟨a1, fun _ => a3 rfl⟩
      | error e => exact h2 w1 a1 a2
    · intro _ _; trivial
  | false => simp only [Bool.false_eq_true, if_false]; exact h2 w h hd

theorem sysClose_names {N : List (Bytes × Nat)} {Q : Bytes × Option Nat → Prop} {fd : Int} {w : World}
    (h : NamesAt N Q w) : (sysClose fd w).Sat (fun _ w' => NamesAt N Q w') (fun _ => True) := by
  apply Out.Sat.sys
  · intro _; trivial
  · intro c cs hcs
    have h1 := h.other hcs []
    simp only []
    split
    · exact h1.frame rfl rfl (fun e he => he)
    · cases hf : c.fail <;> exact h1.frame rfl rfl (fun e he => he)

theorem sysOpen_names {N : List (Bytes × Nat)} {Q : Bytes × Option Nat → Prop} {path : Bytes} {i : Nat} {w : World}
    (h : NamesAt N Q w) (hl : aFind N (cstr path) = some i)
    (hdir : (w.k.inodes[i]?).map (·.dir) = some true) :
    (sysOpen .rdonly path w).Sat (fun r w' => NamesAt N Q w' ∧ ∀ fd, r = .ok fd → DirAt i fd w') (fun _ => True) := by
  apply Out.Sat.sys
  · intro _; trivial
  · intro c cs hcs
    have h1 := h.other hcs []
    have hq := h.quiet c (by rw [hcs]; exact List.mem_cons_self) w.k
    have hdir' : ((c.other w.k).inodes[i]?).map (·.dir) = some true := by rw [hq.2.2.2 i]; exact hdir
    have hl' : (c.other w.k).lookup (cstr path) = some i := by
      unfold Kernel.lookup
      have hn : (c.other w.k).names = N := h1.names
      rw [hn]; exact hl
    cases hf : c.fail with
    | some e => exact ⟨h1.frame rfl rfl (fun e he => he), fun fd h => (nomatch h)⟩
    | none =>
      simp only []
      unfold kopen
      by_cases h0 : cstr path = []
      · rw [if_pos h0]; exact ⟨h1.frame rfl rfl (fun e he => he), fun fd h => (nomatch h)⟩
      · rw [if_neg h0]
        simp only [hl']
        cases hn : (c.other w.k).inodes[i]? with
        | none => rw [hn] at hdir'; exact nomatch hdir'
        | some n =>
          simp only [ne_eq, not_true_eq_false, and_false, if_false, reduceCtorEq]
          refine ⟨h1.frame rfl rfl (fun e he => he), ?_⟩
          intro fd hfd
          injection hfd with hfd
          subst hfd
          refine ⟨?_, hdir'⟩
          unfold Kernel.inodeOf Kernel.ofd
          rw [if_neg (by omega)]
          simp [putFd_get_same, Mode.ofd]

/-- After a successful Sync of a manifest file, no crash can undo names in its directory. -/
theorem Sync_names {N : List (Bytes × Nat)} {f : WFile} {b : Bytes} {i : Nat} {w : World} (hb : BufHas f b)
    (hm : f.is_manifest = true) (h : NamesAt N (fun _ => True) w) (hl : aFind N (cstr f.dirname) = some i)
    (hdir : (w.k.inodes[i]?).map (·.dir) = some true) :
    (f.Sync strerror full w).Sat (fun r w' => r.1 = .ok → NamesAt N (Outside N i) w') (fun _ => True) := by
  unfold WFile.Sync WFile.SyncDirIfManifest
  simp only [hm, if_true]
  apply Out.Sat.bind
  apply Out.Sat.bind
  apply (sysOpen_names h hl hdir).mono
  · rintro r w1 ⟨a1, a2⟩
    cases r with
    | error e =>
      show Out.Sat ((if PosixError strerror f.dirname e ≠ .ok then _ else _ : P (St × WFile)) w1) _ _
      simp only [ne_eq, PosixError_ne_ok, not_false_eq_true, if_true]
      intro h; exact absurd h (PosixError_ne_ok _ _ _)
    | ok fd =>
      simp only []
      apply Out.Sat.bind
      apply (SyncFd_dir strerror full a1 (a2 fd rfl)).mono
      · rintro st w2 ⟨b1, b2⟩
        apply Out.Sat.bind
        have hcl : (sysClose fd w2).Sat (fun _ w' => st = .ok → NamesAt N (Outside N i) w') (fun _ => True) := by
          by_cases hst : st = .ok
          · exact (sysClose_names (b2 hst)).mono (fun _ _ h _ => h) (fun _ h => h)
          · exact (sysClose_names b1).mono (fun _ _ _ h => absurd h hst) (fun _ h => h)
        apply hcl.mono
        · intro r w3 c1
          show Out.Sat ((if st ≠ .ok then _ else _ : P (St × WFile)) w3) _ _
          by_cases hst : st = .ok
          · subst hst
            simp only [ne_eq, not_true_eq_false, if_false]
            apply Out.Sat.bind
            apply ((FlushBuffer_names strerror hb (c1 rfl)).and (FlushBuffer_trace strerror hb w3)).mono
            · rintro ⟨st, f2⟩ w4 ⟨d1, l, _, _, _, d2⟩
              simp only at d2 ⊢
              by_cases hst : st = .ok
              · subst hst
                simp only [ne_eq, not_true_eq_false, if_false]
                apply Out.Sat.bind
                apply (SyncFd_names strerror full d1).mono
                · intro st w5 e1 _; exact e1
                · intro _ _; trivial
              · simp only [ne_eq, hst, not_false_eq_true, if_true]
                intro h; exact absurd h hst
            · intro _ _; trivial
          · simp only [ne_eq, hst, not_false_eq_true, if_true]
            intro h; exact absurd h hst
        · intro _ _; trivial
      · intro _ _; trivial
  · intro _ _; trivial

end Posix
end Lsmdb
