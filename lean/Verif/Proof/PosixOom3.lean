import Verif.Proof.PosixOom2
import Verif.Proof.PosixHeld
import Verif.Spec.PosixOom

/-! What a call that throws leaves behind: calls on objects, histories. -/

namespace Lsmdb
namespace Posix

open MemEnv (St lit)

variable (strerror : Strerror) (full : Bool) {ext extm : Nat → Prop} {L1 L2 : Int}

/-- Nothing or one descriptor more. -/
def MaybeFd (S T : Nat → Prop) (w : World) : Prop := Res S T w ∨ ∃ i, ¬ S i ∧ Res (fun j => S j ∨ j = i) T w

theorem MaybeFd.accL {e : PEnv} {S T : Nat → Prop} {w : World} (H : EInv ext extm L1 L2 e S T) (h : MaybeFd S T w) :
    AccL ext extm L1 L2 1 0 e w := by
  rcases h with h | ⟨i, hi, h⟩
  · exact (AccL.of ⟨S, T, H, h⟩).mono (Nat.zero_le _)
  · exact H.loseFd hi h

theorem ReadO_res {S T : Nat → Prop} {w : World} (h : Res S T w) (mem : PMem) {f : RandFile} (hf : RandOk S f)
    (offset n cap : Nat) (hn : n ≤ cap) :
    (f.ReadO strerror mem offset n cap w).Sat (fun r w' => r = none → MaybeFd S T w') (fun _ => True) := by
  unfold RandFile.ReadO
  have hread : ∀ {S' : Nat → Prop} {w1 : World} (fd : Int), Res S' T w1 →
      (sysPread fd n (toOff offset) w1).Sat (fun r w' => Res S' T w' ∧ ∀ d, r = .ok d → d.length ≤ n)
        (fun _ => True) := fun fd h1 =>
    ((sysPread_res h1 fd n (toOff offset)).and (sysPread_len fd n (toOff offset) _)).mono (fun _ _ h => h)
      (fun _ _ => trivial)
  unfold RandOk at hf
  cases hp : f.has_permanent_fd
  · rw [hp] at hf
    simp only [Bool.false_eq_true, if_false] at hf ⊢
    apply Out.Sat.bind
    apply true_mono (sysOpen_res h .rdonly f.filename)
    rintro r w1 (⟨e, rfl, h1⟩ | ⟨i, rfl, hi, h1⟩)
    · exact fun _ => .inl h1
    · simp only []
      apply Out.Sat.bind
      apply Out.Sat.pureM (a := ()) (by unfold cassert; rw [if_pos]; simp)
      apply Out.Sat.bind
      apply true_mono (hread (i : Int) h1)
      rintro r w2 ⟨h2, hd⟩
      have hclose : ∀ (res : St × Option Bytes), ((match raise mem res.1 with
          | none => return none
          | some _ => do
            pureM (cassert (decide ((i : Int) ≠ f.fd)))
            let _ ← sysClose (i : Int)
            return some res : P (Option (St × Option Bytes))) w2).Sat (fun r w' => r = none → MaybeFd S T w')
              (fun _ => True) := by
        intro res
        cases raise mem res.1 with
        | none => exact fun _ => .inr ⟨i, hi, h2⟩
        | some t =>
          simp only []
          apply Out.Sat.bind
          apply Out.Sat.pureM (a := ()) (by unfold cassert; rw [if_pos]; rw [hf]; simp)
          apply Out.Sat.bind
          apply true_mono (sysClose_res h2 i (.inr rfl))
          intro r w3 h3 he
          exact nomatch he
      cases r with
      | error e =>
        simp only []
        apply Out.Sat.bind
        apply Out.Sat.pure
        exact hclose _
      | ok d =>
        simp only []
        rw [if_pos (Nat.le_trans (hd d rfl) hn)]
        apply Out.Sat.bind
        apply Out.Sat.pure
        exact hclose (St.ok, some d)
  · rw [hp] at hf
    simp only [if_true] at hf ⊢
    obtain ⟨i, hfi, hi⟩ := hf
    apply Out.Sat.bind
    apply Out.Sat.pure
    simp only []
    rw [hfi]
    apply Out.Sat.bind
    apply Out.Sat.pureM (a := ()) (by unfold cassert; rw [if_pos]; simp)
    apply Out.Sat.bind
    apply true_mono (hread (i : Int) h)
    rintro r w2 ⟨h2, hd⟩
    have hend : ∀ (res : St × Option Bytes), ((match raise mem res.1 with
          | none => return none
          | some _ => return some res : P (Option (St × Option Bytes))) w2).Sat (fun r w' => r = none → MaybeFd S T w')
              (fun _ => True) := by
      intro res
      cases raise mem res.1 with
      | none => exact fun _ => .inl h2
      | some t => exact fun he => nomatch he
    cases r with
    | error e =>
      simp only []
      apply Out.Sat.bind
      apply Out.Sat.pure
      exact hend _
    | ok d =>
      simp only []
      rw [if_pos (Nat.le_trans (hd d rfl) hn)]
      apply Out.Sat.bind
      apply Out.Sat.pure
      exact hend (St.ok, some d)

/-! ## Writable files -/

theorem FlushBufferO_res {S T : Nat → Prop} {w : World} (h : Res S T w) (mem : PMem) {f : WFile} {b : Bytes}
    (hb : BufHas f b) :
    (f.FlushBufferO strerror mem w).Sat (fun r w' => Res S T w' ∧ r.2.fd = f.fd ∧
      (∀ s, r.1 = some s → BufHas r.2 []) ∧ ∃ b', BufHas r.2 b') (fun _ => True) := by
  unfold WFile.FlushBufferO
  apply Out.Sat.bind
  apply Out.Sat.pureM hb.load
  apply Out.Sat.bind
  apply true_mono (WriteUnbuffered_res strerror h f b)
  intro st w1 h1
  cases raise mem st with
  | none => exact ⟨h1, rfl, (fun s hs => nomatch hs), b, hb⟩
  | some t => exact ⟨h1, rfl, fun _ _ => BufHas.zero f, [], BufHas.zero f⟩

theorem AppendO_res {S T : Nat → Prop} {w : World} (h : Res S T w) (mem : PMem) {f : WFile} {b : Bytes} (hb : BufHas f b)
    (d : Slice) (hd : d.WF) :
    (f.AppendO strerror mem d w).Sat (fun r w' => Res S T w' ∧ r.2.fd = f.fd ∧ ∃ b', BufHas r.2 b') (fun _ => True) := by
  unfold WFile.AppendO
  apply Out.Sat.bind
  apply Out.Sat.pureM (toString_ok hd)
  have hl : d.bytes.length = d.len := bytes_len hd
  generalize hc : min d.len (kWritableFileBufferSize - f.pos) = copy
  have hle := hb.le
  have hst : f.pos + (d.bytes.take copy).length ≤ kWritableFileBufferSize := by
    simp; omega
  have hcl : (d.bytes.take copy).length = copy := by simp; omega
  apply Out.Sat.bind
  apply Out.Sat.pureM (store_ok hst)
  simp only []
  have hb1 := hb.append hst
  rw [hcl] at hb1
  rw [hcl]
  generalize hf1 : ({ f with
      buf := fun i => if f.pos ≤ i ∧ i < f.pos + copy then (List.take copy d.bytes)[i - f.pos]? else f.buf i
      pos := f.pos + copy } : WFile) = f1 at hb1 ⊢
  have hs1 : f1.fd = f.fd := by subst hf1; rfl
  by_cases hz : d.len - copy = 0
  · simp only [hz, if_true]
    exact ⟨h, hs1, _, hb1⟩
  · simp only [hz, if_false]
    apply Out.Sat.bind
    apply true_mono (FlushBufferO_res strerror h mem hb1)
    rintro ⟨st, f2⟩ w1 ⟨e3, e4, e5, e6⟩
    simp only at e4 e5 e6 ⊢
    have hs2 : f2.fd = f.fd := by rw [e4]; exact hs1
    cases st with
    | none => exact ⟨e3, hs2, e6⟩
    | some st =>
      simp only []
      have hb2 := e5 st rfl
      by_cases hst : st = .ok
      · simp only [hst, ne_eq, not_true_eq_false, if_false]
        unfold WFile.appendRestO
        have hdl : (d.bytes.drop copy).length = d.len - copy := by simp [hl]
        by_cases hsm : d.len - copy < kWritableFileBufferSize
        · simp only [hsm, if_true]
          apply Out.Sat.bind
          apply Out.Sat.pureM (store_ok (by omega))
          have hb3 := BufHas.fresh f2 (d.bytes.drop copy) (by omega)
          rw [hdl] at hb3
          rw [hdl]
          exact ⟨e3, hs2, _, hb3⟩
        · simp only [hsm, if_false]
          apply Out.Sat.bind
          apply true_mono (WriteUnbuffered_res strerror e3 f2 (d.bytes.drop copy))
          intro st w2 h2
          exact ⟨h2, hs2, _, hb2⟩
      · simp only [ne_eq, hst, not_false_eq_true, if_true]
        exact ⟨e3, hs2, _, hb2⟩

theorem SyncDirO_res {S T : Nat → Prop} {w : World} (h : Res S T w) (mem : PMem) (f : WFile) :
    (f.SyncDirIfManifestO strerror mem full w).Sat
      (fun r w' => (r = none ∧ MaybeFd S T w') ∨ Res S T w') (fun _ => True) := by
  unfold WFile.SyncDirIfManifestO
  cases f.is_manifest
  · simp only [Bool.false_eq_true, if_false]; exact .inr h
  · simp only [if_true]
    apply Out.Sat.bind
    apply true_mono (sysOpen_res h .rdonly f.dirname)
    rintro r w1 (⟨e, rfl, h1⟩ | ⟨i, rfl, hi, h1⟩)
    · exact .inr h1
    · simp only []
      apply Out.Sat.bind
      apply true_mono (SyncFd_res strerror full h1 (i : Int) f.dirname)
      intro st w2 h2
      cases raise mem st with
      | none => exact .inl ⟨rfl, .inr ⟨i, hi, h2⟩⟩
      | some t =>
        simp only []
        apply Out.Sat.bind
        apply true_mono (sysClose_res h2 i (.inr rfl))
        intro r w3 h3
        exact .inr (h3.congr (add_remove hi) (fun _ => Iff.rfl))

theorem SyncO_res {S T : Nat → Prop} {w : World} (h : Res S T w) (mem : PMem) {f : WFile} {b : Bytes} (hb : BufHas f b) :
    (f.SyncO strerror mem full w).Sat (fun r w' => (r.1 = none → MaybeFd S T w') ∧ r.2.fd = f.fd ∧ ∃ b', BufHas r.2 b')
      (fun _ => True) := by
  unfold WFile.SyncO
  apply Out.Sat.bind
  apply true_mono (SyncDirO_res strerror full h mem f)
  rintro st w1 (⟨rfl, h1⟩ | h1)
  · exact ⟨fun _ => h1, rfl, b, hb⟩
  · cases st with
    | none => exact ⟨fun _ => .inl h1, rfl, b, hb⟩
    | some st =>
      simp only []
      by_cases hst : st = .ok
      · simp only [hst, ne_eq, not_true_eq_false, if_false]
        apply Out.Sat.bind
        apply true_mono (FlushBufferO_res strerror h1 mem hb)
        rintro ⟨st, f2⟩ w2 ⟨h2, e, _, e2⟩
        simp only at e e2 ⊢
        cases st with
        | none => exact ⟨fun _ => .inl h2, e, e2⟩
        | some st =>
          simp only []
          by_cases hst : st = .ok
          · simp only [hst, ne_eq, not_true_eq_false, if_false]
            apply Out.Sat.bind
            apply true_mono (SyncFd_res strerror full h2 f2.fd f2.filename)
            intro st w3 h3
            exact ⟨fun _ => .inl h3, e, e2⟩
          · simp only [ne_eq, hst, not_false_eq_true, if_true]
            exact ⟨(fun h => nomatch h), e, e2⟩
      · simp only [ne_eq, hst, not_false_eq_true, if_true]
        exact ⟨(fun h => nomatch h), rfl, b, hb⟩

/-- `Close` with memory for its status does not throw. -/
theorem CloseO_res {S T : Nat → Prop} {w : World} (h : Res S T w) {mem : PMem} (hm : mem.message = true) {f : WFile} {b : Bytes}
    (hb : BufHas f b) (hf : f.fd = -1 ∨ ∃ i : Nat, f.fd = i ∧ S i) :
    (f.CloseO strerror mem w).Sat (fun r _ => r.1 ≠ none) (fun _ => True) := by
  have hr : ∀ s, raise mem s = some s := by
    intro s; cases s with
    | ok => rfl
    | err c a b => unfold raise; simp only [hm, ↓reduceIte]
  unfold WFile.CloseO WFile.FlushBufferO
  simp only [bindA]
  apply Out.Sat.bind
  apply Out.Sat.pureM hb.load
  apply Out.Sat.bind
  apply true_mono (WriteUnbuffered_res strerror h f b)
  intro st w1 h1
  simp only [hr]
  have tail : ∀ (r : Except Errno Unit) (w : World), ((match r with
      | .error e =>
        if st = .ok then
          (pure (some (PosixError strerror f.filename e), { f with pos := 0, fd := -1 }) : P (Option St × WFile))
        else return (some st, { f with pos := 0, fd := -1 })
      | .ok _ => return (some st, { f with pos := 0, fd := -1 }) : P (Option St × WFile)) w).Sat (fun r _ => r.1 ≠ none)
        (fun _ => True) := by
    intro r w
    cases r with
    | ok _ => exact fun h => nomatch h
    | error e =>
      simp only []
      by_cases hst : st = .ok
      · simp only [hst, ↓reduceIte]; exact fun h => nomatch h
      · simp only [if_neg hst]; exact fun h => nomatch h
  rw [pureB]
  simp only []
  apply Out.Sat.bind
  rcases hf with hf | ⟨i, hf, hi⟩
  · rw [hf]
    apply true_mono (sysClose_neg_res h1)
    intro r w3 h3
    exact tail r w3
  · rw [hf]
    apply true_mono (sysClose_res h1 i hi)
    intro r w3 h3
    exact tail r w3

/-! ## One call -/

theorem write_post {E : OEnv} {w : World} (h : Acc ext extm L1 L2 E.env w) (mem : PMem) {hd : Nat} {f : WFile}
    (ho : E.env.has hd (.wr f)) (op : WOp) (hv : ∀ d, op = .append d → d.WF) (hm : op = .close → mem.message = true) :
    (f.stepO strerror mem full op w).Sat (fun r w' => r.1 = none →
      AccL ext extm L1 L2 (if (POp.write hd op).opens then 1 else 0) 0
        { E.env with objs := E.env.objs.set hd (some (.wr r.2)) } w') (fun _ => True) := by
  obtain ⟨S, T, H, hw⟩ := h
  obtain ⟨hfd, b, hb⟩ := H.own.ok hd _ ho
  have same : ∀ (f' : WFile), f'.fd = f.fd → (∃ b', BufHas f' b') →
      EInv ext extm L1 L2 { E.env with objs := E.env.objs.set hd (some (.wr f')) } S T := by
    intro f' h2 h3
    refine ⟨(H.own.upd ho ⟨by rw [h2]; exact hfd, h3⟩ (.inl h2)).congr ?_ (fun _ => Iff.rfl), ?_, ?_⟩
    · intro j; rw [h2]; exact ⟨fun h => h.1, fun h => ⟨h, fun h => h⟩⟩
    · show Slots L1 (cnt Obj.isMmap (E.env.objs.set hd _)) E.env.mmap_limiter
      rw [cnt_upd (o' := .wr f') Obj.isMmap ho rfl]; exact H.mm
    · show Slots L2 (cnt Obj.isPermanent (E.env.objs.set hd _)) E.env.fd_limiter
      rw [cnt_upd (o' := .wr f') Obj.isPermanent ho rfl]; exact H.fd
  cases op with
  | append d =>
    apply true_mono (AppendO_res strerror hw mem hb d (hv d rfl))
    rintro r w1 ⟨h1, h2, h3⟩ _
    exact (AccL.of ⟨S, T, same _ h2 h3, h1⟩).mono (Nat.zero_le _)
  | flush =>
    apply true_mono (FlushBufferO_res strerror hw mem hb)
    rintro r w1 ⟨h1, h2, _, h3⟩ _
    exact (AccL.of ⟨S, T, same _ h2 h3, h1⟩).mono (Nat.zero_le _)
  | sync =>
    apply true_mono (SyncO_res strerror full hw mem hb)
    rintro r w1 ⟨h1, h2, h3⟩ hn
    exact MaybeFd.accL (same _ h2 h3) (h1 hn)
  | close =>
    have hfd' : f.fd = -1 ∨ ∃ i : Nat, f.fd = i ∧ S i := by
      rcases hfd with hfd | ⟨i, hi⟩
      · exact .inl hfd
      · exact .inr ⟨i, hi, (H.own.fds i).2 (.inr ⟨hd, _, ho, hi⟩)⟩
    apply true_mono (CloseO_res strerror hw (hm rfl) hb hfd')
    rintro r w1 h1 hn
    exact absurd hn h1

theorem Out.Sat.of_done {α : Type} {o : Out α} {Q : α → World → Prop} (h1 : ∀ f, o ≠ .fault f)
    (h2 : ∀ a w, o = .done a w → Q a w) : o.Sat Q (fun _ => True) := by
  cases o with
  | done a w => exact h2 a w rfl
  | crash w => trivial
  | fault f => exact h1 f rfl

/-- No undefined behaviour: as without failures of memory. -/
theorem stepO_nofault {E : OEnv} {w : World} (h : Acc ext extm L1 L2 E.env w) (mem : PMem) (op : POp)
    (hh : HandleOk E.env op) (hv : ValidPOps [op]) (f : Fault) : E.step strerror full mem op w ≠ .fault f := by
  intro he
  have h1 := stepO_sim strerror full mem E op w
  have h2 := step_acc strerror full h op hh hv
  rw [he] at h1
  have h1 : E.env.step strerror full op w = .fault f := h1
  rw [h1] at h2
  exact h2

theorem deleteO_answer (mem : PMem) (E : OEnv) (h : Nat) :
    Ret (fun r : OEnv × Ans => r.2 ≠ .threw ∧ r.2 ≠ .hangs) (E.delete strerror mem h) := by
  unfold OEnv.delete
  refine Ret.bind (Q := fun _ => True) (fun _ _ _ _ => trivial) fun o _ => ?_
  have other : Ret (fun r : OEnv × Ans => r.2 ≠ .threw ∧ r.2 ≠ .hangs) (do
      let e ← E.env.delete strerror h
      return ({ E with env := e }, .res .unit) : P (OEnv × Ans)) := by
    refine Ret.bind (Q := fun _ => True) (fun _ _ _ _ => trivial) fun o _ => Ret.pure ?_
    exact ⟨(fun h => nomatch h), (fun h => nomatch h)⟩
  cases o with
  | wr f =>
    refine Ret.bind (Q := fun _ => True) (fun _ _ _ _ => trivial) fun b _ => ?_
    cases b with
    | true => exact Ret.pure ⟨(fun h => nomatch h), (fun h => nomatch h)⟩
    | false => exact Ret.pure ⟨(fun h => nomatch h), (fun h => nomatch h)⟩
  | _ => exact other

theorem stepO_post {E : OEnv} {w : World} (h : Acc ext extm L1 L2 E.env w) (mem : PMem) (op : POp)
    (hh : HandleOk E.env op) (hv : ValidPOps [op]) (hm : ∀ h, op = .write h .close → mem.message = true) :
    (E.step strerror full mem op w).Sat
      (Post ext extm L1 L2 (if op.opens then 1 else 0) (if op.maps then 1 else 0)) (fun _ => True) := by
  have hacc := step_acc strerror full h op hh hv
  have hsim := stepO_sim strerror full mem E op w
  -- calls that lose nothing: the Env and the accounts are as after the call that does not throw
  have plain : ∀ {α : Type} (x : P α) (s : α → St) (g : α → PRes) (nf k : Nat), (∀ S T, Res S T w →
      (x w).Sat (fun _ w' => Res S T w') (fun _ => True)) →
      ((do let a ← x; E.last mem (s a) (g a) : P (OEnv × Ans)) w).Sat (Post ext extm L1 L2 nf k) (fun _ => True) := by
    intro α x s g nf k hx
    obtain ⟨S, T, H, hw⟩ := h
    apply Out.Sat.bind
    apply true_mono (hx S T hw)
    intro a w1 h1
    exact Post.answer ⟨S, T, H, h1⟩
  have st : ∀ (x : P (Except Errno Unit)) (n : Bytes), (∀ S T, Res S T w →
      (x w).Sat (fun _ w' => Res S T w') (fun _ => True)) → ∀ S T, Res S T w →
      ((do return statusOf strerror n (← x) : P St) w).Sat (fun _ w' => Res S T w') (fun _ => True) := by
    intro x n hx S T hw
    apply Out.Sat.bind
    exact true_mono (hx S T hw) (fun _ _ h => h)
  cases op with
  | newSequential n => exact NewSequentialO_post strerror h mem n
  | newRandomAccess n => exact NewRandomO_post strerror h mem n
  | newWritable n => exact newWFileO_post strerror h mem .trunc n
  | newAppendable n => exact newWFileO_post strerror h mem .append n
  | newLogger n => exact NewLoggerO_post strerror h mem n
  | fileExists n =>
    refine Out.Sat.of_done (stepO_nofault strerror full h mem _ hh hv) fun a w' he => ?_
    have : Ret (fun r : OEnv × Ans => ∃ b, r.2 = .res b) (E.step strerror full mem (.fileExists n)) :=
      Ret.bind (Q := fun _ => True) (fun _ _ _ _ => trivial) fun o _ => Ret.pure ⟨_, rfl⟩
    obtain ⟨b, hb⟩ := this w a w' he
    rintro (h | h) <;> rw [hb] at h <;> exact nomatch h
  | getChildren d => exact GetChildrenO_post strerror h mem d
  | removeFile n => exact plain (RemoveFile strerror n) id (fun s => .status s) _ _ (st _ n (fun _ _ hw => sysUnlink_res hw n))
  | createDir n => exact plain (CreateDir strerror n) id (fun s => .status s) _ _ (st _ n (fun _ _ hw => sysMkdir_res hw n))
  | removeDir n => exact plain (RemoveDir strerror n) id (fun s => .status s) _ _ (st _ n (fun _ _ hw => sysRmdir_res hw n))
  | getFileSize n =>
    exact plain (GetFileSize strerror n) (·.1) (fun r => .size r.1 r.2) _ _ (fun _ _ hw => GetFileSize_res strerror hw n)
  | renameFile a b =>
    exact plain (RenameFile strerror a b) id (fun s => .status s) _ _ (st _ a (fun _ _ hw => sysRename_res hw a b))
  | lockFile n => exact LockFileO_post strerror h mem n
  | unlockFile hd =>
    obtain ⟨fd, n, ho⟩ := hh
    exact UnlockFileO_post strerror h mem ho
  | seqRead hd n =>
    obtain ⟨f, ho⟩ := hh
    apply Out.Sat.bind
    apply Out.Sat.pureM (get_has ho)
    exact plain (f.Read strerror n n) (·.1) (fun r => .data r.1 r.2) _ _
      (fun S T hw => SeqRead_res strerror hw f n n (Nat.le_refl n))
  | seqSkip hd n =>
    obtain ⟨f, ho⟩ := hh
    apply Out.Sat.bind
    apply Out.Sat.pureM (get_has ho)
    exact plain (f.Skip strerror n) id (fun r => .status r) _ _ (fun S T hw => SeqSkip_res strerror hw f n)
  | randRead hd off n =>
    rcases hh with ⟨f, ho⟩ | ⟨f, ho⟩
    · apply Out.Sat.bind
      apply Out.Sat.pureM (get_has ho)
      obtain ⟨S, T, H, hw⟩ := h
      have hok : RandOk S f := by
        have hok := H.own.ok hd _ ho
        simp only [ObjOk] at hok
        unfold RandOk
        cases hp : f.has_permanent_fd
        · rw [hp] at hok; exact hok
        · rw [hp] at hok
          obtain ⟨i, hi⟩ := hok
          exact ⟨i, hi, (H.own.fds i).2 (.inr ⟨hd, _, ho, hp, hi⟩)⟩
      apply Out.Sat.bind
      apply true_mono (ReadO_res strerror hw mem hok off n n (Nat.le_refl n))
      intro r w1 h1
      cases r with
      | none => exact Post.of (MaybeFd.accL H (h1 rfl))
      | some r => exact Post.res
    · apply Out.Sat.bind
      apply Out.Sat.pureM (get_has ho)
      exact Post.answer h
  | write hd op =>
    obtain ⟨f, ho⟩ := hh
    apply Out.Sat.bind
    apply Out.Sat.pureM (get_has ho)
    apply Out.Sat.bind
    apply true_mono (write_post strerror full h mem ho op (fun d hd' => hv hd d (by
      rw [List.mem_singleton, hd'])) (fun h => hm hd (by rw [h])))
    rintro ⟨r, f1⟩ w1 h1
    cases r with
    | none =>
      exact Post.of (h1 rfl)
    | some r => exact Post.res
  | delete hd =>
    refine Out.Sat.of_done (stepO_nofault strerror full h mem _ hh hv) fun a w' he => ?_
    obtain ⟨h1, h2⟩ := deleteO_answer strerror mem E hd w a w' he
    rintro (h | h)
    · exact absurd h h1
    · exact absurd h h2

/-- A call keeps the accounts but for what it loses. -/
theorem stepO_acc {E : OEnv} {w : World} (h : Acc ext extm L1 L2 E.env w) (mem : PMem) (op : POp)
    (hh : HandleOk E.env op) (hv : ValidPOps [op]) (hm : ∀ h, op = .write h .close → mem.message = true)
    {E' : OEnv} {a : Ans} {w' : World} (he : E.step strerror full mem op w = .done (E', a) w') (hend : a ≠ .ended) :
    ∃ k, k ≤ (if a.broke && op.maps then 1 else 0) ∧
      AccL ext extm L1 L2 (if a.broke && op.opens then 1 else 0) k E'.env w' := by
  have h1 := stepO_sim strerror full mem E op w
  have h2 := step_acc strerror full h op hh hv
  have h3 := stepO_post strerror full h mem op hh hv hm
  rw [he] at h1 h3
  cases a with
  | ended => exact absurd rfl hend
  | res r =>
    have h1 := h1 (E'.env, r) rfl
    rw [h1] at h2
    exact ⟨0, Nat.zero_le _, (AccL.of h2).mono (Nat.zero_le _)⟩
  | threw => exact h3 (.inl rfl)
  | hangs => exact h3 (.inr rfl)

theorem AccL.trans {e e' : PEnv} {w w' : World} {n k n' : Nat} (h : AccL ext extm L1 L2 n k e w) {K : Nat → Prop}
    (hs : ∀ ext extm L1, Acc ext extm L1 L2 e w → ∃ k', K k' ∧ AccL ext extm L1 L2 n' k' e' w') :
    ∃ k', K k' ∧ AccL ext extm L1 L2 (n + n') (k + k') e' w' := by
  obtain ⟨F, M, a1, a2, a3, a4, a5⟩ := h
  obtain ⟨k', hk, F', M', b1, b2, b3, b4, b5⟩ := hs _ _ _ a5
  refine ⟨k', hk, F ++ F', M ++ M', by simp; omega, by simp; omega, ?_, ?_, ?_⟩
  · intro i hi
    rcases List.mem_append.1 hi with hi | hi
    · exact a3 i hi
    · exact fun hx => b3 i hi (.inl hx)
  · intro i hi
    rcases List.mem_append.1 hi with hi | hi
    · exact a4 i hi
    · exact fun hx => b4 i hi (.inl hx)
  · refine Acc.reext b5 ?_ ?_ ?_
    · intro i; simp [or_assoc]
    · intro i; simp [or_assoc]
    · push_cast; omega

theorem stepO_bad {E : OEnv} {op : POp} (hh : ¬ HandleOk E.env op) (mem : PMem) (w : World) :
    ∃ f, E.step strerror full mem op w = .fault f := by
  have hget : ∀ h, (∃ o, E.env.has h o ∧ E.env.get h = .ok o) ∨ ∃ f, E.env.get h = .error f := by
    intro h
    unfold PEnv.get PEnv.has
    cases E.env.objs[h]? with
    | none => exact .inr ⟨_, rfl⟩
    | some x =>
      cases x with
      | none => exact .inr ⟨_, rfl⟩
      | some o => exact .inl ⟨o, rfl, rfl⟩
  cases op with
  | unlockFile h =>
    rcases hget h with ⟨o, ho, hg⟩ | ⟨f, hg⟩
    · cases o with
      | lock fd n => exact absurd ⟨fd, n, ho⟩ hh
      | _ => exact ⟨_, by simp only [OEnv.step, OEnv.UnlockFile, bind_eq, pureM, hg]; rfl⟩
    · exact ⟨_, by simp only [OEnv.step, OEnv.UnlockFile, bind_eq, pureM, hg]; rfl⟩
  | seqRead h n =>
    rcases hget h with ⟨o, ho, hg⟩ | ⟨f, hg⟩
    · cases o with
      | seq f => exact absurd ⟨f, ho⟩ hh
      | _ => exact ⟨_, by simp only [OEnv.step, bind_eq, pureM, hg]; rfl⟩
    · exact ⟨_, by simp only [OEnv.step, bind_eq, pureM, hg]; rfl⟩
  | seqSkip h n =>
    rcases hget h with ⟨o, ho, hg⟩ | ⟨f, hg⟩
    · cases o with
      | seq f => exact absurd ⟨f, ho⟩ hh
      | _ => exact ⟨_, by simp only [OEnv.step, bind_eq, pureM, hg]; rfl⟩
    · exact ⟨_, by simp only [OEnv.step, bind_eq, pureM, hg]; rfl⟩
  | randRead h off n =>
    rcases hget h with ⟨o, ho, hg⟩ | ⟨f, hg⟩
    · cases o with
      | rand f => exact absurd (.inl ⟨f, ho⟩) hh
      | mmap f => exact absurd (.inr ⟨f, ho⟩) hh
      | _ => exact ⟨_, by simp only [OEnv.step, bind_eq, pureM, hg]; rfl⟩
    · exact ⟨_, by simp only [OEnv.step, bind_eq, pureM, hg]; rfl⟩
  | write h op =>
    rcases hget h with ⟨o, ho, hg⟩ | ⟨f, hg⟩
    · cases o with
      | wr f => exact absurd ⟨f, ho⟩ hh
      | _ => exact ⟨_, by simp only [OEnv.step, bind_eq, pureM, hg]; rfl⟩
    · exact ⟨_, by simp only [OEnv.step, bind_eq, pureM, hg]; rfl⟩
  | delete h =>
    rcases hget h with ⟨o, ho, hg⟩ | ⟨f, hg⟩
    · cases o with
      | lock fd n => exact ⟨_, by simp only [OEnv.step, OEnv.delete, PEnv.delete, bind_eq, pureM, hg]; rfl⟩
      | _ => exact absurd ⟨_, ho, fun _ _ h => nomatch h⟩ hh
    · exact ⟨_, by simp only [OEnv.step, OEnv.delete, bind_eq, pureM, hg]; rfl⟩
  | _ => exact absurd trivial hh

theorem broken_cons (p : POp → Bool) (x : PMem × POp) (a : Ans) (ops : List (PMem × POp)) (as : List Ans) :
    broken p (x :: ops) (a :: as) = (if a.broke && p x.2 then 1 else 0) + broken p ops as := by
  unfold broken
  rw [List.zip_cons_cons, List.filter_cons]
  cases hb : (a.broke && p x.2)
  · simp [hb]
  · simp [hb]; omega

theorem runO_acc : ∀ (ops : List (PMem × POp)) (E : OEnv) (w : World) (n k : Nat), ValidPOps (ops.map (·.2)) →
    CloseHasMemory ops → AccL ext extm L1 L2 n k E.env w →
    ∀ E' as w', E.run strerror full ops w = .done (E', as) w' → .ended ∉ as →
      ∃ k', k' ≤ broken POp.maps ops as ∧
        AccL ext extm L1 L2 (n + broken POp.opens ops as) (k + k') E'.env w' := by
  intro ops
  induction ops with
  | nil =>
    intro E w n k _ _ h E' as w' hr _
    have hr : Out.done (E, []) w = .done (E', as) w' := hr
    injection hr with h1 h2
    injection h1 with h1 h3
    subst h1 h2 h3
    exact ⟨0, Nat.le_refl _, h⟩
  | cons x ops ih =>
    obtain ⟨mem, op⟩ := x
    intro E w n k hv hm h E' as w' hr hend
    have hv1 : ValidPOps [op] := fun h d hm => hv h d (by
      rw [List.mem_singleton] at hm; rw [hm]; exact List.mem_cons_self)
    have hv2 : ValidPOps (ops.map (·.2)) := fun h d hm => hv h d (List.mem_cons_of_mem _ hm)
    have hm1 : ∀ h, op = .write h .close → mem.message = true := fun h e => hm mem h (by rw [e]; exact List.mem_cons_self)
    have hm2 : CloseHasMemory ops := fun mem h e => hm mem h (List.mem_cons_of_mem _ e)
    unfold OEnv.run at hr
    rw [bind_eq] at hr
    by_cases hh : HandleOk E.env op
    · cases hx : E.step strerror full mem op w with
      | fault f => rw [hx] at hr; exact nomatch hr
      | crash w1 => rw [hx] at hr; exact nomatch hr
      | done r w1 =>
        obtain ⟨E1, a⟩ := r
        rw [hx] at hr
        have one : a ≠ .ended → ∃ k', k' ≤ (if a.broke && op.maps then 1 else 0) ∧
            AccL ext extm L1 L2 (n + if a.broke && op.opens then 1 else 0) (k + k') E1.env w1 := fun ha =>
          h.trans (fun _ _ _ h => stepO_acc strerror full h mem op hh hv1 hm1 hx ha)
        have go : ∀ {E2 : OEnv} {rs : List Ans} {w2 : World}, E1.run strerror full ops w1 = .done (E2, rs) w2 → a ≠ .ended →
            .ended ∉ rs → ∃ k', k' ≤ broken POp.maps ((mem, op) :: ops) (a :: rs) ∧
              AccL ext extm L1 L2 (n + broken POp.opens ((mem, op) :: ops) (a :: rs)) (k + k') E2.env w2 := by
          intro E2 rs w2 hy ha hrs
          obtain ⟨k1, hk1, h1⟩ := one ha
          obtain ⟨k2, hk2, h2⟩ := ih E1 w1 _ _ hv2 hm2 h1 E2 rs w2 hy hrs
          refine ⟨k1 + k2, ?_, ?_⟩
          · rw [broken_cons]; simp only []; omega
          · rw [broken_cons]
            simp only []
            rw [← Nat.add_assoc, ← Nat.add_assoc]
            exact h2
        cases a with
        | ended =>
          have hr : Out.done (E1, [Ans.ended]) w1 = .done (E', as) w' := hr
          injection hr with h1 h2
          injection h1 with h1 h3
          subst h3
          exact absurd List.mem_cons_self hend
        | hangs =>
          have hr : Out.done (E1, [Ans.hangs]) w1 = .done (E', as) w' := hr
          injection hr with h1 h2
          injection h1 with h1 h3
          subst h1 h2 h3
          obtain ⟨k1, hk1, h1⟩ := one (fun h => nomatch h)
          refine ⟨k1, ?_, ?_⟩
          · rw [broken_cons]; exact Nat.le_trans hk1 (Nat.le_add_right _ _)
          · rw [broken_cons]; exact h1.mono (by simp only []; omega)
        | res r =>
          simp only [bind_eq] at hr
          cases hy : OEnv.run strerror full E1 ops w1 with
          | fault f => rw [hy] at hr; exact nomatch hr
          | crash w1 => rw [hy] at hr; exact nomatch hr
          | done r2 w2 =>
            obtain ⟨E2, rs⟩ := r2
            rw [hy] at hr
            have hr : Out.done (E2, Ans.res r :: rs) w2 = .done (E', as) w' := hr
            injection hr with h1 h2
            injection h1 with h1 h3
            subst h1 h2 h3
            exact go hy (fun h => nomatch h) (fun h => hend (List.mem_cons_of_mem _ h))
        | threw =>
          simp only [bind_eq] at hr
          cases hy : OEnv.run strerror full E1 ops w1 with
          | fault f => rw [hy] at hr; exact nomatch hr
          | crash w1 => rw [hy] at hr; exact nomatch hr
          | done r2 w2 =>
            obtain ⟨E2, rs⟩ := r2
            rw [hy] at hr
            have hr : Out.done (E2, Ans.threw :: rs) w2 = .done (E', as) w' := hr
            injection hr with h1 h2
            injection h1 with h1 h3
            subst h1 h2 h3
            exact go hy (fun h => nomatch h) (fun h => hend (List.mem_cons_of_mem _ h))
    · obtain ⟨f, hf⟩ := stepO_bad strerror full hh mem w
      rw [hf] at hr; exact nomatch hr

end Posix
end Lsmdb
