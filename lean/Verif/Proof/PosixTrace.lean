import Verif.Proof.PosixRun

/-! # PosixWritableFile: which system calls are made, in which order -/

namespace Lsmdb
namespace Posix

open MemEnv (St lit)

variable (strerror : Strerror) (full : Bool)

/-- `w'` made exactly the calls `l` after `w`. -/
def Made (w w' : World) (l : List Call) : Prop := w'.calls = w.calls ++ l

theorem Made.nil (w : World) : Made w w [] := by simp [Made]

theorem Made.trans {w w' w'' : World} {l l' : List Call} (h : Made w w' l) (h' : Made w' w'' l') :
    Made w w'' (l ++ l') := by
  unfold Made at *; rw [h', h, List.append_assoc]

/-- A `write` on `fd`. -/
def IsWrite (fd : Int) (x : Call) : Prop := ∃ d r, x = .write fd d r

/-- Every failing `write` in `l` is reported in `st`, and an error in `st` comes from one. -/
def Reported (name : Bytes) (fd : Int) (l : List Call) (st : St) : Prop :=
  (∀ d e, Call.write fd d (.error e) ∈ l → e ≠ EINTR → st = PosixError strerror name e) ∧
  (st ≠ .ok → ∃ d e, Call.write fd d (.error e) ∈ l ∧ e ≠ EINTR ∧ st = PosixError strerror name e)

theorem sysWrite_trace (fd : Int) (d : Bytes) (w : World) :
    (sysWrite fd d w).Sat
      (fun r w' => Made w w' [.write fd d r] ∧ w.choices.length = w'.choices.length + 1)
      (fun w' => w' = w) := by
  apply Out.Sat.sys
  · intro _; rfl
  · intro c cs hcs; exact ⟨rfl, by rw [hcs]; rfl⟩

theorem writeLoop_trace (fd : Int) (name : Bytes) : ∀ (fuel : Nat) (data : Bytes) (w : World),
    w.choices.length < fuel →
    (writeLoop strerror fd name fuel data w).Sat
      (fun st w' => ∃ l, Made w w' l ∧ (∀ x ∈ l, IsWrite fd x) ∧ Reported strerror name fd l st)
      (fun w' => ∃ l, Made w w' l ∧ (∀ x ∈ l, IsWrite fd x)) := by
  intro fuel
  induction fuel with
  | zero => intro _ _ h; omega
  | succ fuel ih =>
    intro data w hfuel
    unfold writeLoop
    by_cases hd : data.length > 0
    · rw [if_pos hd]
      apply Out.Sat.bind
      apply (sysWrite_trace fd data w).mono
      · rintro r w1 ⟨h1, h2⟩
        cases r with
        | error e =>
          simp only []
          by_cases he : e = EINTR
          · rw [if_pos he]
            apply (ih data w1 (by omega)).mono
            · rintro st w2 ⟨l, a1, a2, a3, a4⟩
              refine ⟨[.write fd data (.error e)] ++ l, h1.trans a1, ?_, ?_, ?_⟩
              · intro x hx
                rcases List.mem_append.1 hx with hx | hx
                · rw [List.mem_singleton] at hx; exact ⟨data, .error e, hx⟩
                · exact a2 x hx
              · intro d e' hm hne
                rcases List.mem_append.1 hm with hm | hm
                · rw [List.mem_singleton] at hm
                  injection hm with _ _ hm
                  injection hm with hm
                  exact absurd (hm.trans he) hne
                · exact a3 d e' hm hne
              · intro hst
                obtain ⟨d, e', b1, b2⟩ := a4 hst
                exact ⟨d, e', List.mem_append_right _ b1, b2⟩
            · rintro w2 ⟨l, a1, a2⟩
              refine ⟨[.write fd data (.error e)] ++ l, h1.trans a1, ?_⟩
              intro x hx
              rcases List.mem_append.1 hx with hx | hx
              · rw [List.mem_singleton] at hx; exact ⟨data, .error e, hx⟩
              · exact a2 x hx
          · rw [if_neg he]
            refine ⟨[.write fd data (.error e)], h1, ?_, ?_, ?_⟩
            · intro x hx; rw [List.mem_singleton] at hx; exact ⟨data, .error e, hx⟩
            · intro d e' hm _
              rw [List.mem_singleton] at hm
              injection hm with _ _ hm
              injection hm with hm
              rw [hm]
            · intro _; exact ⟨data, e, by simp, he, rfl⟩
        | ok n =>
          simp only []
          apply (ih (data.drop n) w1 (by omega)).mono
          · rintro st w2 ⟨l, a1, a2, a3, a4⟩
            refine ⟨[.write fd data (.ok n)] ++ l, h1.trans a1, ?_, ?_, ?_⟩
            · intro x hx
              rcases List.mem_append.1 hx with hx | hx
              · rw [List.mem_singleton] at hx; exact ⟨data, .ok n, hx⟩
              · exact a2 x hx
            · intro d e' hm hne
              rcases List.mem_append.1 hm with hm | hm
              · rw [List.mem_singleton] at hm
                injection hm with _ _ hm
                exact nomatch hm
              · exact a3 d e' hm hne
            · intro hst
              obtain ⟨d, e', b1, b2⟩ := a4 hst
              exact ⟨d, e', List.mem_append_right _ b1, b2⟩
          · rintro w2 ⟨l, a1, a2⟩
            refine ⟨[.write fd data (.ok n)] ++ l, h1.trans a1, ?_⟩
            intro x hx
            rcases List.mem_append.1 hx with hx | hx
            · rw [List.mem_singleton] at hx; exact ⟨data, .ok n, hx⟩
            · exact a2 x hx
      · rintro w1 rfl
        exact ⟨[], Made.nil _, by simp⟩
    · rw [if_neg hd]
      exact ⟨[], Made.nil _, by simp, by simp, by simp⟩

theorem WriteUnbuffered_trace (f : WFile) (data : Bytes) (w : World) :
    (f.WriteUnbuffered strerror data w).Sat
      (fun st w' => ∃ l, Made w w' l ∧ (∀ x ∈ l, IsWrite f.fd x) ∧ Reported strerror f.filename f.fd l st)
      (fun w' => ∃ l, Made w w' l ∧ (∀ x ∈ l, IsWrite f.fd x)) :=
  writeLoop_trace strerror f.fd f.filename _ data w (by omega)

theorem FlushBuffer_trace {f : WFile} {b : Bytes} (hb : BufHas f b) (w : World) :
    (f.FlushBuffer strerror w).Sat
      (fun r w' => ∃ l, Made w w' l ∧ (∀ x ∈ l, IsWrite f.fd x) ∧ Reported strerror f.filename f.fd l r.1 ∧
        r.2 = { f with pos := 0 })
      (fun w' => ∃ l, Made w w' l ∧ (∀ x ∈ l, IsWrite f.fd x)) := by
  unfold WFile.FlushBuffer
  apply Out.Sat.bind
  apply Out.Sat.pureM hb.load
  apply Out.Sat.bind
  apply (WriteUnbuffered_trace strerror f b w).mono
  · rintro st w1 ⟨l, h1, h2, h3⟩
    exact ⟨l, h1, h2, h3, rfl⟩
  · intro w1 h1; exact h1

theorem Reported.append {name : Bytes} {fd : Int} {l l' : List Call} {st : St}
    (h : Reported strerror name fd l .ok) (h' : Reported strerror name fd l' st) :
    Reported strerror name fd (l ++ l') st := by
  refine ⟨?_, ?_⟩
  · intro d e hm hne
    rcases List.mem_append.1 hm with hm | hm
    · exact absurd (h.1 d e hm hne).symm (PosixError_ne_ok _ _ _)
    · exact h'.1 d e hm hne
  · intro hst
    obtain ⟨d, e, b1, b2⟩ := h'.2 hst
    exact ⟨d, e, List.mem_append_right _ b1, b2⟩

theorem Append_trace {f : WFile} {b : Bytes} (d : Slice) (hd : d.WF) (hb : BufHas f b) (w : World) :
    (f.Append strerror d w).Sat
      (fun r w' => ∃ l, Made w w' l ∧ (∀ x ∈ l, IsWrite f.fd x) ∧ Reported strerror f.filename f.fd l r.1 ∧
        Same f r.2 ∧ ∃ b', BufHas r.2 b')
      (fun w' => ∃ l, Made w w' l ∧ (∀ x ∈ l, IsWrite f.fd x)) := by
  unfold WFile.Append
  apply Out.Sat.bind
  apply Out.Sat.pureM (toString_ok hd)
  have hl : d.bytes.length = d.len := bytes_len hd
  generalize hc : min d.len (kWritableFileBufferSize - f.pos) = copy
  have hle := hb.le
  have hst : f.pos + (d.bytes.take copy).length ≤ kWritableFileBufferSize := by
    simp; omega
  have hcl : (d.bytes.take copy).length = copy := by simp; omega
  apply Out.Sat.bind
  apply Out.Sat.pureM (store_ok hst)
  simp only []
  have hb1 := hb.append hst
  rw [hcl] at hb1
  rw [hcl]
  generalize hf1 : ({ f with
      buf := fun i => if f.pos ≤ i ∧ i < f.pos + copy then (List.take copy d.bytes)[i - f.pos]? else f.buf i
      pos := f.pos + copy } : WFile) = f1 at hb1 ⊢
  have hs1 : Same f f1 := by subst hf1; exact Same.refl f
  by_cases hz : d.len - copy = 0
  · simp only [hz, if_true]
    exact ⟨[], Made.nil _, by simp, ⟨by simp, by simp⟩, hs1, _, hb1⟩
  · simp only [hz, if_false]
    apply Out.Sat.bind
    apply (FlushBuffer_trace strerror hb1 w).mono
    · rintro ⟨st, f2⟩ w1 ⟨l, e1, e2, e3, e4⟩
      simp only at e2 e3 e4 ⊢
      have hs2 : Same f f2 := by rw [e4]; exact hs1
      rw [hs1.1] at e2 e3
      rw [hs1.2.2.1] at e3
      by_cases hok : st = .ok
      · subst hok
        simp only [ne_eq, not_true_eq_false, if_false]
        have hdl : (d.bytes.drop copy).length = d.len - copy := by simp [hl]
        by_cases hsm : d.len - copy < kWritableFileBufferSize
        · simp only [hsm, if_true]
          apply Out.Sat.bind
          apply Out.Sat.pureM (store_ok (by omega))
          refine ⟨l, e1, e2, e3, hs2, d.bytes.drop copy, ?_⟩
          rw [← hdl]
          exact BufHas.fresh f2 _ (by omega)
        · simp only [hsm, if_false]
          apply Out.Sat.bind
          apply (WriteUnbuffered_trace strerror f2 (d.bytes.drop copy) w1).mono
          · rintro st w2 ⟨l2, a1, a2, a3⟩
            rw [hs2.1] at a2 a3
            rw [hs2.2.2.1] at a3
            refine ⟨l ++ l2, e1.trans a1, ?_, Reported.append strerror e3 a3, hs2, [],
              by rw [e4]; exact BufHas.zero f1⟩
            intro x hx
            rcases List.mem_append.1 hx with hx | hx
            · exact e2 x hx
            · exact a2 x hx
          · rintro w2 ⟨l2, a1, a2⟩
            rw [hs2.1] at a2
            refine ⟨l ++ l2, e1.trans a1, ?_⟩
            intro x hx
            rcases List.mem_append.1 hx with hx | hx
            · exact e2 x hx
            · exact a2 x hx
      · simp only [ne_eq, hok, not_false_eq_true, if_true]
        exact ⟨l, e1, e2, e3, hs2, [], by rw [e4]; exact BufHas.zero f1⟩
    · rintro w1 ⟨l, e1, e2⟩
      rw [hs1.1] at e2
      exact ⟨l, e1, e2⟩

/-- A sync call on `fd`. -/
def IsSync (fd : Int) (x : Call) : Prop := ∃ ok, x = .sync fd ok

theorem sysSync_trace (fd : Int) (w : World) :
    (sysSync fd w).Sat (fun r w' => Made w w' [.sync fd (fine r)]) (fun w' => w' = w) := by
  apply Out.Sat.sys
  · intro _; rfl
  · intro c cs hcs; exact rfl

theorem SyncFd_trace (fd : Int) (path : Bytes) (w : World) :
    (SyncFd strerror full fd path w).Sat
      (fun st w' => ∃ l, Made w w' l ∧ (∀ x ∈ l, IsSync fd x) ∧ (st = .ok ↔ Call.sync fd true ∈ l))
      (fun w' => ∃ l, Made w w' l ∧ (∀ x ∈ l, IsSync fd x) ∧ Call.sync fd true ∉ l) := by
  have h2 : ∀ w0 w1 l, Made w0 w1 l → (∀ x ∈ l, x = Call.sync fd false) →
      ((do match ← sysSync fd with
            | .ok _ => return .ok
            | .error e => return PosixError strerror path e : P St) w1).Sat
        (fun st w' => ∃ l, Made w0 w' l ∧ (∀ x ∈ l, IsSync fd x) ∧ (st = .ok ↔ Call.sync fd true ∈ l))
        (fun w' => ∃ l, Made w0 w' l ∧ (∀ x ∈ l, IsSync fd x) ∧ Call.sync fd true ∉ l) := by
    intro w0 w1 l hm hl
    apply Out.Sat.bind
    apply (sysSync_trace fd w1).mono
    · intro r w2 h1
      have hs : ∀ ok, ∀ x ∈ l ++ [Call.sync fd ok], IsSync fd x := by
        intro ok x hx
        rcases List.mem_append.1 hx with hx | hx
        · exact ⟨false, hl x hx⟩
        · exact ⟨ok, List.mem_singleton.1 hx⟩
      cases r with
      | ok _ =>
        refine ⟨_, hm.trans h1, hs _, ?_⟩
        simp [fine]
      | error e =>
        refine ⟨_, hm.trans h1, hs _, ?_⟩
        constructor
        · intro h; exact absurd h (PosixError_ne_ok _ _ _)
        · intro h
          rcases List.mem_append.1 h with h | h
          · have := hl _ h; injection this with _ this; exact nomatch this
          · rw [List.mem_singleton] at h; injection h with _ h; exact nomatch h
    · rintro w2 rfl
      refine ⟨l, hm, fun x hx => ⟨false, hl x hx⟩, fun h => ?_⟩
      have := hl _ h; injection this with _ this; exact nomatch this
  unfold SyncFd
  cases full with
  | true =>
    simp only [if_true]
    apply Out.Sat.bind
    apply (sysSync_trace fd w).mono
    · intro r w1 h1
      cases r with
      | ok _ => exact ⟨_, h1, by simp [IsSync], by simp [fine]⟩
      | error e => exact h2 w w1 _ h1 (by simp [fine])
    · rintro w1 rfl
      exact ⟨[], Made.nil _, by simp, by simp⟩
  | false =>
    simp only [Bool.false_eq_true, if_false]
    exact h2 w w [] (Made.nil _) (by simp)

theorem sysOpen_trace (m : Mode) (path : Bytes) (w : World) :
    (sysOpen m path w).Sat (fun r w' => Made w w' [.open path (val r)]) (fun w' => w' = w) := by
  apply Out.Sat.sys
  · intro _; rfl
  · intro c cs hcs; exact rfl

theorem sysClose_trace (fd : Int) (w : World) :
    (sysClose fd w).Sat (fun r w' => Made w w' [.close fd (errOf r)]) (fun w' => w' = w) := by
  apply Out.Sat.sys
  · intro _; rfl
  · intro c cs hcs; exact rfl

theorem SyncDir_trace (f : WFile) (w : World) :
    (f.SyncDirIfManifest strerror full w).Sat
      (fun st w' => ∃ l, Made w w' l ∧ (∀ x ∈ l, NotWrite x) ∧
        (f.is_manifest = true → (st = .ok ↔ DirSynced f.dirname l)) ∧
        (f.is_manifest = false → l = [] ∧ st = .ok))
      (fun w' => ∃ l, Made w w' l ∧ (∀ x ∈ l, NotWrite x) ∧ f.is_manifest = true) := by
  unfold WFile.SyncDirIfManifest
  cases hm : f.is_manifest with
  | false =>
    simp only [Bool.false_eq_true, if_false]
    exact ⟨[], Made.nil _, by simp, by simp, by simp⟩
  | true =>
    simp only [if_true]
    apply Out.Sat.bind
    apply (sysOpen_trace .rdonly f.dirname w).mono
    · intro r w1 h1
      cases r with
      | error e =>
        refine ⟨_, h1, ?_, ?_, by simp⟩
        · intro x hx fd d r; rw [List.mem_singleton] at hx; rw [hx]; simp
        · intro _
          constructor
          · intro h; exact absurd h (PosixError_ne_ok _ _ _)
          · rintro ⟨a, b, fd, e1, e2⟩
            exfalso
            cases a with
            | nil => exact nomatch e2
            | cons x a =>
              have := congrArg List.length e1
              simp at this
      | ok fd =>
        simp only []
        apply Out.Sat.bind
        apply (SyncFd_trace strerror full fd f.dirname w1).mono
        · rintro st w2 ⟨l, a1, a2, a3⟩
          apply Out.Sat.bind
          have hnw : ∀ x ∈ [Call.open f.dirname (val (Except.ok fd))] ++ l, NotWrite x := by
            intro x hx fd d r
            rcases List.mem_append.1 hx with hx | hx
            · rw [List.mem_singleton] at hx; rw [hx]; simp
            · obtain ⟨ok, e⟩ := a2 x hx; rw [e]; simp
          apply (sysClose_trace fd w2).mono
          · intro r w3 h3
            refine ⟨_, (h1.trans a1).trans h3, ?_, ?_, by simp⟩
            · intro x hx fd d r
              rcases List.mem_append.1 hx with hx | hx
              · exact hnw x hx fd d r
              · rw [List.mem_singleton] at hx; rw [hx]; simp
            · intro _
              rw [a3]
              constructor
              · intro h
                obtain ⟨a, b, rfl⟩ := List.append_of_mem h
                exact ⟨[Call.open f.dirname (some fd)] ++ a, b ++ [Call.close fd (errOf r)], fd,
                  by simp [val], by simp⟩
              · rintro ⟨a, b, fd', e1, e2⟩
                have hmem : Call.sync fd' true ∈ [Call.open f.dirname (val (Except.ok fd))] ++ l ++
                    [Call.close fd (errOf r)] := by rw [e1]; simp
                have hmem2 : Call.open f.dirname (some fd') ∈ [Call.open f.dirname (val (Except.ok fd))] ++ l ++
                    [Call.close fd (errOf r)] := by rw [e1]; exact List.mem_append_left _ e2
                have hfd : fd' = fd := by
                  rcases List.mem_append.1 hmem2 with h | h
                  · rcases List.mem_append.1 h with h | h
                    · simp only [val, List.mem_singleton, Call.open.injEq, Option.some.injEq] at h
                      exact h.2
                    · obtain ⟨ok, e⟩ := a2 _ h; exact nomatch e
                  · simp at h
                subst hfd
                rcases List.mem_append.1 hmem with h | h
                · rcases List.mem_append.1 h with h | h
                  · simp at h
                  · exact h
                · simp at h
          · rintro w3 rfl
            exact ⟨_, h1.trans a1, hnw, trivial⟩
        · rintro w2 ⟨l, a1, a2, _⟩
          refine ⟨_, h1.trans a1, ?_, trivial⟩
          intro x hx fd d r
          rcases List.mem_append.1 hx with hx | hx
          · rw [List.mem_singleton] at hx; rw [hx]; simp
          · obtain ⟨ok, e⟩ := a2 x hx; rw [e]; simp
    · rintro w1 rfl
      exact ⟨[], Made.nil _, by simp, trivial⟩

/-- The calls of `Sync`: those for the directory, then writes and syncs of the file itself. -/
theorem Sync_trace {f : WFile} {b : Bytes} (hb : BufHas f b) (w : World) :
    (f.Sync strerror full w).Sat
      (fun r w' => ∃ pre post, Made w w' (pre ++ post) ∧ (∀ x ∈ pre, NotWrite x) ∧
        (∀ x ∈ post, IsWrite f.fd x ∨ IsSync f.fd x) ∧
        (f.is_manifest = true → post ≠ [] → DirSynced f.dirname pre) ∧
        (f.is_manifest = true → ¬ DirSynced f.dirname pre → r.1 ≠ .ok) ∧
        (f.is_manifest = false → pre = []) ∧
        (∀ d e, Call.write f.fd d (.error e) ∈ post → e ≠ EINTR → r.1 = PosixError strerror f.filename e) ∧
        (r.1 = .ok → Call.sync f.fd true ∈ post) ∧
        (r.2 = f ∨ r.2 = { f with pos := 0 }))
      (fun w' => ∃ pre post, Made w w' (pre ++ post) ∧ (∀ x ∈ pre, NotWrite x) ∧
        (∀ x ∈ post, IsWrite f.fd x ∨ IsSync f.fd x) ∧
        (f.is_manifest = true → post ≠ [] → DirSynced f.dirname pre) ∧
        (f.is_manifest = false → pre = [])) := by
  unfold WFile.Sync
  apply Out.Sat.bind
  apply (SyncDir_trace strerror full f w).mono
  · rintro st w1 ⟨pre, e1, e2, e3, e4⟩
    by_cases hst : st = .ok
    · subst hst
      have hds : f.is_manifest = true → DirSynced f.dirname pre := fun h => (e3 h).1 rfl
      simp only [ne_eq, not_true_eq_false, if_false]
      apply Out.Sat.bind
      apply (FlushBuffer_trace strerror hb w1).mono
      · rintro ⟨st, f2⟩ w2 ⟨l, a1, a2, a3, a4⟩
        simp only at a3 a4 ⊢
        by_cases hst : st = .ok
        · subst hst
          simp only [ne_eq, not_true_eq_false, if_false]
          apply Out.Sat.bind
          rw [a4]
          apply (SyncFd_trace strerror full f.fd f.filename w2).mono
          · rintro st w3 ⟨l3, c1, c2, c3⟩
            refine ⟨pre, l ++ l3, (e1.trans (a1.trans c1)), e2, ?_, fun h _ => hds h,
              fun h hn => absurd (hds h) hn, fun h => (e4 h).1, ?_, ?_, .inr rfl⟩
            · intro x hx
              rcases List.mem_append.1 hx with hx | hx
              · exact .inl (a2 x hx)
              · exact .inr (c2 x hx)
            · intro d e hm hne
              rcases List.mem_append.1 hm with hm | hm
              · exact absurd (a3.1 d e hm hne).symm (PosixError_ne_ok _ _ _)
              · obtain ⟨ok, h⟩ := c2 _ hm; exact nomatch h
            · intro hok
              exact List.mem_append_right _ (c3.1 hok)
          · rintro w3 ⟨l3, c1, c2, _⟩
            refine ⟨pre, l ++ l3, (e1.trans (a1.trans c1)), e2, ?_, fun h _ => hds h, fun h => (e4 h).1⟩
            intro x hx
            rcases List.mem_append.1 hx with hx | hx
            · exact .inl (a2 x hx)
            · exact .inr (c2 x hx)
        · simp only [ne_eq, hst, not_false_eq_true, if_true]
          refine ⟨pre, l, e1.trans a1, e2, fun x hx => .inl (a2 x hx), fun h _ => hds h,
            fun _ _ => hst, fun h => (e4 h).1, a3.1, fun h => absurd h hst, .inr a4⟩
      · rintro w2 ⟨l, a1, a2⟩
        exact ⟨pre, l, e1.trans a1, e2, fun x hx => .inl (a2 x hx), fun h _ => hds h, fun h => (e4 h).1⟩
    · simp only [ne_eq, hst, not_false_eq_true, if_true]
      refine ⟨pre, [], by rw [List.append_nil]; exact e1, e2, by simp, by simp, fun _ _ => hst,
        fun h => (e4 h).1, by simp, fun h => absurd h hst, .inl rfl⟩
  · rintro w1 ⟨pre, e1, e2, e3⟩
    exact ⟨pre, [], by rw [List.append_nil]; exact e1, e2, by simp, by simp, fun h => by rw [e3] at h; exact nomatch h⟩

/-- The calls of `Close`: the writes, then one `close`. -/
theorem Close_trace {f : WFile} {b : Bytes} (hb : BufHas f b) (w : World) :
    (f.Close strerror w).Sat
      (fun r w' => ∃ l c, Made w w' (l ++ [.close f.fd c]) ∧ (∀ x ∈ l, IsWrite f.fd x) ∧
        (∀ d e, Call.write f.fd d (.error e) ∈ l → e ≠ EINTR → r.1 = PosixError strerror f.filename e) ∧
        r.2 = { f with pos := 0, fd := -1 })
      (fun w' => ∃ l, Made w w' l ∧ (∀ x ∈ l, IsWrite f.fd x)) := by
  unfold WFile.Close
  apply Out.Sat.bind
  apply (FlushBuffer_trace strerror hb w).mono
  · rintro ⟨st, f2⟩ w2 ⟨l, a1, a2, a3, a4⟩
    simp only at a3 a4 ⊢
    subst a4
    apply Out.Sat.bind
    apply (sysClose_trace f.fd w2).mono
    · intro r w3 h3
      refine ⟨l, _, a1.trans h3, a2, ?_, rfl⟩
      intro d e hm hne
      have := a3.1 d e hm hne
      rw [this]
      cases r with
      | ok _ => rfl
      | error e' => simp only [PosixError_ne_ok, if_false]
    · rintro w3 rfl
      exact ⟨l, a1, a2⟩
  · rintro w2 h; exact h

end Posix
end Lsmdb
