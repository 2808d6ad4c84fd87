import Verif.Proof.PosixWrite

/-! # PosixWritableFile: the operations -/

namespace Lsmdb
namespace Posix

open MemEnv (St lit)

variable (strerror : Strerror)

/-- Same descriptor and names. -/
def Same (f f' : WFile) : Prop :=
  f'.fd = f.fd ∧ f'.is_manifest = f.is_manifest ∧ f'.filename = f.filename ∧ f'.dirname = f.dirname

theorem Same.refl (f : WFile) : Same f f := ⟨rfl, rfl, rfl, rfl⟩

/-- A failing call that was not merely interrupted, and the status it leads to. -/
def Failed (context : Bytes) (used : List Choice) (st : St) : Prop :=
  ∃ e c, c ∈ used ∧ c.fail = some e ∧ e ≠ EINTR ∧ st = PosixError strerror context e

theorem PosixError_ne_ok (context : Bytes) (e : Errno) : PosixError strerror context e ≠ .ok := by
  unfold PosixError; split <;> simp

theorem Failed.ne_ok {context : Bytes} {used : List Choice} {st : St} (h : Failed strerror context used st) :
    st ≠ .ok := by
  obtain ⟨e, c, _, _, _, rfl⟩ := h
  exact PosixError_ne_ok _ _ _

theorem WriteUnbuffered_sat {ino : Nat} {f : WFile} {D : Bytes} {O : Bytes → Prop} {w : World}
    (data : Bytes) (h : FileAt ino f.fd D O w) :
    (f.WriteUnbuffered strerror data w).Sat
      (fun st w' => ∃ used p, w.choices = used ++ w'.choices ∧ p <+: data ∧
        FileAt ino f.fd (D ++ p) (Ext O D (D ++ p)) w' ∧ Writes f.fd w w' ∧
        ((st = .ok ∧ p = data ∧ NoFailure used) ∨ Failed strerror f.filename used st))
      (fun w' => ∃ p, p <+: data ∧ FileAt ino f.fd (D ++ p) (Ext O D (D ++ p)) w' ∧ Writes f.fd w w') :=
  writeLoop_sat strerror f.filename _ data D O w (by omega) h

theorem FlushBuffer_sat {ino : Nat} {f : WFile} {D b : Bytes} {O : Bytes → Prop} {w : World}
    (h : FileAt ino f.fd D O w) (hb : BufHas f b) :
    (f.FlushBuffer strerror w).Sat
      (fun r w' => ∃ used p, w.choices = used ++ w'.choices ∧ p <+: b ∧
        FileAt ino f.fd (D ++ p) (Ext O D (D ++ p)) w' ∧ Writes f.fd w w' ∧ r.2 = { f with pos := 0 } ∧
        ((r.1 = .ok ∧ p = b ∧ NoFailure used) ∨ Failed strerror f.filename used r.1))
      (fun w' => ∃ p, p <+: b ∧ FileAt ino f.fd (D ++ p) (Ext O D (D ++ p)) w' ∧ Writes f.fd w w') := by
  unfold WFile.FlushBuffer
  apply Out.Sat.bind
  apply Out.Sat.pureM hb.load
  apply Out.Sat.bind
  apply (WriteUnbuffered_sat strerror b h).mono
  · rintro st w1 ⟨used, p, h1, h2, h3, h4, h5⟩
    exact ⟨used, p, h1, h2, h3, h4, rfl, h5⟩
  · intro w1 h1; exact h1

theorem NoFailure.append {a b : List Choice} (ha : NoFailure a) (hb : NoFailure b) : NoFailure (a ++ b) := by
  intro c hc
  rcases List.mem_append.1 hc with hc | hc
  · exact ha c hc
  · exact hb c hc

theorem Failed.left {context : Bytes} {a : List Choice} {st : St} (h : Failed strerror context a st)
    (b : List Choice) : Failed strerror context (a ++ b) st := by
  obtain ⟨e, c, h1, h2⟩ := h
  exact ⟨e, c, List.mem_append_left _ h1, h2⟩

theorem Failed.right {context : Bytes} {b : List Choice} {st : St} (h : Failed strerror context b st)
    (a : List Choice) : Failed strerror context (a ++ b) st := by
  obtain ⟨e, c, h1, h2⟩ := h
  exact ⟨e, c, List.mem_append_right _ h1, h2⟩

theorem Append_sat {ino : Nat} {f : WFile} {D b : Bytes} {O : Bytes → Prop} {w : World} (d : Slice)
    (hd : d.WF) (h : FileAt ino f.fd D O w) (hb : BufHas f b) :
    (f.Append strerror d w).Sat
      (fun r w' => ∃ used p b', w.choices = used ++ w'.choices ∧ p <+: b ++ d.bytes ∧
        FileAt ino f.fd (D ++ p) (Ext O D (D ++ p)) w' ∧ Writes f.fd w w' ∧ Same f r.2 ∧ BufHas r.2 b' ∧
        ((r.1 = .ok ∧ p ++ b' = b ++ d.bytes ∧ NoFailure used) ∨ Failed strerror f.filename used r.1))
      (fun w' => ∃ p, p <+: b ++ d.bytes ∧ FileAt ino f.fd (D ++ p) (Ext O D (D ++ p)) w' ∧
        Writes f.fd w w') := by
  unfold WFile.Append
  apply Out.Sat.bind
  apply Out.Sat.pureM (toString_ok hd)
  have hl : d.bytes.length = d.len := bytes_len hd
  generalize hc : min d.len (kWritableFileBufferSize - f.pos) = copy
  have hle := hb.le
  have hst : f.pos + (d.bytes.take copy).length ≤ kWritableFileBufferSize := by
    simp; omega
  have hcl : (d.bytes.take copy).length = copy := by simp; omega
  apply Out.Sat.bind
  apply Out.Sat.pureM (store_ok hst)
  simp only []
  have hb1 := hb.append hst
  rw [hcl] at hb1
  rw [hcl]
  generalize hf1 : ({ f with
      buf := fun i => if f.pos ≤ i ∧ i < f.pos + copy then (List.take copy d.bytes)[i - f.pos]? else f.buf i
      pos := f.pos + copy } : WFile) = f1 at hb1 ⊢
  have hs1 : Same f f1 := by subst hf1; exact Same.refl f
  have hname : f1.filename = f.filename := hs1.2.2.1
  by_cases hz : d.len - copy = 0
  · simp only [hz, if_true]
    have htake : d.bytes.take copy = d.bytes := by rw [List.take_of_length_le]; omega
    refine ⟨[], [], b ++ d.bytes.take copy, by simp, List.nil_prefix, ?_, Writes.refl _ _, hs1, hb1, ?_⟩
    · rw [List.append_nil]; exact h.mono (fun c hc => .inl hc)
    · left; exact ⟨rfl, by rw [htake]; rfl, by simp [NoFailure]⟩
  · simp only [hz, if_false]
    apply Out.Sat.bind
    have h1 : FileAt ino f1.fd D O w := by rw [hs1.1]; exact h
    have hpre1 : b ++ d.bytes.take copy <+: b ++ d.bytes :=
      (List.prefix_append_right_inj _).2 (List.take_prefix _ _)
    apply (FlushBuffer_sat strerror h1 hb1).mono
    · rintro ⟨st, f2⟩ w1 ⟨used, p, e1, e2, e3, e4, e5, e6⟩
      simp only at e5 e6 ⊢
      have hs2 : Same f f2 := by rw [e5]; exact hs1
      have hb2 : BufHas f2 [] := by rw [e5]; exact BufHas.zero f1
      rw [hs1.1] at e3 e4
      rw [hname] at e6
      rcases e6 with ⟨rfl, rfl, e6⟩ | e6
      · simp only [ne_eq, not_true_eq_false, if_false]
        have hdl : (d.bytes.drop copy).length = d.len - copy := by simp [hl]
        by_cases hsm : d.len - copy < kWritableFileBufferSize
        · simp only [hsm, if_true]
          apply Out.Sat.bind
          apply Out.Sat.pureM (store_ok (by omega))
          have hb3 := BufHas.fresh f2 (d.bytes.drop copy) (by omega)
          rw [hdl] at hb3
          rw [hdl]
          refine ⟨used, b ++ d.bytes.take copy, d.bytes.drop copy, e1, hpre1, e3, e4, hs2, hb3, ?_⟩
          left
          exact ⟨rfl, by rw [List.append_assoc, List.take_append_drop], e6⟩
        · simp only [hsm, if_false]
          apply Out.Sat.bind
          have e3' : FileAt ino f2.fd (D ++ (b ++ d.bytes.take copy))
            (Ext O D (D ++ (b ++ d.bytes.take copy))) w1 := by rw [hs2.1]; exact e3
          have hcat : ∀ q, D ++ (b ++ d.bytes.take copy) ++ q = D ++ (b ++ d.bytes.take copy ++ q) :=
            fun q => List.append_assoc _ _ _
          have hpre2 : ∀ q, q <+: d.bytes.drop copy → b ++ d.bytes.take copy ++ q <+: b ++ d.bytes := by
            intro q hq
            have := (List.prefix_append_right_inj (b ++ d.bytes.take copy)).2 hq
            rwa [List.append_assoc b _ (List.drop _ _), List.take_append_drop] at this
          apply (WriteUnbuffered_sat strerror (d.bytes.drop copy) e3').mono
          · rintro st w2 ⟨used2, q, a1, a2, a3, a4, a5⟩
            rw [hs2.1] at a3 a4
            rw [hs2.2.2.1] at a5
            rw [hcat] at a3
            refine ⟨used ++ used2, b ++ d.bytes.take copy ++ q, [], by rw [e1, a1, List.append_assoc],
              hpre2 q a2, a3.mono ?_, e4.trans a4, hs2, hb2, ?_⟩
            · intro c hc
              exact hc.trans (List.prefix_append _ _) (by rw [← hcat]; exact List.prefix_append _ _)
            · rcases a5 with ⟨rfl, rfl, a5⟩ | a5
              · left
                refine ⟨rfl, by rw [List.append_nil, List.append_assoc, List.take_append_drop], e6.append a5⟩
              · right; exact Failed.right strerror a5 _
          · rintro w2 ⟨q, a2, a3, a4⟩
            rw [hs2.1] at a3 a4
            rw [hcat] at a3
            refine ⟨_, hpre2 q a2, a3.mono ?_, e4.trans a4⟩
            intro c hc
            exact hc.trans (List.prefix_append _ _) (by rw [← hcat]; exact List.prefix_append _ _)
      · have hne := e6.ne_ok
        simp only [ne_eq, hne, not_false_eq_true, if_true]
        exact ⟨used, p, [], e1, e2.trans hpre1, e3, e4, hs2, hb2, .inr e6⟩
    · rintro w1 ⟨p, e2, e3, e4⟩
      rw [hs1.1] at e3 e4
      exact ⟨p, e2.trans hpre1, e3, e4⟩

/-! ## Other descriptors -/

theorem FileAt.other {ino : Nat} {fd : Int} {D : Bytes} {O : Bytes → Prop} {w : World} {c : Choice}
    {cs : List Choice} (h : FileAt ino fd D O w) (hc : w.choices = c :: cs) (l : List Call) :
    FileAt ino fd D O ⟨c.other w.k, cs, l⟩ := by
  obtain ⟨ha, o, n, h1, h2, h3, h4, h5, h6, h7, h8⟩ := h
  obtain ⟨k1, k2⟩ := ha c (by rw [hc]; exact List.mem_cons_self) w.k
  exact ⟨fun c' hc' => ha c' (by rw [hc]; exact List.mem_cons_of_mem _ hc'), o, n, k2.trans h1, h2, h3, h4,
    k1 n h5, h6, h7, h8⟩

/-- Changes that leave the open file alone. -/
theorem FileAt.frame {ino : Nat} {fd : Int} {D : Bytes} {O : Bytes → Prop} {w w' : World}
    (h : FileAt ino fd D O w) (h1 : w'.choices = w.choices) (h2 : w'.k.ofd fd = w.k.ofd fd)
    (h3 : w'.k.inodes[ino]? = w.k.inodes[ino]?) : FileAt ino fd D O w' := by
  obtain ⟨ha, o, n, e1, e2, e3, e4, e5, e6, e7, e8⟩ := h
  exact ⟨by rw [h1]; exact ha, o, n, h2.trans e1, e2, e3, e4, h3.trans e5, e6, e7, e8⟩

theorem FileAt.ofd_some {ino : Nat} {fd : Int} {D : Bytes} {O : Bytes → Prop} {w : World}
    (h : FileAt ino fd D O w) : ∃ o, w.k.ofd fd = some o := by
  obtain ⟨_, o, _, h1, _⟩ := h
  exact ⟨o, h1⟩

theorem freeFd_ne {k : Kernel} {fd : Int} {o : Ofd} (h : k.ofd fd = some o) :
    fd.toNat ≠ Kernel.freeFd k.fds := by
  intro e
  obtain ⟨_, h1⟩ := toNat_lt_of_ofd h
  rw [e] at h1
  rcases freeFd_none k.fds with h2 | h2 <;> rw [h2] at h1 <;> exact nomatch h1

theorem ofd_putFd {k k' : Kernel} {fd : Int} {o o' : Ofd} (h : k.ofd fd = some o)
    (hk : k'.fds = Kernel.putFd k.fds (Kernel.freeFd k.fds) o') : k'.ofd fd = k.ofd fd := by
  unfold Kernel.ofd
  split
  · rfl
  · rw [hk, putFd_get_other _ _ _ (freeFd_ne h)]

theorem kopen_fd {m : Mode} {p : Bytes} {k : Kernel} {fd : Int} (h : (kopen m p k).1 = .ok fd) :
    fd = (Kernel.freeFd k.fds : Nat) := by
  unfold kopen at h
  by_cases h0 : p = []
  · rw [if_pos h0] at h; exact nomatch h
  · rw [if_neg h0] at h
    cases hl : k.lookup p with
    | none =>
      rw [hl] at h
      simp only at h
      by_cases hc : m.creat = true
      · rw [if_pos hc] at h; injection h with h; exact h.symm
      · rw [if_neg hc] at h; exact nomatch h
    | some i =>
      rw [hl] at h
      simp only at h
      cases hn : k.inodes[i]? with
      | none => rw [hn] at h; exact nomatch h
      | some n =>
        rw [hn] at h
        simp only at h
        by_cases hd : n.dir = true ∧ m ≠ .rdonly
        · rw [if_pos hd] at h; exact nomatch h
        · rw [if_neg hd] at h; injection h with h; exact h.symm

/-- Opening another file read-only. -/
theorem sysOpen_rdonly_sat {ino : Nat} {fd : Int} {D : Bytes} {O : Bytes → Prop} {w : World} (path : Bytes)
    (h : FileAt ino fd D O w) :
    (sysOpen .rdonly path w).Sat
      (fun r w' => (∃ c, w.choices = c :: w'.choices) ∧ FileAt ino fd D O w' ∧
        w'.calls = w.calls ++ [.open path (val r)] ∧ ∀ fd', r = .ok fd' → fd'.toNat ≠ fd.toNat)
      (fun w' => FileAt ino fd D O w' ∧ w'.calls = w.calls) := by
  apply Out.Sat.sys
  · intro _; exact ⟨h, rfl⟩
  · intro c cs hcs
    have h1 := h.other hcs []
    obtain ⟨o, ho⟩ := h1.ofd_some
    simp only at ho
    refine ⟨⟨c, hcs⟩, ?_⟩
    cases hf : c.fail with
    | some e => exact ⟨h1.frame rfl rfl rfl, rfl, fun fd' e => nomatch e⟩
    | none =>
      refine ⟨?_, rfl, ?_⟩
      · simp only []
        unfold kopen
        split
        · exact h1.frame rfl rfl rfl
        · simp only [Mode.creat]
          split
          · exact h1.frame rfl rfl rfl
          · split
            · exact h1.frame rfl rfl rfl
            · split
              · exact h1.frame rfl rfl rfl
              · refine h1.frame rfl ?_ rfl
                exact ofd_putFd (k := c.other w.k) ho rfl
      · intro fd' hr
        rw [kopen_fd hr]
        exact fun e => freeFd_ne ho e.symm

/-- Syncing through another descriptor. -/
theorem sysSync_other_sat {ino : Nat} {fd fd' : Int} {D : Bytes} {O : Bytes → Prop} {w : World}
    (h : FileAt ino fd D O w) :
    (sysSync fd' w).Sat
      (fun r w' => (∃ c, w.choices = c :: w'.choices) ∧ FileAt ino fd D O w' ∧
        w'.calls = w.calls ++ [.sync fd' (fine r)])
      (fun w' => FileAt ino fd D O w' ∧ w'.calls = w.calls) := by
  apply Out.Sat.sys
  · intro _; exact ⟨h, rfl⟩
  · intro c cs hcs
    have h1 := h.other hcs []
    refine ⟨⟨c, hcs⟩, ?_, rfl⟩
    cases hf : c.fail with
    | some e => exact h1.frame rfl rfl rfl
    | none =>
      simp only []
      unfold ksync
      split
      · exact h1.frame rfl rfl rfl
      · split
        · exact h1.frame rfl rfl rfl
        · rename_i i _ _ n hn
          split
          · exact h1.frame rfl rfl rfl
          · obtain ⟨ha, o, n', e1, e2, e3, e4, e5, e6, e7, e8⟩ := h1
            simp only at e5
            by_cases hii : i = ino
            · subst hii
              rw [hn] at e5
              injection e5 with e5
              subst e5
              have hlt : i < (c.other w.k).inodes.length := by
                rcases Nat.lt_or_ge i (c.other w.k).inodes.length with h | h
                · exact h
                · rw [List.getElem?_eq_none h] at hn; exact nomatch hn
              exact ⟨ha, o, { n with old := [] }, e1, e2, e3, e4, List.getElem?_set_self hlt, e6, e7,
                fun c hc => nomatch hc⟩
            · exact ⟨ha, o, n', e1, e2, e3, e4, (List.getElem?_set_ne hii).trans e5, e6, e7, e8⟩

/-- Closing another descriptor. -/
theorem sysClose_other_sat {ino : Nat} {fd fd' : Int} {D : Bytes} {O : Bytes → Prop} {w : World}
    (h : FileAt ino fd D O w) (hne : fd'.toNat ≠ fd.toNat) :
    (sysClose fd' w).Sat
      (fun r w' => (∃ c, w.choices = c :: w'.choices) ∧ FileAt ino fd D O w' ∧
        w'.calls = w.calls ++ [.close fd' (errOf r)])
      (fun w' => FileAt ino fd D O w' ∧ w'.calls = w.calls) := by
  apply Out.Sat.sys
  · intro _; exact ⟨h, rfl⟩
  · intro c cs hcs
    have h1 := h.other hcs []
    refine ⟨⟨c, hcs⟩, ?_, rfl⟩
    split
    · exact h1.frame rfl rfl rfl
    · split <;> exact h1.frame rfl (ofd_set_other (Ne.symm hne)) rfl

/-- Syncing the file itself. -/
theorem sysSync_self_sat {ino : Nat} {fd : Int} {D : Bytes} {O : Bytes → Prop} {w : World}
    (h : FileAt ino fd D O w) :
    (sysSync fd w).Sat
      (fun r w' => ∃ c, w.choices = c :: w'.choices ∧ w'.calls = w.calls ++ [.sync fd (fine r)] ∧
        ((r = .ok () ∧ c.fail = none ∧ FileAt ino fd D (fun _ => False) w') ∨
          ∃ e, r = .error e ∧ c.fail = some e ∧ FileAt ino fd D O w'))
      (fun w' => FileAt ino fd D O w' ∧ w'.calls = w.calls) := by
  apply Out.Sat.sys
  · intro _; exact ⟨h, rfl⟩
  · intro c cs hcs
    have h1 := h.other hcs []
    refine ⟨c, hcs, rfl, ?_⟩
    cases hf : c.fail with
    | some e => right; exact ⟨e, rfl, rfl, h1.frame rfl rfl rfl⟩
    | none =>
      left
      obtain ⟨ha, o, n, e1, e2, e3, e4, e5, e6, e7, e8⟩ := h1
      simp only at e1 e5
      have hlt : ino < (c.other w.k).inodes.length := by
        rcases Nat.lt_or_ge ino (c.other w.k).inodes.length with h | h
        · exact h
        · rw [List.getElem?_eq_none h] at e5; exact nomatch e5
      have hks : ksync fd (c.other w.k) =
          (.ok (), { c.other w.k with inodes := (c.other w.k).inodes.set ino { n with old := [] } }) := by
        unfold ksync Kernel.inodeOf
        rw [e1]
        simp only [Option.map_some, e2, e5, e6]
        rfl
      simp only [hks]
      exact ⟨trivial, trivial, ha, o, { n with old := [] }, e1, e2, e3, e4, List.getElem?_set_self hlt, e6, e7,
        fun c hc => nomatch hc⟩

end Posix
end Lsmdb
