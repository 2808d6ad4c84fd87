import Verif.Proof.PosixOps

/-! # PosixWritableFile: Sync, Close, histories -/

namespace Lsmdb
namespace Posix

open MemEnv (St lit)

variable (strerror : Strerror) (full : Bool)

/-- The file contains `D`, and older contents that a crash could bring back satisfy `O`; nobody else
writes to it. -/
structure InoAt (ino : Nat) (D : Bytes) (O : Bytes → Prop) (w : World) : Prop where
  alone : ∀ c ∈ w.choices, ∀ k n, k.inodes[ino]? = some n → (c.other k).inodes[ino]? = some n
  ex : ∃ n, w.k.inodes[ino]? = some n ∧ n.dir = false ∧ n.data = D ∧ ∀ c ∈ n.old, O c

theorem FileAt.ino {ino : Nat} {fd : Int} {D : Bytes} {O : Bytes → Prop} {w : World}
    (h : FileAt ino fd D O w) : InoAt ino D O w := by
  obtain ⟨ha, o, n, h1, h2, h3, h4, h5, h6, h7, h8⟩ := h
  exact ⟨fun c hc k => (ha c hc k).1, n, h5, h6, h7, h8⟩

theorem InoAt.mono {ino : Nat} {D : Bytes} {O O' : Bytes → Prop} {w : World}
    (h : InoAt ino D O w) (ho : ∀ c, O c → O' c) : InoAt ino D O' w := by
  obtain ⟨ha, n, h5, h6, h7, h8⟩ := h
  exact ⟨ha, n, h5, h6, h7, fun c hc => ho c (h8 c hc)⟩

theorem InoAt.frame {ino : Nat} {D : Bytes} {O : Bytes → Prop} {w w' : World}
    (h : InoAt ino D O w) (h1 : w'.choices = w.choices)
    (h3 : w'.k.inodes[ino]? = w.k.inodes[ino]?) : InoAt ino D O w' := by
  obtain ⟨ha, n, e5, e6, e7, e8⟩ := h
  exact ⟨by rw [h1]; exact ha, n, h3.trans e5, e6, e7, e8⟩

theorem InoAt.other {ino : Nat} {D : Bytes} {O : Bytes → Prop} {w : World} {c : Choice}
    {cs : List Choice} (h : InoAt ino D O w) (hc : w.choices = c :: cs) (l : List Call) :
    InoAt ino D O ⟨c.other w.k, cs, l⟩ := by
  obtain ⟨ha, n, h5, h6, h7, h8⟩ := h
  have k1 := ha c (by rw [hc]; exact List.mem_cons_self) w.k
  exact ⟨fun c' hc' => ha c' (by rw [hc]; exact List.mem_cons_of_mem _ hc'), n, k1 n h5, h6, h7, h8⟩

theorem Ext.left {O : Bytes → Prop} {D D' c : Bytes} (h : O c) : Ext O D D' c := .inl h

/-! ## Sync -/

theorem SyncFd_other_sat {ino : Nat} {fd fd' : Int} {D path : Bytes} {O : Bytes → Prop} {w : World}
    (h : FileAt ino fd D O w) :
    (SyncFd strerror full fd' path w).Sat (fun _ w' => FileAt ino fd D O w') (fun w' => FileAt ino fd D O w') := by
  have h2 : ∀ w1, FileAt ino fd D O w1 →
      ((do match ← sysSync fd' with
            | .ok _ => return .ok
            | .error e => return PosixError strerror path e : P St) w1).Sat
        (fun _ w' => FileAt ino fd D O w') (fun w' => FileAt ino fd D O w') := by
    intro w1 h1
    apply Out.Sat.bind
    apply (sysSync_other_sat h1).mono
    · rintro r w2 ⟨_, h2, _⟩
      cases r <;> exact h2
    · rintro w2 ⟨h2, _⟩; exact h2
  unfold SyncFd
  cases full with
  | true =>
    simp only [if_true]
    apply Out.Sat.bind
    apply (sysSync_other_sat h).mono
    · rintro r w1 ⟨_, h1, _⟩
      cases r with
      | ok _ => exact h1
      | error e => exact h2 w1 h1
    · rintro w1 ⟨h1, _⟩; exact h1
  | false => simp only [Bool.false_eq_true, if_false]; exact h2 w h

theorem SyncFd_self_sat {ino : Nat} {fd : Int} {D path : Bytes} {O : Bytes → Prop} {w : World}
    (h : FileAt ino fd D O w) :
    (SyncFd strerror full fd path w).Sat
      (fun st w' => FileAt ino fd D O w' ∧ (st = .ok → FileAt ino fd D (fun _ => False) w'))
      (fun w' => FileAt ino fd D O w') := by
  have h2 : ∀ w1, FileAt ino fd D O w1 →
      ((do match ← sysSync fd with
            | .ok _ => return .ok
            | .error e => return PosixError strerror path e : P St) w1).Sat
        (fun st w' => FileAt ino fd D O w' ∧ (st = .ok → FileAt ino fd D (fun _ => False) w'))
        (fun w' => FileAt ino fd D O w') := by
    intro w1 h1
    apply Out.Sat.bind
    apply (sysSync_self_sat h1).mono
    · rintro r w2 ⟨c, _, _, ⟨rfl, _, h2⟩ | ⟨e, rfl, _, h2⟩⟩
      · exact ⟨h2.mono (fun c hc => hc.elim), fun _ => h2⟩
      · exact ⟨h2, fun he => absurd he (PosixError_ne_ok _ _ _)⟩
    · rintro w2 ⟨h2, _⟩; exact h2
  unfold SyncFd
  cases full with
  | true =>
    simp only [if_true]
    apply Out.Sat.bind
    apply (sysSync_self_sat h).mono
    · rintro r w1 ⟨c, _, _, ⟨rfl, _, h1⟩ | ⟨e, rfl, _, h1⟩⟩
      · exact ⟨h1.mono (fun c hc => hc.elim), fun _ => h1⟩
      · exact h2 w1 h1
    · rintro w1 ⟨h1, _⟩; exact h1
  | false => simp only [Bool.false_eq_true, if_false]; exact h2 w h

theorem SyncDir_sat {ino : Nat} {f : WFile} {D : Bytes} {O : Bytes → Prop} {w : World}
    (h : FileAt ino f.fd D O w) :
    (f.SyncDirIfManifest strerror full w).Sat (fun _ w' => FileAt ino f.fd D O w')
      (fun w' => FileAt ino f.fd D O w') := by
  unfold WFile.SyncDirIfManifest
  split
  · apply Out.Sat.bind
    apply (sysOpen_rdonly_sat f.dirname h).mono
    · rintro r w1 ⟨_, h1, _, hne⟩
      cases r with
      | error e => exact h1
      | ok fd' =>
        simp only []
        apply Out.Sat.bind
        apply (SyncFd_other_sat strerror full h1).mono
        · intro st w2 h2
          apply Out.Sat.bind
          apply (sysClose_other_sat h2 (hne fd' rfl)).mono
          · rintro r w3 ⟨_, h3, _⟩; exact h3
          · rintro w3 ⟨h3, _⟩; exact h3
        · intro w2 h2; exact h2
    · rintro w1 ⟨h1, _⟩; exact h1
  · exact h

theorem Sync_sat {ino : Nat} {f : WFile} {D b : Bytes} {O : Bytes → Prop} {w : World}
    (h : FileAt ino f.fd D O w) (hb : BufHas f b) :
    (f.Sync strerror full w).Sat
      (fun r w' => ∃ p b', p <+: b ∧ FileAt ino f.fd (D ++ p) (Ext O D (D ++ p)) w' ∧ Same f r.2 ∧
        BufHas r.2 b' ∧ (r.1 = .ok → p = b ∧ b' = [] ∧ FileAt ino f.fd (D ++ b) (fun _ => False) w'))
      (fun w' => ∃ p, p <+: b ∧ FileAt ino f.fd (D ++ p) (Ext O D (D ++ p)) w') := by
  have h0 : ∀ w1, FileAt ino f.fd D O w1 → FileAt ino f.fd (D ++ []) (Ext O D (D ++ [])) w1 := by
    intro w1 h1; rw [List.append_nil]; exact h1.mono (fun c hc => .inl hc)
  unfold WFile.Sync
  apply Out.Sat.bind
  apply (SyncDir_sat strerror full h).mono
  · intro st w1 h1
    by_cases hst : st = .ok
    · subst hst
      simp only [ne_eq, not_true_eq_false, if_false]
      apply Out.Sat.bind
      apply (FlushBuffer_sat strerror h1 hb).mono
      · rintro ⟨st, f2⟩ w2 ⟨used, p, e1, e2, e3, e4, e5, e6⟩
        simp only at e5 e6 ⊢
        subst e5
        rcases e6 with ⟨rfl, rfl, e6⟩ | e6
        · simp only [ne_eq, not_true_eq_false, if_false]
          apply Out.Sat.bind
          apply (SyncFd_self_sat strerror full e3).mono
          · rintro st w3 ⟨a1, a2⟩
            exact ⟨p, [], List.prefix_refl _, a1, Same.refl f, BufHas.zero f, fun e => ⟨rfl, rfl, a2 e⟩⟩
          · intro w3 a1
            exact ⟨p, List.prefix_refl _, a1⟩
        · have hne := e6.ne_ok
          simp only [ne_eq, hne, not_false_eq_true, if_true]
          exact ⟨p, [], e2, e3, Same.refl f, BufHas.zero f, fun e => absurd e hne⟩
      · rintro w2 ⟨p, e2, e3, _⟩
        exact ⟨p, e2, e3⟩
    · simp only [ne_eq, hst, not_false_eq_true, if_true]
      exact ⟨[], b, List.nil_prefix, h0 w1 h1, Same.refl f, hb, fun e => absurd e hst⟩
  · intro w1 h1
    exact ⟨[], List.nil_prefix, h0 w1 h1⟩

/-! ## Close -/

theorem sysClose_ino_sat {ino : Nat} {fd : Int} {D : Bytes} {O : Bytes → Prop} {w : World}
    (h : InoAt ino D O w) :
    (sysClose fd w).Sat (fun _ w' => InoAt ino D O w') (fun w' => InoAt ino D O w') := by
  apply Out.Sat.sys
  · intro _; exact h
  · intro c cs hcs
    have h1 := h.other hcs []
    split
    · exact h1.frame rfl rfl
    · split <;> exact h1.frame rfl rfl

theorem Close_sat {ino : Nat} {f : WFile} {D b : Bytes} {O : Bytes → Prop} {w : World}
    (h : FileAt ino f.fd D O w) (hb : BufHas f b) :
    (f.Close strerror w).Sat
      (fun r w' => ∃ p, p <+: b ∧ InoAt ino (D ++ p) (Ext O D (D ++ p)) w' ∧
        r.2 = { f with pos := 0, fd := -1 } ∧ (r.1 = .ok → p = b))
      (fun w' => ∃ p, p <+: b ∧ InoAt ino (D ++ p) (Ext O D (D ++ p)) w') := by
  unfold WFile.Close
  apply Out.Sat.bind
  apply (FlushBuffer_sat strerror h hb).mono
  · rintro ⟨st, f2⟩ w2 ⟨used, p, e1, e2, e3, e4, e5, e6⟩
    simp only at e5 e6 ⊢
    subst e5
    apply Out.Sat.bind
    apply (sysClose_ino_sat e3.ino).mono
    · intro r w3 h3
      refine ⟨p, e2, h3, rfl, ?_⟩
      rcases e6 with ⟨rfl, rfl, e6⟩ | e6
      · intro _; rfl
      · intro he
        exfalso
        have hne := e6.ne_ok
        cases r with
        | ok _ => exact hne he
        | error e => simp only [hne, if_false] at he
    · intro w3 h3
      exact ⟨p, e2, h3⟩
  · rintro w2 ⟨p, e2, e3, _⟩
    exact ⟨p, e2, e3.ino⟩

/-! ## After Close -/

theorem ofd_neg (k : Kernel) : k.ofd (-1) = none := by unfold Kernel.ofd; rfl

theorem sysWrite_closed_sat {ino : Nat} {D d : Bytes} {O : Bytes → Prop} {w : World}
    (h : InoAt ino D O w) :
    (sysWrite (-1) d w).Sat (fun r w' => w.choices.length = w'.choices.length + 1 ∧ (∃ e, r = .error e) ∧
      InoAt ino D O w') (fun w' => InoAt ino D O w') := by
  apply Out.Sat.sys
  · intro _; exact h
  · intro c cs hcs
    have h1 := h.other hcs []
    refine ⟨by rw [hcs]; rfl, ?_⟩
    cases hf : c.fail with
    | some e => exact ⟨⟨e, rfl⟩, h1.frame rfl rfl⟩
    | none =>
      simp only [kwrite, ofd_neg]
      exact ⟨⟨_, rfl⟩, h1.frame rfl rfl⟩

theorem writeLoop_closed_sat (name : Bytes) {ino : Nat} {D : Bytes} {O : Bytes → Prop} :
    ∀ (fuel : Nat) (data : Bytes) (w : World), w.choices.length < fuel → InoAt ino D O w →
      (writeLoop strerror (-1) name fuel data w).Sat
        (fun st w' => InoAt ino D O w' ∧ (data ≠ [] → st ≠ .ok)) (fun w' => InoAt ino D O w') := by
  intro fuel
  induction fuel with
  | zero => intro _ _ h; omega
  | succ fuel ih =>
    intro data w hfuel h
    unfold writeLoop
    by_cases hd : data.length > 0
    · rw [if_pos hd]
      apply Out.Sat.bind
      apply (sysWrite_closed_sat h).mono
      · rintro r w1 ⟨hl, ⟨e, rfl⟩, h1⟩
        simp only []
        split
        · exact ih data w1 (by omega) h1
        · exact ⟨h1, fun _ => PosixError_ne_ok _ _ _⟩
      · intro w1 h1; exact h1
    · rw [if_neg hd]
      refine ⟨h, fun hne => absurd (List.eq_nil_of_length_eq_zero (by omega)) hne⟩

theorem WriteUnbuffered_closed_sat {ino : Nat} {f : WFile} {D : Bytes} {O : Bytes → Prop} {w : World}
    (data : Bytes) (hf : f.fd = -1) (h : InoAt ino D O w) :
    (f.WriteUnbuffered strerror data w).Sat
      (fun st w' => InoAt ino D O w' ∧ (data ≠ [] → st ≠ .ok)) (fun w' => InoAt ino D O w') := by
  unfold WFile.WriteUnbuffered
  rw [hf]
  exact writeLoop_closed_sat strerror _ _ _ _ (by omega) h

theorem FlushBuffer_closed_sat {ino : Nat} {f : WFile} {D b : Bytes} {O : Bytes → Prop} {w : World}
    (hf : f.fd = -1) (h : InoAt ino D O w) (hb : BufHas f b) :
    (f.FlushBuffer strerror w).Sat
      (fun r w' => InoAt ino D O w' ∧ r.2 = { f with pos := 0 } ∧ (b ≠ [] → r.1 ≠ .ok))
      (fun w' => InoAt ino D O w') := by
  unfold WFile.FlushBuffer
  apply Out.Sat.bind
  apply Out.Sat.pureM hb.load
  apply Out.Sat.bind
  apply (WriteUnbuffered_closed_sat strerror b hf h).mono
  · rintro st w1 ⟨h1, h2⟩
    exact ⟨h1, rfl, h2⟩
  · intro w1 h1; exact h1

theorem Append_closed_sat {ino : Nat} {f : WFile} {D b : Bytes} {O : Bytes → Prop} {w : World} (d : Slice)
    (hd : d.WF) (hf : f.fd = -1) (h : InoAt ino D O w) (hb : BufHas f b) :
    (f.Append strerror d w).Sat
      (fun r w' => ∃ b', InoAt ino D O w' ∧ r.2.fd = -1 ∧ BufHas r.2 b' ∧
        (b.length + d.len ≤ kWritableFileBufferSize → r.1 = .ok ∧ b' = b ++ d.bytes ∧ w' = w) ∧
        (b.length + d.len > kWritableFileBufferSize → r.1 ≠ .ok))
      (fun w' => InoAt ino D O w' ∧ b.length + d.len > kWritableFileBufferSize) := by
  unfold WFile.Append
  apply Out.Sat.bind
  apply Out.Sat.pureM (toString_ok hd)
  have hl : d.bytes.length = d.len := bytes_len hd
  have hbl := hb.len
  generalize hc : min d.len (kWritableFileBufferSize - f.pos) = copy
  have hle := hb.le
  have hst : f.pos + (d.bytes.take copy).length ≤ kWritableFileBufferSize := by
    simp; omega
  have hcl : (d.bytes.take copy).length = copy := by simp; omega
  apply Out.Sat.bind
  apply Out.Sat.pureM (store_ok hst)
  simp only []
  have hb1 := hb.append hst
  rw [hcl] at hb1
  rw [hcl]
  generalize hf1 : ({ f with
      buf := fun i => if f.pos ≤ i ∧ i < f.pos + copy then (List.take copy d.bytes)[i - f.pos]? else f.buf i
      pos := f.pos + copy } : WFile) = f1 at hb1 ⊢
  have hs1 : f1.fd = -1 := by subst hf1; exact hf
  by_cases hz : d.len - copy = 0
  · simp only [hz, if_true]
    have htake : d.bytes.take copy = d.bytes := by rw [List.take_of_length_le]; omega
    refine ⟨b ++ d.bytes.take copy, h, hs1, hb1, fun _ => ⟨rfl, by rw [htake], rfl⟩, ?_⟩
    intro hgt; omega
  · simp only [hz, if_false]
    have hgt : b.length + d.len > kWritableFileBufferSize := by omega
    have hpos : b ++ d.bytes.take copy ≠ [] := by
      intro e
      have := congrArg List.length e
      rw [List.length_append, hcl] at this
      simp only [List.length_nil, kWritableFileBufferSize] at *
      omega
    apply Out.Sat.bind
    apply (FlushBuffer_closed_sat strerror hs1 h hb1).mono
    · rintro ⟨st, f2⟩ w1 ⟨e1, e2, e3⟩
      simp only at e2 e3 ⊢
      have hne := e3 hpos
      simp only [ne_eq, hne, not_false_eq_true, if_true]
      refine ⟨[], e1, by rw [e2]; exact hs1, by rw [e2]; exact BufHas.zero f1, fun h => by omega, fun _ => hne⟩
    · intro w1 e1; exact ⟨e1, hgt⟩

theorem sysSync_closed_sat {ino : Nat} {D : Bytes} {O : Bytes → Prop} {w : World}
    (h : InoAt ino D O w) :
    (sysSync (-1) w).Sat (fun r w' => (∃ e, r = .error e) ∧ InoAt ino D O w') (fun w' => InoAt ino D O w') := by
  apply Out.Sat.sys
  · intro _; exact h
  · intro c cs hcs
    have h1 := h.other hcs []
    cases hf : c.fail with
    | some e => exact ⟨⟨e, rfl⟩, h1.frame rfl rfl⟩
    | none =>
      simp only [ksync, Kernel.inodeOf, ofd_neg, Option.map_none]
      exact ⟨⟨_, rfl⟩, h1.frame rfl rfl⟩

theorem SyncFd_closed_sat {ino : Nat} {D path : Bytes} {O : Bytes → Prop} {w : World}
    (h : InoAt ino D O w) :
    (SyncFd strerror full (-1) path w).Sat (fun st w' => st ≠ .ok ∧ InoAt ino D O w')
      (fun w' => InoAt ino D O w') := by
  have h2 : ∀ w1, InoAt ino D O w1 →
      ((do match ← sysSync (-1) with
            | .ok _ => return .ok
            | .error e => return PosixError strerror path e : P St) w1).Sat
        (fun st w' => st ≠ .ok ∧ InoAt ino D O w') (fun w' => InoAt ino D O w') := by
    intro w1 h1
    apply Out.Sat.bind
    apply (sysSync_closed_sat h1).mono
    · rintro r w2 ⟨⟨e, rfl⟩, h2⟩
      exact ⟨PosixError_ne_ok _ _ _, h2⟩
    · intro w2 h2; exact h2
  unfold SyncFd
  cases full with
  | true =>
    simp only [if_true]
    apply Out.Sat.bind
    apply (sysSync_closed_sat h).mono
    · rintro r w1 ⟨⟨e, rfl⟩, h1⟩
      exact h2 w1 h1
    · intro w1 h1; exact h1
  | false => simp only [Bool.false_eq_true, if_false]; exact h2 w h

theorem sysOpen_ino_sat {ino : Nat} {D : Bytes} {O : Bytes → Prop} {w : World} (path : Bytes)
    (h : InoAt ino D O w) :
    (sysOpen .rdonly path w).Sat (fun _ w' => InoAt ino D O w') (fun w' => InoAt ino D O w') := by
  apply Out.Sat.sys
  · intro _; exact h
  · intro c cs hcs
    have h1 := h.other hcs []
    cases hf : c.fail with
    | some e => exact h1.frame rfl rfl
    | none =>
      simp only []
      unfold kopen
      split
      · exact h1.frame rfl rfl
      · simp only [Mode.creat]
        split
        · exact h1.frame rfl rfl
        · split
          · exact h1.frame rfl rfl
          · split <;> exact h1.frame rfl rfl

theorem sysSync_ino_sat {ino : Nat} {fd' : Int} {D : Bytes} {O : Bytes → Prop} {w : World}
    (h : InoAt ino D O w) :
    (sysSync fd' w).Sat (fun _ w' => InoAt ino D O w') (fun w' => InoAt ino D O w') := by
  apply Out.Sat.sys
  · intro _; exact h
  · intro c cs hcs
    have h1 := h.other hcs []
    cases hf : c.fail with
    | some e => exact h1.frame rfl rfl
    | none =>
      simp only []
      unfold ksync
      split
      · exact h1.frame rfl rfl
      · split
        · exact h1.frame rfl rfl
        · rename_i i _ _ n hn
          split
          · exact h1.frame rfl rfl
          · obtain ⟨ha, n', e5, e6, e7, e8⟩ := h1
            simp only at e5
            by_cases hii : i = ino
            · subst hii
              rw [hn] at e5
              injection e5 with e5
              subst e5
              have hlt : i < (c.other w.k).inodes.length := by
                rcases Nat.lt_or_ge i (c.other w.k).inodes.length with h | h
                · exact h
                · rw [List.getElem?_eq_none h] at hn; exact nomatch hn
              exact ⟨ha, { n with old := [] }, List.getElem?_set_self hlt, e6, e7, fun c hc => nomatch hc⟩
            · exact ⟨ha, n', (List.getElem?_set_ne hii).trans e5, e6, e7, e8⟩

theorem SyncFd_ino_sat {ino : Nat} {fd' : Int} {D path : Bytes} {O : Bytes → Prop} {w : World}
    (h : InoAt ino D O w) :
    (SyncFd strerror full fd' path w).Sat (fun _ w' => InoAt ino D O w') (fun w' => InoAt ino D O w') := by
  have h2 : ∀ w1, InoAt ino D O w1 →
      ((do match ← sysSync fd' with
            | .ok _ => return .ok
            | .error e => return PosixError strerror path e : P St) w1).Sat
        (fun _ w' => InoAt ino D O w') (fun w' => InoAt ino D O w') := by
    intro w1 h1
    apply Out.Sat.bind
    apply (sysSync_ino_sat h1).mono
    · intro r w2 h2
      cases r <;> exact h2
    · intro w2 h2; exact h2
  unfold SyncFd
  cases full with
  | true =>
    simp only [if_true]
    apply Out.Sat.bind
    apply (sysSync_ino_sat h).mono
    · intro r w1 h1
      cases r with
      | ok _ => exact h1
      | error e => exact h2 w1 h1
    · intro w1 h1; exact h1
  | false => simp only [Bool.false_eq_true, if_false]; exact h2 w h

theorem SyncDir_ino_sat {ino : Nat} {f : WFile} {D : Bytes} {O : Bytes → Prop} {w : World}
    (h : InoAt ino D O w) :
    (f.SyncDirIfManifest strerror full w).Sat (fun _ w' => InoAt ino D O w')
      (fun w' => InoAt ino D O w') := by
  unfold WFile.SyncDirIfManifest
  split
  · apply Out.Sat.bind
    apply (sysOpen_ino_sat f.dirname h).mono
    · intro r w1 h1
      cases r with
      | error e => exact h1
      | ok fd' =>
        simp only []
        apply Out.Sat.bind
        apply (SyncFd_ino_sat strerror full h1).mono
        · intro st w2 h2
          apply Out.Sat.bind
          apply (sysClose_ino_sat h2).mono
          · intro r w3 h3; exact h3
          · intro w3 h3; exact h3
        · intro w2 h2; exact h2
    · intro w1 h1; exact h1
  · exact h

theorem Sync_closed_sat {ino : Nat} {f : WFile} {D b : Bytes} {O : Bytes → Prop} {w : World}
    (hf : f.fd = -1) (h : InoAt ino D O w) (hb : BufHas f b) :
    (f.Sync strerror full w).Sat
      (fun r w' => ∃ b', InoAt ino D O w' ∧ r.2.fd = -1 ∧ BufHas r.2 b' ∧ r.1 ≠ .ok)
      (fun w' => InoAt ino D O w') := by
  unfold WFile.Sync
  apply Out.Sat.bind
  apply (SyncDir_ino_sat strerror full h).mono
  · intro st w1 h1
    by_cases hst : st = .ok
    · subst hst
      simp only [ne_eq, not_true_eq_false, if_false]
      apply Out.Sat.bind
      apply (FlushBuffer_closed_sat strerror hf h1 hb).mono
      · rintro ⟨st, f2⟩ w2 ⟨e1, e2, e3⟩
        simp only at e2 e3 ⊢
        subst e2
        by_cases hst : st = .ok
        · subst hst
          simp only [ne_eq, not_true_eq_false, if_false]
          apply Out.Sat.bind
          simp only [hf]
          apply (SyncFd_closed_sat strerror full e1).mono
          · rintro st w3 ⟨a1, a2⟩
            exact ⟨[], a2, rfl, ⟨rfl, Nat.zero_le _, fun i hi => absurd hi (by simp)⟩, a1⟩
          · intro w3 a1; exact a1
        · simp only [ne_eq, hst, not_false_eq_true, if_true]
          exact ⟨[], e1, hf, BufHas.zero f, hst⟩
      · intro w2 e1; exact e1
    · simp only [ne_eq, hst, not_false_eq_true, if_true]
      exact ⟨b, h1, hf, hb, hst⟩
  · intro w1 h1; exact h1

theorem sysClose_closed_sat {ino : Nat} {D : Bytes} {O : Bytes → Prop} {w : World}
    (h : InoAt ino D O w) :
    (sysClose (-1) w).Sat (fun r w' => (∃ e, r = .error e) ∧ InoAt ino D O w') (fun w' => InoAt ino D O w') := by
  apply Out.Sat.sys
  · intro _; exact h
  · intro c cs hcs
    have h1 := h.other hcs []
    simp only [ofd_neg]
    exact ⟨⟨_, rfl⟩, h1.frame rfl rfl⟩

theorem Close_closed_sat {ino : Nat} {f : WFile} {D b : Bytes} {O : Bytes → Prop} {w : World}
    (hf : f.fd = -1) (h : InoAt ino D O w) (hb : BufHas f b) :
    (f.Close strerror w).Sat
      (fun r w' => ∃ b', InoAt ino D O w' ∧ r.2.fd = -1 ∧ BufHas r.2 b' ∧ r.1 ≠ .ok)
      (fun w' => InoAt ino D O w') := by
  unfold WFile.Close
  apply Out.Sat.bind
  apply (FlushBuffer_closed_sat strerror hf h hb).mono
  · rintro ⟨st, f2⟩ w2 ⟨e1, e2, e3⟩
    simp only at e2 e3 ⊢
    subst e2
    simp only [hf]
    apply Out.Sat.bind
    apply (sysClose_closed_sat e1).mono
    · rintro r w3 ⟨⟨e, rfl⟩, h3⟩
      refine ⟨[], h3, rfl, ⟨rfl, Nat.zero_le _, fun i hi => absurd hi (by simp)⟩, ?_⟩
      by_cases hst : st = .ok
      · simp only [hst, if_true]; exact PosixError_ne_ok _ _ _
      · simp only [hst, if_false]; exact hst
    · intro w3 h3; exact h3
  · intro w2 e1; exact e1

end Posix
end Lsmdb
