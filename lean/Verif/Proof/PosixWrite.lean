import Verif.Proof.PosixSat

/-! # PosixWritableFile: writes -/

namespace Lsmdb
namespace Posix

open MemEnv (St lit)

theorem overwrite_end (D d : Bytes) : overwrite D D.length d = D ++ d := by
  simp [overwrite]

/-- File `ino` is open for writing at its end at `fd`, contains `D`, and older contents that a crash could
bring back satisfy `O`; nobody else touches it. -/
structure FileAt (ino : Nat) (fd : Int) (D : Bytes) (O : Bytes → Prop) (w : World) : Prop where
  alone : ∀ c ∈ w.choices, Alone ino fd c
  ex : ∃ o n, w.k.ofd fd = some o ∧ o.ino = ino ∧ o.wr = true ∧ (o.app = true ∨ o.off = D.length) ∧
    w.k.inodes[ino]? = some n ∧ n.dir = false ∧ n.data = D ∧ ∀ c ∈ n.old, O c

/-- Contents between `D` and `D'`, besides those in `O`. -/
def Ext (O : Bytes → Prop) (D D' : Bytes) (c : Bytes) : Prop := O c ∨ (D <+: c ∧ c <+: D')

/-- Only `write` calls on `fd` were made. -/
def Writes (fd : Int) (w w' : World) : Prop :=
  ∃ l, w'.calls = w.calls ++ l ∧ ∀ x ∈ l, ∃ d r, x = Call.write fd d r

theorem Writes.refl (fd : Int) (w : World) : Writes fd w w := ⟨[], by simp, by simp⟩

theorem Writes.trans {fd : Int} {w w' w'' : World} (h : Writes fd w w') (h' : Writes fd w' w'') :
    Writes fd w w'' := by
  obtain ⟨l, e, hl⟩ := h
  obtain ⟨l', e', hl'⟩ := h'
  refine ⟨l ++ l', by rw [e', e, List.append_assoc], ?_⟩
  intro x hx
  rcases List.mem_append.1 hx with hx | hx
  · exact hl x hx
  · exact hl' x hx

theorem FileAt.mono {ino : Nat} {fd : Int} {D : Bytes} {O O' : Bytes → Prop} {w : World}
    (h : FileAt ino fd D O w) (ho : ∀ c, O c → O' c) : FileAt ino fd D O' w := by
  obtain ⟨ha, o, n, h1, h2, h3, h4, h5, h6, h7, h8⟩ := h
  exact ⟨ha, o, n, h1, h2, h3, h4, h5, h6, h7, fun c hc => ho c (h8 c hc)⟩

theorem take_prefix_le (d : Bytes) (j : Nat) : d.take j <+: d := List.take_prefix j d

theorem sysWrite_sat {ino : Nat} {fd : Int} {D : Bytes} {O : Bytes → Prop} {w : World} (d : Bytes)
    (h : FileAt ino fd D O w) :
    (sysWrite fd d w).Sat
      (fun r w' => ∃ c, w.choices = c :: w'.choices ∧ (∃ x, w'.calls = w.calls ++ [.write fd d x]) ∧
        ((∃ e, r = .error e ∧ c.fail = some e ∧ FileAt ino fd D O w') ∨
          (∃ m, r = .ok m ∧ c.fail = none ∧ m = min c.count d.length ∧
            FileAt ino fd (D ++ d.take m) (Ext O D (D ++ d.take m)) w')))
      (fun w' => FileAt ino fd D O w' ∧ w'.calls = w.calls) := by
  apply Out.Sat.sys
  · intro _; exact ⟨h, rfl⟩
  · intro c cs hcs
    refine ⟨c, hcs, ⟨_, rfl⟩, ?_⟩
    obtain ⟨ha, o, n, h1, h2, h3, h4, h5, h6, h7, h8⟩ := h
    have hac := ha c (by rw [hcs]; exact List.mem_cons_self)
    have ha' : ∀ c ∈ cs, Alone ino fd c := fun c hc => ha c (by rw [hcs]; exact List.mem_cons_of_mem _ hc)
    obtain ⟨k1, k2⟩ := hac w.k
    cases hf : c.fail with
    | some e =>
      left
      refine ⟨e, rfl, rfl, ha', o, n, ?_, h2, h3, h4, ?_, h6, h7, h8⟩
      · exact k2.trans h1
      · exact k1 n h5
    | none =>
      right
      have e1 : (c.other w.k).ofd fd = some o := k2.trans h1
      have e2 : (c.other w.k).inodes[o.ino]? = some n := by rw [h2]; exact k1 n h5
      have hoff : (if o.app then n.data.length else o.off) = D.length := by
        rcases h4 with h4 | h4
        · rw [if_pos h4, h7]
        · split
          · rw [h7]
          · exact h4
      have hw : kwrite fd d c.count (c.other w.k) = (.ok (min c.count d.length),
          { c.other w.k with
            inodes := (c.other w.k).inodes.set o.ino (writeInode n D.length (d.take c.count))
            fds := (c.other w.k).fds.set fd.toNat (some { o with off := D.length + (d.take c.count).length }) }) := by
        unfold kwrite
        rw [e1]
        simp only [h3, e2, if_true]
        rw [hoff]
        simp
      simp only [hw]
      refine ⟨min c.count d.length, rfl, by simp, rfl, ha', { o with off := D.length + (d.take c.count).length },
        writeInode n D.length (d.take c.count), ?_, h2, h3, ?_, ?_, h6, ?_, ?_⟩
      · exact ofd_set_same (k := { c.other w.k with inodes := _ }) e1
      · right; simp
      · have hlt : o.ino < (c.other w.k).inodes.length := by
          rcases Nat.lt_or_ge o.ino (c.other w.k).inodes.length with h | h
          · exact h
          · rw [List.getElem?_eq_none h] at e2; exact nomatch e2
        rw [← h2]; exact List.getElem?_set_self hlt
      · simp only [writeInode, h7, overwrite_end]
        rw [List.take_eq_take_min]
      · intro x hx
        have htk : d.take c.count = d.take (min c.count d.length) := List.take_eq_take_min
        simp only [writeInode, h7] at hx
        rcases List.mem_cons.1 hx with hx | hx
        · right; subst hx; exact ⟨List.prefix_refl _, List.prefix_append _ _⟩
        · rcases List.mem_append.1 hx with hx | hx
          · obtain ⟨j, _, hj⟩ := List.mem_map.1 hx
            right; subst hj
            rw [overwrite_end, htk]
            exact ⟨List.prefix_append _ _, (List.prefix_append_right_inj _).2 (List.take_prefix _ _)⟩
          · left; exact h8 x hx

theorem Ext.trans {O : Bytes → Prop} {D D' D'' c : Bytes} (h : Ext (Ext O D D') D' D'' c) (h1 : D <+: D')
    (h2 : D' <+: D'') : Ext O D D'' c := by
  rcases h with (h | h) | h
  · exact .inl h
  · exact .inr ⟨h.1, h.2.trans h2⟩
  · exact .inr ⟨h1.trans h.1, h.2⟩

theorem Ext.grow {O : Bytes → Prop} {D D' D'' c : Bytes} (h : Ext O D D' c) (h2 : D' <+: D'') :
    Ext O D D'' c := by
  rcases h with h | h
  · exact .inl h
  · exact .inr ⟨h.1, h.2.trans h2⟩

/-- What `WriteUnbuffered` does. -/
theorem writeLoop_sat (strerror : Strerror) (name : Bytes) {ino : Nat} {fd : Int} :
    ∀ (fuel : Nat) (data D : Bytes) (O : Bytes → Prop) (w : World), w.choices.length < fuel →
      FileAt ino fd D O w →
      (writeLoop strerror fd name fuel data w).Sat
        (fun st w' => ∃ used p, w.choices = used ++ w'.choices ∧ p <+: data ∧
          FileAt ino fd (D ++ p) (Ext O D (D ++ p)) w' ∧ Writes fd w w' ∧
          ((st = .ok ∧ p = data ∧ NoFailure used) ∨
            ∃ e c, c ∈ used ∧ c.fail = some e ∧ e ≠ EINTR ∧ st = PosixError strerror name e))
        (fun w' => ∃ p, p <+: data ∧ FileAt ino fd (D ++ p) (Ext O D (D ++ p)) w' ∧ Writes fd w w') := by
  intro fuel
  induction fuel with
  | zero => intro _ _ _ _ h; omega
  | succ fuel ih =>
    intro data D O w hfuel h
    unfold writeLoop
    by_cases hd : data.length > 0
    · rw [if_pos hd]
      apply Out.Sat.bind
      apply (sysWrite_sat data h).mono
      · rintro r w1 ⟨c, hc, ⟨x0, hcalls⟩, ⟨e, rfl, hf, h1⟩ | ⟨m, rfl, hf, hm, h1⟩⟩
        · have hlen : w1.choices.length < fuel := by rw [hc] at hfuel; simp at hfuel; omega
          have hwr : Writes fd w w1 := ⟨[.write fd data x0], hcalls, by simp⟩
          by_cases he : e = EINTR
          · simp only [he, if_true]
            apply (ih data D O w1 hlen h1).mono
            · rintro st w2 ⟨used, p, e1, e2, e3, e4, e5⟩
              refine ⟨c :: used, p, by rw [hc, e1]; rfl, e2, e3, hwr.trans e4, ?_⟩
              rcases e5 with ⟨a1, a2, a3⟩ | ⟨e', c', a1, a2, a3, a4⟩
              · left
                refine ⟨a1, a2, ?_⟩
                intro x hx
                rcases List.mem_cons.1 hx with rfl | hx
                · right; rw [hf, he]
                · exact a3 x hx
              · right; exact ⟨e', c', List.mem_cons_of_mem _ a1, a2, a3, a4⟩
            · rintro w2 ⟨p, e2, e3, e4⟩
              exact ⟨p, e2, e3, hwr.trans e4⟩
          · simp only [he, if_false]
            refine ⟨[c], [], by simp [hc], List.nil_prefix, ?_, hwr, ?_⟩
            · rw [List.append_nil]
              exact h1.mono (fun c hc => .inl hc)
            · right; exact ⟨e, c, by simp, hf, he, rfl⟩
        · have hlen : w1.choices.length < fuel := by rw [hc] at hfuel; simp at hfuel; omega
          have hwr : Writes fd w w1 := ⟨[.write fd data x0], hcalls, by simp⟩
          have hcat : ∀ p, D ++ data.take m ++ p = D ++ (data.take m ++ p) := fun p => List.append_assoc _ _ _
          have hpre : ∀ p, p <+: data.drop m → data.take m ++ p <+: data := by
            intro p hp
            have := (List.prefix_append_right_inj (data.take m)).2 hp
            rwa [List.take_append_drop] at this
          apply (ih (data.drop m) (D ++ data.take m) _ w1 hlen h1).mono
          · rintro st w2 ⟨used, p, e1, e2, e3, e4, e5⟩
            refine ⟨c :: used, data.take m ++ p, by rw [hc, e1]; rfl, hpre p e2, ?_, hwr.trans e4, ?_⟩
            · rw [← hcat]
              apply e3.mono
              intro x hx
              exact hx.trans (List.prefix_append _ _) (List.prefix_append _ _)
            · rcases e5 with ⟨a1, a2, a3⟩ | ⟨e', c', a1, a2, a3, a4⟩
              · left
                refine ⟨a1, by rw [a2, List.take_append_drop], ?_⟩
                intro x hx
                rcases List.mem_cons.1 hx with rfl | hx
                · left; exact hf
                · exact a3 x hx
              · right; exact ⟨e', c', List.mem_cons_of_mem _ a1, a2, a3, a4⟩
          · rintro w2 ⟨p, e2, e3, e4⟩
            refine ⟨data.take m ++ p, hpre p e2, ?_, hwr.trans e4⟩
            rw [← hcat]
            apply e3.mono
            intro x hx
            exact hx.trans (List.prefix_append _ _) (List.prefix_append _ _)
      · rintro w1 ⟨h1, hcalls⟩
        refine ⟨[], List.nil_prefix, ?_, ⟨[], by simp [hcalls], by simp⟩⟩
        rw [List.append_nil]
        exact h1.mono (fun c hc => .inl hc)
    · rw [if_neg hd]
      have : data = [] := List.eq_nil_of_length_eq_zero (by omega)
      subst this
      refine ⟨[], [], by simp, List.prefix_refl _, ?_, Writes.refl _ _, .inl ⟨rfl, rfl, by simp [NoFailure]⟩⟩
      rw [List.append_nil]
      exact h.mono (fun c hc => .inl hc)

/-! ## The buffer -/

/-- `buf_[0, pos_ - 1]` holds `b`. -/
structure BufHas (f : WFile) (b : Bytes) : Prop where
  len : b.length = f.pos
  le : f.pos ≤ kWritableFileBufferSize
  get : ∀ i, i < f.pos → f.buf i = b[i]?

theorem load_of (buf : WBuf) (b : Bytes) : ∀ n, n ≤ b.length → n ≤ kWritableFileBufferSize →
    (∀ i, i < n → buf i = b[i]?) → WBuf.load buf n = .ok (b.take n) := by
  intro n
  induction n with
  | zero => intro _ _ _; rfl
  | succ n ih =>
    intro h1 h2 h3
    unfold WBuf.load
    rw [ih (by omega) (by omega) (fun i hi => h3 i (by omega))]
    have h4 := h3 n (by omega)
    rw [List.getElem?_eq_getElem (by omega)] at h4
    simp only [h4]
    show (if n < kWritableFileBufferSize then Except.ok (b.take n ++ [b[n]]) else _) = _
    rw [if_pos (by omega), List.take_succ_eq_append_getElem (by omega)]

theorem BufHas.load {f : WFile} {b : Bytes} (h : BufHas f b) : f.buf.load f.pos = .ok b := by
  rw [load_of f.buf b f.pos (by rw [h.len]; omega) h.le h.get, ← h.len, List.take_length]

theorem store_ok {buf : WBuf} {off : Nat} {d : Bytes} (h : off + d.length ≤ kWritableFileBufferSize) :
    WBuf.store buf off d =
      .ok (fun i => if off ≤ i ∧ i < off + d.length then d[i - off]? else buf i) := by
  unfold WBuf.store; rw [if_pos h]

/-- The buffer after `FlushBuffer`. -/
theorem BufHas.zero (f : WFile) : BufHas { f with pos := 0 } [] :=
  ⟨rfl, Nat.zero_le _, fun i hi => absurd hi (by simp)⟩

theorem BufHas.append {f : WFile} {b d : Bytes} (h : BufHas f b)
    (hd : f.pos + d.length ≤ kWritableFileBufferSize) :
    BufHas { f with
      buf := fun i => if f.pos ≤ i ∧ i < f.pos + d.length then d[i - f.pos]? else f.buf i
      pos := f.pos + d.length } (b ++ d) := by
  refine ⟨by simp [h.len], hd, ?_⟩
  intro i hi
  simp only at hi
  show (if f.pos ≤ i ∧ i < f.pos + d.length then d[i - f.pos]? else f.buf i) = _
  split
  · rename_i h1
    rw [List.getElem?_append_right (by rw [h.len]; exact h1.1), h.len]
  · rename_i h1
    rw [List.getElem?_append_left (by rw [h.len]; omega)]
    exact h.get i (by omega)

theorem BufHas.fresh (f : WFile) (d : Bytes) (hd : d.length ≤ kWritableFileBufferSize) :
    BufHas { f with
      buf := fun i => if 0 ≤ i ∧ i < 0 + d.length then d[i - 0]? else f.buf i
      pos := d.length } d := by
  refine ⟨rfl, hd, ?_⟩
  intro i hi
  simp only at hi
  show (if 0 ≤ i ∧ i < 0 + d.length then d[i - 0]? else f.buf i) = _
  rw [if_pos (by omega)]
  rfl

/-- `toString` of a slice that points at existing bytes. -/
theorem toString_ok {d : Slice} (h : d.WF) : d.toString = .ok d.bytes := by
  unfold Slice.toString Slice.bytes
  exact if_pos h

theorem bytes_len {d : Slice} (h : d.WF) : d.bytes.length = d.len := by
  unfold Slice.WF at h
  simp [Slice.bytes]; omega

end Posix
end Lsmdb
