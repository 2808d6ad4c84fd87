import Verif.Proof.MemEnvOom1

/-!
# One call when memory may run out
-/

namespace Lsmdb
namespace MemEnv
open Spec Status

/-- An append that throws has done what an append of fewer bytes, up to a block boundary, does. -/
theorem appendLoopO_eq (ok : Nat → Bool) (data : Slice) : ∀ fuel (f : FileState) src len,
    ∃ k b, k ≤ len ∧ appendLoopO ok data fuel f src len =
        (appendLoop data fuel f src k).map (fun f => (f, b)) ∧
      (b = true → k = len) ∧ (b = false → k < len ∧ (f.size + k) % kBlockSize = 0) ∧
      ((∀ j, ok j = true) → b = true) ∧
      ((∀ j, ok j = false) → (appendLoop data fuel f src k).toBool → ∀ j < k, (f.size + j) % kBlockSize ≠ 0) := by
  intro fuel
  induction fuel with
  | zero =>
    intro f src len
    refine ⟨len, true, Nat.le_refl _, ?_, fun _ => rfl, fun h => (nomatch h), fun _ => rfl, fun _ h2 j hj => ?_⟩
    · rw [appendLoopO.eq_def, appendLoop.eq_def]
      by_cases h0 : len > 0
      · simp only [if_pos h0]; rfl
      · simp only [if_neg h0]; rfl
    · rw [appendLoop.eq_def] at h2
      simp only [if_pos (show len > 0 by omega)] at h2
      cases h2
  | succ fuel ih =>
    intro f src len
    by_cases h0 : len > 0
    · by_cases hc : f.size % kBlockSize = 0 ∧ ok f.blocks.length = false
      · refine ⟨0, false, Nat.zero_le _, ?_, fun h => (nomatch h), fun _ => ⟨h0, by simpa using hc.1⟩,
          fun h => by rw [h] at hc; exact (nomatch hc.2), fun _ _ j hj => by omega⟩
        rw [appendLoopO.eq_def, appendLoop.eq_def]
        simp only [if_pos h0, if_pos hc, show ¬ 0 > 0 by omega, if_false]
        rfl
      · -- the two loops do the same in this iteration
        have hroom : ∃ bl room, (if f.size % kBlockSize ≠ 0 then (f.blocks, kBlockSize - f.size % kBlockSize)
            else (f.blocks ++ [List.replicate kBlockSize none], kBlockSize)) = (bl, room) ∧ 0 < room ∧
            room = kBlockSize - f.size % kBlockSize := by
          by_cases ho : f.size % kBlockSize ≠ 0
          · exact ⟨_, _, by rw [if_pos ho], by have := Nat.mod_lt f.size kB_pos; omega, rfl⟩
          · exact ⟨_, _, by rw [if_neg ho], kB_pos, by omega⟩
        obtain ⟨bl, room, hbl, hr0, hroom⟩ := hroom
        have hunO : appendLoopO ok data (fuel + 1) f src len = (match bl.getLast? with
          | none => .error .outOfBounds
          | some last => do
            let c ← Status.sliceCells ⟨data.buf, src, if room > len then len else room⟩ (if room > len then len else room)
            let last ← Status.store last (f.size % kBlockSize) c
            appendLoopO ok data fuel { f with blocks := bl.dropLast ++ [last], size := f.size + (if room > len then len else room) }
              (src + (if room > len then len else room)) (len - (if room > len then len else room))) := by
          rw [appendLoopO.eq_def]
          simp only [if_pos h0, if_neg hc, hbl]
          cases bl.getLast? <;> rfl
        have hun : ∀ k, k > 0 → appendLoop data (fuel + 1) f src k = (match bl.getLast? with
          | none => .error .outOfBounds
          | some last => do
            let c ← Status.sliceCells ⟨data.buf, src, if room > k then k else room⟩ (if room > k then k else room)
            let last ← Status.store last (f.size % kBlockSize) c
            appendLoop data fuel { f with blocks := bl.dropLast ++ [last], size := f.size + (if room > k then k else room) }
              (src + (if room > k then k else room)) (k - (if room > k then k else room))) := by
          intro k hk
          rw [appendLoop.eq_def]
          simp only [if_pos hk, hbl]
          cases bl.getLast? <;> rfl
        rw [hunO]
        -- errors are the same
        have herr : ∀ x, appendLoop data (fuel + 1) f src len = .error x → ∃ k b, k ≤ len ∧
            (.error x : M (FileState × Bool)) = (appendLoop data (fuel + 1) f src k).map (fun f => (f, b)) ∧
            (b = true → k = len) ∧ (b = false → k < len ∧ (f.size + k) % kBlockSize = 0) ∧
            ((∀ j, ok j = true) → b = true) ∧
            ((∀ j, ok j = false) → (appendLoop data (fuel + 1) f src k).toBool → ∀ j < k, (f.size + j) % kBlockSize ≠ 0) := by
          intro x hx
          exact ⟨len, true, Nat.le_refl _, by rw [hx]; rfl, fun _ => rfl, fun h => (nomatch h), fun _ => rfl,
            fun _ h2 => by rw [hx] at h2; cases h2⟩
        have hunl := hun len h0
        generalize hav : (if room > len then len else room) = av at hunl ⊢
        have hav2 : av ≤ len ∧ 0 < av ∧ (av < len → av = room) ∧ av ≤ room := by
          by_cases h : room > len
          · rw [if_pos h] at hav; omega
          · rw [if_neg h] at hav; omega
        cases hl : bl.getLast? with
        | none => rw [hl] at hunl; exact herr _ hunl
        | some last =>
          rw [hl] at hunl
          simp only [bind, Except.bind] at hunl ⊢
          cases hcl : Status.sliceCells ⟨data.buf, src, av⟩ av with
          | error x => rw [hcl] at hunl; exact herr _ hunl
          | ok c =>
            rw [hcl] at hunl
            simp only [] at hunl ⊢
            cases hst : Status.store last (f.size % kBlockSize) c with
            | error x => rw [hst] at hunl; exact herr _ hunl
            | ok last' =>
              rw [hst] at hunl
              simp only [] at hunl ⊢
              obtain ⟨k', b, h1, h2, h3, h4, h5, h6⟩ := ih { f with blocks := bl.dropLast ++ [last'], size := f.size + av }
                (src + av) (len - av)
              have hk : (if room > av + k' then av + k' else room) = av := by
                cases b with
                | true =>
                  have := h3 rfl
                  rw [show av + k' = len by omega]; exact hav
                | false =>
                  have := h4 rfl
                  have := hav2.2.2.1 (by omega)
                  rw [if_neg (by omega)]; omega
              have hstep : appendLoop data (fuel + 1) f src (av + k') =
                  appendLoop data fuel { f with blocks := bl.dropLast ++ [last'], size := f.size + av } (src + av) k' := by
                rw [hun (av + k') (by omega), hk, hl]
                simp only [bind, Except.bind, hcl, hst, Nat.add_sub_cancel_left]
              refine ⟨av + k', b, by omega, ?_, fun h => by have := h3 h; omega, fun h => ?_, h5,
                fun hno hok j hj => ?_⟩
              · rw [h2, hstep]
              · have := h4 h
                simp only [] at this
                exact ⟨by omega, by rw [← Nat.add_assoc]; exact this.2⟩
              · rcases Nat.lt_or_ge j av with hja | hja
                · have ho : f.size % kBlockSize ≠ 0 := fun h => hc ⟨h, hno _⟩
                  have hm := Nat.mod_lt f.size kB_pos
                  rw [Nat.add_mod, Nat.mod_eq_of_lt (a := j) (by omega), Nat.mod_eq_of_lt (by omega)]
                  omega
                · rw [hstep] at hok
                  have := h6 hno hok (j - av) (by omega)
                  simp only [] at this
                  rwa [show f.size + av + (j - av) = f.size + j by omega] at this
    · refine ⟨len, true, Nat.le_refl _, ?_, fun _ => rfl, fun h => (nomatch h), fun _ => rfl, fun _ _ j hj => by omega⟩
      rw [appendLoopO.eq_def, appendLoop.eq_def]
      simp only [if_neg h0]; rfl

/-- The state with lost files represents the file system. -/
def RL (e : Env) (fs : FS) : Prop := ∃ e0, Sim e e0 ∧ R e0 fs

theorem R.rl {e : Env} {fs : FS} (h : R e fs) : RL e fs := ⟨e, Sim.refl e, h⟩

/-- A call that returns an error or an answer without effect. -/
theorem returnSt_ok {mem : Mem} {e : Env} {fs : FS} {o : Op} {s : St} {r : Res}
    (hR : R e (fs.next o)) (ha : fs.Answer o r) (hf : s ≠ .ok → fs.next o = fs ∧ fs.MayThrow o) :
    ∃ e' q fs', (Except.ok (returnSt mem e s r) : M _) = .ok (e', q) ∧ fs.Outcome o q fs' ∧
      (mem = Mem.plenty → q.isSome) ∧ RL e' fs' := by
  cases s with
  | ok => exact ⟨e, some r, _, rfl, ⟨ha, rfl⟩, fun _ => rfl, hR.rl⟩
  | err c a b =>
    obtain ⟨h1, h2⟩ := hf (by simp)
    by_cases hm : mem.message = true
    · exact ⟨e, some r, _, by simp [returnSt, hm], ⟨ha, rfl⟩, fun _ => rfl, hR.rl⟩
    · refine ⟨e, none, fs, by simp [returnSt, hm], .nothing o h2, ?_, ?_⟩
      · rintro rfl; exact absurd rfl hm
      · rw [h1] at hR; exact hR.rl

/-- Opening a file object, which may fail. -/
theorem newObjO_ok {mem : Mem} {e : Env} {fs : FS} (h : R e fs) (ho : fs.opened + 2 < 2 ^ 31) {i : Nat}
    (hi : i < fs.made) (hc : 0 < cnt e i) {mk : Nat → Obj} (hmk : (mk i).file = i) :
    (mem.object = true ∧ ∃ e', newObjO mem e (some i) mk = .ok (e', some (.opened .ok (some fs.opened))) ∧
        R e' (fs.withObj (mk i))) ∨
    (mem.object = false ∧ newObjO mem e (some i) mk = .ok (e, none)) := by
  cases hm : mem.object with
  | true =>
    obtain ⟨e', h1, h2⟩ := newObj_ok h ho hi hc hmk
    exact .inl ⟨rfl, e', by simp [newObjO, hm, h1, bind, Except.bind, pure, Except.pure], h2⟩
  | false => exact .inr ⟨rfl, by simp [newObjO, hm]⟩

/-- A new file that gets no name. -/
theorem lost_ok {e : Env} {fs : FS} (h : R e fs) :
    ∃ e1, Ref (newFile e).2 (newFile e).1 = .ok e1 ∧ RL e1 fs.made1 := by
  obtain ⟨h1, _⟩ := newFile_ok h.files
  refine ⟨_, h1, ⟨{ e with files := e.files ++ [none], freed := e.freed ++ [e.files.length] }, ?_, ?_⟩⟩
  · refine ⟨rfl, rfl, by simp, fun j => ?_⟩
    by_cases hj : j = e.files.length
    · subst hj
      right
      refine ⟨⟨_, by rw [List.getElem?_concat_length]⟩, by rw [List.getElem?_concat_length], h.files.out _ (Nat.le_refl _), ?_⟩
      simp [List.count_append, h.files.out _ (Nat.le_refl _)]
    · left
      have : e.files.length ≠ j := Ne.symm hj
      refine ⟨?_, by simp [List.count_append, this]⟩
      rcases Nat.lt_or_ge j e.files.length with hl | hl
      · simp only []; rw [List.getElem?_append_left hl, List.getElem?_append_left hl]
      · simp only []
        rw [List.getElem?_eq_none (by simp; omega), List.getElem?_eq_none (by simp; omega)]
  · have hlen := h.made
    refine ⟨h.sorted, h.name, h.one, by simp [FS.made1, h.made], h.nobjs, h.obj, ?_, ?_, ⟨?_, ?_, ?_⟩, ?_⟩
    · intro n i hn; exact Nat.lt_succ_of_lt (h.nameLt n i hn)
    · intro x o hx; exact Nat.lt_succ_of_lt (h.objLt x o hx)
    · intro j hj h0
      by_cases hj' : j = e.files.length
      · subst hj'
        exact ⟨by rw [List.getElem?_concat_length], by simp [List.count_append, h.files.out _ (Nat.le_refl _)]⟩
      · have hl : j < e.files.length := by simp at hj; omega
        have := h.files.zero j hl h0
        rw [List.getElem?_append_left hl]
        exact ⟨this.1, by rw [List.count_append, this.2]; simp [Ne.symm hj']⟩
    · intro j hj h0
      have hl : j < e.files.length := by
        refine Nat.lt_of_not_le fun hle => ?_
        have : cnt e j = 0 := fresh_zero h (by rw [← hlen]; exact hle)
        have h0' : 0 < cnt e j := h0
        omega
      obtain ⟨f, a, b, c, d⟩ := h.files.pos j hl h0
      rw [List.getElem?_append_left hl]
      refine ⟨f, a, b, ?_, ?_⟩
      · simp only [FS.made1, upd, if_neg (show j ≠ fs.made by omega)]; exact c
      · simp [List.count_append, d, show e.files.length ≠ j by omega]
    · intro j hj
      simp at hj
      simp [List.count_append, h.files.out j (by omega), show e.files.length ≠ j by omega]
    · intro j
      simp only [FS.made1, upd]
      split
      · simp
      · exact h.small j

theorem NewWritableFileO_ok (mem : Mem) {e : Env} {fs : FS} (h : R e fs) (ho : fs.opened + 2 < 2 ^ 31)
    (n : Bytes) :
    ∃ e' q fs', stepO mem e (.newWritable n) = .ok (e', q) ∧ fs.Outcome (.newWritable n) q fs' ∧
      (mem = Mem.plenty → q.isSome) ∧ RL e' fs' := by
  have hn := h.name n
  simp only [stepO, NewWritableFileO, targetO]
  cases hf : fs.name n with
  | none =>
    rw [hf] at hn
    simp only [Option.map_none] at hn
    rw [hn]
    simp only [createO]
    cases hs : mem.state with
    | false =>
      simp only [Bool.false_eq_true, if_false, bind, Except.bind]
      exact ⟨e, none, fs, rfl, .nothing _ hf, (by rintro rfl; cases hs), h.rl⟩
    | true =>
      simp only [if_true]
      cases hd : mem.node with
      | false =>
        obtain ⟨e1, h1, h2⟩ := lost_ok h
        simp only [Bool.false_eq_true, if_false, bind, Except.bind, h1]
        exact ⟨e1, none, fs.made1, rfl, .lost n hf, (by rintro rfl; cases hd), h2⟩
      | true =>
        obtain ⟨e1, h1, h2, h3⟩ := newName_ok h hf
        rw [h2] at h1
        simp only [if_true, bind, Except.bind, h1, h2, pure, Except.pure]
        rcases newObjO_ok (mem := mem) h3 ho (i := fs.made) (Nat.lt_succ_self _)
          (h3.cnt_name (n := n) (by simp [upd])) (mk := .wr) rfl with ⟨hm, e', h4, h5⟩ | ⟨hm, h4⟩
        · refine ⟨e', _, _, h4, ⟨rfl, rfl⟩, fun _ => rfl, ?_⟩
          simp only [FS.next, hf]; exact h5.rl
        · refine ⟨_, none, _, h4, .created n hf, (by rintro rfl; cases hm), ?_⟩
          exact h3.rl
  | some i =>
    rw [hf] at hn
    simp only [Option.map_some] at hn
    rw [hn]
    obtain ⟨f, g1, g2, g3, g4⟩ := getFile_ok h.files (by rw [h.made]; exact h.nameLt n i hf) (h.cnt_name hf)
    have h3 := setFile_ok h (h.cnt_name hf) (f' := f.Truncate) g2 rfl (finv_truncate g4) (by simp)
    simp only [bind, Except.bind, g1, pure, Except.pure]
    rcases newObjO_ok (mem := mem) h3 ho (i := i) (h.nameLt n i hf)
      (h3.cnt_name (n := n) hf) (mk := .wr) rfl with ⟨hm, e', h4, h5⟩ | ⟨hm, h4⟩
    · refine ⟨e', _, _, h4, ⟨rfl, rfl⟩, fun _ => rfl, ?_⟩
      simp only [FS.next, hf]; exact h5.rl
    · exact ⟨_, none, _, h4, .emptied n i hf, (by rintro rfl; cases hm), h3.rl⟩

/-- One allowed call: it is answered rightly, or throws and leaves what it may. -/
theorem stepO_ok (mem : Mem) {e : Env} {fs : FS} (h : R e fs) (o : Op) (ha : fs.Allowed o) :
    ∃ e' q fs', stepO mem e o = .ok (e', q) ∧ fs.Outcome o q fs' ∧ (mem = Mem.plenty → q.isSome) ∧
      RL e' fs' := by
  obtain ⟨es, rs, hs1, hs2, hs3⟩ := step_ok h o ha
  have pure_case : stepO mem e o = (step e o).map (fun x => (x.1, some x.2)) →
      ∃ e' q fs', stepO mem e o = .ok (e', q) ∧ fs.Outcome o q fs' ∧ (mem = Mem.plenty → q.isSome) ∧
      RL e' fs' := by
    intro he
    exact ⟨es, some rs, _, by rw [he, hs1]; rfl, ⟨hs2, rfl⟩, fun _ => rfl, hs3.rl⟩
  have st_case : ∀ s, stepO mem e o = .ok (returnSt mem es s rs) →
      (s ≠ .ok → fs.next o = fs ∧ fs.MayThrow o) →
      ∃ e' q fs', stepO mem e o = .ok (e', q) ∧ fs.Outcome o q fs' ∧ (mem = Mem.plenty → q.isSome) ∧
      RL e' fs' := by
    intro s he hf
    rw [he]
    exact returnSt_ok hs3 hs2 hf
  cases o with
  | newSequential n =>
    have hn := h.name n
    cases hf : fs.name n with
    | none =>
      rw [hf] at hn
      simp only [step, NewSequentialFile, hn, bind, Except.bind, pure, Except.pure, Option.map_none] at hs1
      cases hs1
      exact st_case (notFound n) (by simp [stepO, NewSequentialFileO, hn])
        (fun _ => ⟨by simp [FS.next, hf], trivial⟩)
    | some i =>
      rw [hf] at hn
      simp only [Option.map_some] at hn
      simp only [stepO, NewSequentialFileO, hn, mapIndex_some hn]
      rcases newObjO_ok (mem := mem) h ha (h.nameLt n i hf) (h.cnt_name hf) (mk := fun i => .seq i 0) rfl with
        ⟨hm, e', h4, h5⟩ | ⟨hm, h4⟩
      · refine ⟨e', _, _, h4, ⟨?_, rfl⟩, fun _ => rfl, ?_⟩
        · simp [FS.Answer, FS.openAnswer, hf]
        · simp only [FS.next, hf]; exact h5.rl
      · exact ⟨_, none, _, h4, .nothing _ trivial, (by rintro rfl; cases hm), h.rl⟩
  | newRandomAccess n =>
    have hn := h.name n
    cases hf : fs.name n with
    | none =>
      rw [hf] at hn
      simp only [step, NewRandomAccessFile, hn, bind, Except.bind, pure, Except.pure, Option.map_none] at hs1
      cases hs1
      exact st_case (notFound n) (by simp [stepO, NewRandomAccessFileO, hn])
        (fun _ => ⟨by simp [FS.next, hf], trivial⟩)
    | some i =>
      rw [hf] at hn
      simp only [Option.map_some] at hn
      simp only [stepO, NewRandomAccessFileO, hn, mapIndex_some hn]
      rcases newObjO_ok (mem := mem) h ha (h.nameLt n i hf) (h.cnt_name hf) (mk := .rand) rfl with
        ⟨hm, e', h4, h5⟩ | ⟨hm, h4⟩
      · refine ⟨e', _, _, h4, ⟨?_, rfl⟩, fun _ => rfl, ?_⟩
        · simp [FS.Answer, FS.openAnswer, hf]
        · simp only [FS.next, hf]; exact h5.rl
      · exact ⟨_, none, _, h4, .nothing _ trivial, (by rintro rfl; cases hm), h.rl⟩
  | newWritable n => exact NewWritableFileO_ok mem h ha n
  | newAppendable n =>
    have hn := h.name n
    obtain ⟨i, hf⟩ := Option.isSome_iff_exists.1 ha.2
    rw [hf] at hn
    simp only [Option.map_some] at hn
    simp only [stepO, NewAppendableFileO, hn, mapIndex_some hn, Option.isSome_some, Bool.true_or, if_true]
    rcases newObjO_ok (mem := mem) h ha.1 (h.nameLt n i hf) (h.cnt_name hf) (mk := .wr) rfl with
      ⟨hm, e', h4, h5⟩ | ⟨hm, h4⟩
    · refine ⟨e', _, _, h4, ⟨rfl, rfl⟩, fun _ => rfl, ?_⟩
      simp only [FS.next, hf]; exact h5.rl
    · exact ⟨_, none, _, h4, .nothing _ trivial, (by rintro rfl; cases hm), h.rl⟩
  | fileExists n => exact pure_case rfl
  | getChildren d =>
    simp only [stepO, GetChildrenO]
    simp only [step] at hs1
    obtain ⟨⟨s, l⟩, h1, h2⟩ := bind_ok hs1
    cases h2
    rw [h1]
    simp only [bind, Except.bind]
    by_cases hc : (mem.child || l.isEmpty) = true
    · exact ⟨_, some _, _, by rw [if_pos hc]; rfl, ⟨hs2, rfl⟩, fun _ => rfl, hs3.rl⟩
    · refine ⟨_, none, fs, by rw [if_neg hc]; rfl, .nothing _ trivial, ?_, h.rl⟩
      rintro rfl; simp [Mem.plenty] at hc
  | removeFile n =>
    simp only [step] at hs1
    obtain ⟨⟨s, e1⟩, h1, h2⟩ := bind_ok hs1
    cases h2
    refine st_case s (by simp [stepO, RemoveFileO, h1, bind, Except.bind, pure, Except.pure]) fun hs => ?_
    cases hf : fs.name n with
    | none => exact ⟨by simp only [FS.next]; rw [← hf, upd_self_eq], hf⟩
    | some i =>
      exfalso
      simp only [FS.Answer, hf, Option.isSome_some, if_true] at hs2
      cases hs2; exact hs rfl
  | createDir n => exact pure_case rfl
  | removeDir n => exact pure_case rfl
  | getFileSize n =>
    simp only [step] at hs1
    obtain ⟨⟨s, v, e1⟩, h1, h2⟩ := bind_ok hs1
    cases h2
    refine st_case s (by simp [stepO, GetFileSizeO, h1, bind, Except.bind, pure, Except.pure]) fun hs => ?_
    cases hf : fs.name n with
    | none => exact ⟨rfl, hf⟩
    | some i =>
      exfalso
      simp only [FS.Answer, hf] at hs2
      cases hs2; exact hs rfl
  | renameFile a b =>
    have hn := h.name a
    cases hf : fs.name a with
    | none =>
      rw [hf] at hn
      simp only [step, RenameFile, hn, bind, Except.bind, pure, Except.pure, Option.map_none] at hs1
      cases hs1
      exact st_case (notFound a) (by simp [stepO, RenameFileO, hn])
        (fun _ => ⟨by simp [FS.next, hf], hf⟩)
    | some i =>
      have hab : a ≠ b := by
        rcases ha with h | h
        · exact h
        · rw [hf] at h; cases h
      rw [hf] at hn
      simp only [Option.map_some] at hn
      obtain ⟨e1, h1, h2⟩ := RemoveFileInternal_ok h b
      have hfa : upd fs.name b none a = some i := by rw [upd_other _ _ hab]; exact hf
      have hn1 : mapFind e1.map a = some (some i) := by rw [h2.name]; simp only []; rw [hfa]; rfl
      have hn2 : mapFind e1.map b = none := by rw [h2.name]; simp only []; rw [upd_same]; rfl
      simp only [step, RenameFile, hn, h1, mapIndex_some hn1, bind, Except.bind, pure, Except.pure] at hs1
      simp only [stepO, RenameFileO, hn, h1, mapIndex_some hn1, bind, Except.bind, pure, Except.pure, hn2,
        Option.isSome_none, Bool.false_or]
      cases hm : mem.node with
      | true =>
        cases hs1
        exact ⟨_, _, _, rfl, ⟨hs2, rfl⟩, fun _ => rfl, hs3.rl⟩
      | false =>
        exact ⟨_, none, _, rfl, .removed a b (by rw [hf]; rfl) hab, (by rintro rfl; cases hm), h2.rl⟩
  | seqRead x n =>
    obtain ⟨i, pos, hx⟩ := ha
    simp only [step] at hs1
    obtain ⟨⟨s, v, e1⟩, h1, h2⟩ := bind_ok hs1
    cases h2
    refine st_case s (by simp [stepO, seqReadO, h1, bind, Except.bind, pure, Except.pure]) fun hs => ?_
    simp only [FS.Answer, hx, FS.readAnswer] at hs2
    by_cases hp : pos ≤ (fs.data i).length
    · rw [if_pos hp] at hs2; cases hs2; exact absurd rfl hs
    · exact ⟨by simp [FS.next, hx, hp], i, pos, hx, by omega⟩
  | seqSkip x n =>
    obtain ⟨i, pos, hx⟩ := ha
    simp only [step] at hs1
    obtain ⟨⟨s, e1⟩, h1, h2⟩ := bind_ok hs1
    cases h2
    refine st_case s (by simp [stepO, seqSkipO, h1, bind, Except.bind, pure, Except.pure]) fun hs => ?_
    simp only [FS.Answer, hx] at hs2
    by_cases hp : pos ≤ (fs.data i).length
    · rw [if_pos hp] at hs2; cases hs2; exact absurd rfl hs
    · exact ⟨by simp [FS.next, hx, hp], i, pos, hx, by omega⟩
  | randRead x off n =>
    obtain ⟨i, hx⟩ := ha
    simp only [step] at hs1
    obtain ⟨⟨s, v⟩, h1, h2⟩ := bind_ok hs1
    cases h2
    refine st_case s (by simp [stepO, randReadO, h1, bind, Except.bind, pure, Except.pure]) fun hs => ?_
    simp only [FS.Answer, hx, FS.readAnswer] at hs2
    by_cases hp : off ≤ (fs.data i).length
    · rw [if_pos hp] at hs2; cases hs2; exact absurd rfl hs
    · exact ⟨rfl, i, hx, by omega⟩
  | append x d =>
    obtain ⟨hw, i, hx, hl⟩ := ha
    have hxs := h.objs_some hx
    obtain ⟨f, g1, g2, g3, g4⟩ := getFile_ok h.files (by rw [h.made]; exact h.objLt x _ hx) (h.cnt_obj hx)
    simp only [Obj.file] at g1 g2 g4
    obtain ⟨k, b, k1, k2, k3, k4, k5, _⟩ := appendLoopO_eq mem.block d (d.len + 1) f d.off d.len
    have hw' : d.off + d.len ≤ d.buf.length := hw
    obtain ⟨f', a1, a2, a3⟩ := appendLoop_eq d hw (d.len + 1) f (fs.data i) d.off k g4 (by omega) (by omega)
    have hsub : sub d.buf d.off k = d.bytes.take k := by
      simp only [sub, Slice.bytes, List.take_take, Nat.min_eq_left k1]
    rw [a1] at k2
    simp only [stepO, wrAppendO, getObj, hxs, bind, Except.bind, g1, k2, Except.map]
    have hlen : (fs.data i ++ sub d.buf d.off k).length < 2 ^ 64 := by
      rw [hsub, List.length_append, List.length_take, Slice.bytes_length hw]; omega
    have hR := setFile_ok h (h.cnt_obj hx) g2 a3 a2 hlen
    cases b with
    | true =>
      have hk := k3 rfl
      subst hk
      refine ⟨_, _, _, rfl, ⟨rfl, rfl⟩, fun _ => rfl, ?_⟩
      simp only [FS.next, hx]
      have : sub d.buf d.off d.len = d.bytes := rfl
      rw [this] at hR
      exact hR.rl
    | false =>
      obtain ⟨hk1, hk2⟩ := k4 rfl
      refine ⟨_, none, _, rfl, .partly x d i k hx hk1 ?_, ?_, ?_⟩
      · rw [← g4.size]; exact hk2
      · rintro rfl; exact absurd (k5 (fun _ => rfl)) (by simp)
      · rw [← hsub]; exact hR.rl
  | close x => exact pure_case (by simp only [stepO]; cases step e (.close x) <;> rfl)
  | flush x => exact pure_case (by simp only [stepO]; cases step e (.flush x) <;> rfl)
  | sync x => exact pure_case (by simp only [stepO]; cases step e (.sync x) <;> rfl)
  | delete x => exact pure_case (by simp only [stepO]; cases step e (.delete x) <;> rfl)
  | destroyEnv => exact pure_case (by simp only [stepO]; cases step e .destroyEnv <;> rfl)

/-- The same with lost files. -/
theorem stepO_rl (mem : Mem) {e : Env} {fs : FS} (h : RL e fs) (o : Op) (ha : fs.Allowed o) :
    ∃ e' q fs', stepO mem e o = .ok (e', q) ∧ fs.Outcome o q fs' ∧ (mem = Mem.plenty → q.isSome) ∧
      RL e' fs' := by
  obtain ⟨e0, hs, hR⟩ := h
  obtain ⟨e1, q, fs', h1, h2, h3, e2, h4, h5⟩ := stepO_ok mem hR o ha
  obtain ⟨e', g1, g2⟩ := stepO_sim hs h1
  exact ⟨e', q, fs', g1, h2, h3, e2, g2.trans h4, h5⟩

end MemEnv
end Lsmdb
