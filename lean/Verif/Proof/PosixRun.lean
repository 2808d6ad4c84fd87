import Verif.Proof.PosixOps2

/-! # PosixWritableFile: histories -/

namespace Lsmdb
namespace Posix

open MemEnv (St lit)

variable (strerror : Strerror) (full : Bool)

/-- The bytes one call appends. -/
def opBytes : WOp → Bytes
  | .append d => d.bytes
  | _ => []

theorem appended_cons (o : WOp) (os : List WOp) : appended (o :: os) = opBytes o ++ appended os := by
  cases o <;> rfl

theorem appended_append (a b : List WOp) : appended (a ++ b) = appended a ++ appended b := by
  induction a with
  | nil => rfl
  | cons o os ih => rw [List.cons_append, appended_cons, appended_cons, ih, List.append_assoc]

/-- The file object is open on the file, or was closed. -/
def Live (ino : Nat) (f : WFile) (D : Bytes) (O : Bytes → Prop) (w : World) : Prop :=
  FileAt ino f.fd D O w ∨ (f.fd = -1 ∧ InoAt ino D O w)

theorem Live.ino {ino : Nat} {f : WFile} {D : Bytes} {O : Bytes → Prop} {w : World}
    (h : Live ino f D O w) : InoAt ino D O w := by
  rcases h with h | h
  · exact h.ino
  · exact h.2

theorem Live.mono {ino : Nat} {f : WFile} {D : Bytes} {O O' : Bytes → Prop} {w : World}
    (h : Live ino f D O w) (ho : ∀ c, O c → O' c) : Live ino f D O' w := by
  rcases h with h | h
  · exact .inl (h.mono ho)
  · exact .inr ⟨h.1, h.2.mono ho⟩

/-- One call on an open file. -/
theorem step_open {ino : Nat} {f : WFile} {D b : Bytes} {O : Bytes → Prop} {w : World} (op : WOp)
    (hv : ValidOps [op]) (h : FileAt ino f.fd D O w) (hb : BufHas f b) :
    (f.step strerror full op w).Sat
      (fun r w' => ∃ p b', p <+: b ++ opBytes op ∧ BufHas r.2 b' ∧
        Live ino r.2 (D ++ p) (Ext O D (D ++ p)) w' ∧
        (op ≠ .close → FileAt ino r.2.fd (D ++ p) (Ext O D (D ++ p)) w' ∧ Same f r.2) ∧
        (r.1 = .ok → p ++ b' = b ++ opBytes op) ∧
        (r.1 = .ok → (op = .flush ∨ op = .sync ∨ op = .close) → b' = []) ∧
        (r.1 = .ok → op = .sync → InoAt ino (D ++ p) (fun _ => False) w') ∧
        (op = .close → r.2.fd = -1))
      (fun w' => ∃ p, p <+: b ++ opBytes op ∧ InoAt ino (D ++ p) (Ext O D (D ++ p)) w') := by
  cases op with
  | append d =>
    have hd : d.WF := hv d (List.mem_singleton.2 rfl)
    apply (Append_sat strerror d hd h hb).mono
    · rintro r w1 ⟨used, p, b', e1, e2, e3, e4, e5, e6, e7⟩
      have e3' : FileAt ino r.2.fd (D ++ p) (Ext O D (D ++ p)) w1 := by rw [e5.1]; exact e3
      refine ⟨p, b', e2, e6, .inl e3', fun _ => ⟨e3', e5⟩, ?_, ?_, fun _ e => (nomatch e), fun e => (nomatch e)⟩
      · intro hok
        rcases e7 with e7 | e7
        · exact e7.2.1
        · exact absurd hok e7.ne_ok
      · rintro _ (e | e | e) <;> exact nomatch e
    · rintro w1 ⟨p, e2, e3, _⟩
      exact ⟨p, e2, e3.ino⟩
  | flush =>
    apply (FlushBuffer_sat strerror h hb).mono
    · rintro r w1 ⟨used, p, e1, e2, e3, e4, e5, e6⟩
      have e3' : FileAt ino r.2.fd (D ++ p) (Ext O D (D ++ p)) w1 := by rw [e5]; exact e3
      refine ⟨p, [], by rw [show opBytes _ = [] from rfl, List.append_nil]; exact e2, by rw [e5]; exact BufHas.zero f, .inl e3',
        fun _ => ⟨e3', by rw [e5]; exact Same.refl f⟩, ?_, fun _ _ => rfl, fun _ e => (nomatch e),
        fun e => (nomatch e)⟩
      intro hok
      rcases e6 with e6 | e6
      · rw [e6.2.1]; rfl
      · exact absurd hok e6.ne_ok
    · rintro w1 ⟨p, e2, e3, _⟩
      exact ⟨p, by rw [show opBytes _ = [] from rfl, List.append_nil]; exact e2, e3.ino⟩
  | sync =>
    apply (Sync_sat strerror full h hb).mono
    · rintro r w1 ⟨p, b', e2, e3, e4, e5, e6⟩
      have e3' : FileAt ino r.2.fd (D ++ p) (Ext O D (D ++ p)) w1 := by rw [e4.1]; exact e3
      refine ⟨p, b', by rw [show opBytes _ = [] from rfl, List.append_nil]; exact e2, e5, .inl e3', fun _ => ⟨e3', e4⟩, ?_, ?_, ?_,
        fun e => (nomatch e)⟩
      · intro hok
        obtain ⟨rfl, rfl, _⟩ := e6 hok
        rfl
      · intro hok _
        exact (e6 hok).2.1
      · intro hok _
        obtain ⟨rfl, _, h3⟩ := e6 hok
        exact h3.ino
    · rintro w1 ⟨p, e2, e3⟩
      exact ⟨p, by rw [show opBytes _ = [] from rfl, List.append_nil]; exact e2, e3.ino⟩
  | close =>
    apply (Close_sat strerror h hb).mono
    · rintro r w1 ⟨p, e2, e3, e4, e5⟩
      refine ⟨p, [], by rw [show opBytes _ = [] from rfl, List.append_nil]; exact e2, by rw [e4]; exact ⟨rfl, Nat.zero_le _, fun i hi => absurd hi (by simp)⟩,
        .inr ⟨by rw [e4], e3⟩, fun e => absurd rfl e, ?_, fun _ _ => rfl, fun _ e => (nomatch e),
        fun _ => by rw [e4]⟩
      intro hok
      rw [e5 hok]; rfl
    · rintro w1 ⟨p, e2, e3⟩
      exact ⟨p, by rw [show opBytes _ = [] from rfl, List.append_nil]; exact e2, e3⟩

/-- One call on a closed file. -/
theorem step_closed {ino : Nat} {f : WFile} {D b : Bytes} {O : Bytes → Prop} {w : World} (op : WOp)
    (hv : ValidOps [op]) (hf : f.fd = -1) (h : InoAt ino D O w) (hb : BufHas f b) :
    (f.step strerror full op w).Sat
      (fun r w' => ∃ b', BufHas r.2 b' ∧ r.2.fd = -1 ∧ InoAt ino D O w' ∧
        (op = .sync ∨ op = .close → r.1 ≠ .ok))
      (fun w' => InoAt ino D O w') := by
  cases op with
  | append d =>
    have hd : d.WF := hv d (List.mem_singleton.2 rfl)
    apply (Append_closed_sat strerror d hd hf h hb).mono
    · rintro r w1 ⟨b', e1, e2, e3, _⟩
      exact ⟨b', e3, e2, e1, by rintro (e | e) <;> exact nomatch e⟩
    · rintro w1 ⟨h1, _⟩; exact h1
  | flush =>
    apply (FlushBuffer_closed_sat strerror hf h hb).mono
    · rintro r w1 ⟨e1, e2, e3⟩
      exact ⟨[], by rw [e2]; exact BufHas.zero f, by rw [e2]; exact hf, e1, by rintro (e | e) <;> exact nomatch e⟩
    · intro w1 h1; exact h1
  | sync =>
    apply (Sync_closed_sat strerror full hf h hb).mono
    · rintro r w1 ⟨b', e1, e2, e3, e4⟩
      exact ⟨b', e3, e2, e1, fun _ => e4⟩
    · intro w1 h1; exact h1
  | close =>
    apply (Close_closed_sat strerror hf h hb).mono
    · rintro r w1 ⟨b', e1, e2, e3, e4⟩
      exact ⟨b', e3, e2, e1, fun _ => e4⟩
    · intro w1 h1; exact h1

/-- One call, open or closed: contents only grow. -/
theorem step_live {ino : Nat} {f : WFile} {D b : Bytes} {O : Bytes → Prop} {w : World} (op : WOp)
    (hv : ValidOps [op]) (h : Live ino f D O w) (hb : BufHas f b) :
    (f.step strerror full op w).Sat
      (fun r w' => ∃ p b', BufHas r.2 b' ∧ Live ino r.2 (D ++ p) (Ext O D (D ++ p)) w')
      (fun w' => ∃ p, InoAt ino (D ++ p) (Ext O D (D ++ p)) w') := by
  rcases h with h | ⟨hf, h⟩
  · apply (step_open strerror full op hv h hb).mono
    · rintro r w1 ⟨p, b', _, e2, e3, _⟩
      exact ⟨p, b', e2, e3⟩
    · rintro w1 ⟨p, _, e⟩
      exact ⟨p, e⟩
  · apply (step_closed strerror full op hv hf h hb).mono
    · rintro r w1 ⟨b', e2, e3, e4, _⟩
      exact ⟨[], b', e2, .inr ⟨e3, by rw [List.append_nil]; exact e4.mono (fun c hc => .inl hc)⟩⟩
    · intro w1 e
      exact ⟨[], by rw [List.append_nil]; exact e.mono (fun c hc => .inl hc)⟩

theorem ValidOps.head {o : WOp} {os : List WOp} (h : ValidOps (o :: os)) : ValidOps [o] := by
  intro d hd
  rw [List.mem_singleton] at hd
  exact h d (by rw [hd]; exact List.mem_cons_self)

theorem ValidOps.tail {o : WOp} {os : List WOp} (h : ValidOps (o :: os)) : ValidOps os :=
  fun d hd => h d (List.mem_cons_of_mem _ hd)

/-- A history on a file, open or closed: contents only grow, and nothing faults. -/
theorem run_live {ino : Nat} : ∀ (ops : List WOp) (f : WFile) (D b : Bytes) (O : Bytes → Prop) (w : World),
    ValidOps ops → Live ino f D O w → BufHas f b →
    (f.run strerror full ops w).Sat
      (fun r w' => ∃ p b', BufHas r.2 b' ∧ Live ino r.2 (D ++ p) (Ext O D (D ++ p)) w')
      (fun w' => ∃ p, InoAt ino (D ++ p) (Ext O D (D ++ p)) w') := by
  intro ops
  induction ops with
  | nil =>
    intro f D b O w _ h hb
    exact ⟨[], b, hb, by rw [List.append_nil]; exact h.mono (fun c hc => .inl hc)⟩
  | cons o os ih =>
    intro f D b O w hv h hb
    unfold WFile.run
    apply Out.Sat.bind
    apply (step_live strerror full o hv.head h hb).mono
    · rintro ⟨s, f1⟩ w1 ⟨p, b', e1, e2⟩
      simp only
      apply Out.Sat.bind
      apply (ih f1 (D ++ p) b' _ w1 hv.tail e2 e1).mono
      · rintro ⟨ss, f2⟩ w2 ⟨q, b2, a1, a2⟩
        refine ⟨p ++ q, b2, a1, ?_⟩
        rw [← List.append_assoc]
        exact a2.mono (fun c hc => hc.trans (List.prefix_append _ _) (List.prefix_append _ _))
      · rintro w2 ⟨q, a1⟩
        refine ⟨p ++ q, ?_⟩
        rw [← List.append_assoc]
        exact a1.mono (fun c hc => hc.trans (List.prefix_append _ _) (List.prefix_append _ _))
    · rintro w1 ⟨p, e⟩
      exact ⟨p, e⟩

/-- A history without Close in which every call succeeded. -/
theorem run_ok {ino : Nat} : ∀ (ops : List WOp) (f : WFile) (D b : Bytes) (O : Bytes → Prop) (w : World),
    ValidOps ops → WOp.close ∉ ops → FileAt ino f.fd D O w → BufHas f b →
    (f.run strerror full ops w).Sat
      (fun r w' => (∀ s ∈ r.1, s = .ok) → ∃ p b', p ++ b' = b ++ appended ops ∧ BufHas r.2 b' ∧
        FileAt ino r.2.fd (D ++ p) (Ext O D (D ++ p)) w' ∧ Same f r.2)
      (fun _ => True) := by
  intro ops
  induction ops with
  | nil =>
    intro f D b O w _ _ h hb _
    exact ⟨[], b, by simp [appended], hb,
      by rw [List.append_nil]; exact h.mono (fun c hc => .inl hc), Same.refl f⟩
  | cons o os ih =>
    intro f D b O w hv hnc h hb
    have hno : o ≠ .close := by rintro rfl; exact hnc List.mem_cons_self
    unfold WFile.run
    apply Out.Sat.bind
    apply (step_open strerror full o hv.head h hb).mono
    · rintro ⟨s, f1⟩ w1 ⟨p, b', e0, e1, e2, e3, e4, e5, e6, _⟩
      simp only at e0 e1 e2 e3 e4 e5 e6 ⊢
      obtain ⟨e3, hsame⟩ := e3 hno
      apply Out.Sat.bind
      apply (ih f1 (D ++ p) b' _ w1 hv.tail (fun hm => hnc (List.mem_cons_of_mem _ hm)) e3 e1).mono
      · rintro ⟨ss, f2⟩ w2 hi hall
        simp only at hi hall
        have hs : s = .ok := hall s List.mem_cons_self
        obtain ⟨q, b2, a0, a1, a2, a3⟩ := hi (fun x hx => hall x (List.mem_cons_of_mem _ hx))
        refine ⟨p ++ q, b2, ?_, a1, ?_, ?_⟩
        · rw [List.append_assoc, a0, ← List.append_assoc, e4 hs, List.append_assoc, appended_cons]
        · rw [← List.append_assoc]
          exact a2.mono (fun c hc => hc.trans (List.prefix_append _ _) (List.prefix_append _ _))
        · exact ⟨a3.1.trans hsame.1, a3.2.1.trans hsame.2.1, a3.2.2.1.trans hsame.2.2.1, a3.2.2.2.trans hsame.2.2.2⟩
      · intro _ _; trivial
    · intro _ _; trivial

end Posix
end Lsmdb
