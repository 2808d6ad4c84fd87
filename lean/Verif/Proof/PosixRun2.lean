import Verif.Proof.PosixTrace
import Verif.Proof.Slice
import Mathlib.Data.List.TakeWhile

/-! # PosixWritableFile: histories, with crash contents -/

namespace Lsmdb
namespace Posix

open MemEnv (St lit)

variable (strerror : Strerror) (full : Bool)

theorem rfind_spec (s : Bytes) : (∀ b ∈ s, b ≠ 47) ∧ rfindSlash s = none ∨
    ∃ a b, s = a ++ 47 :: b ∧ (∀ x ∈ b, x ≠ 47) ∧ rfindSlash s = some a.length := by
  unfold rfindSlash
  by_cases h : (47 : UInt8) ∈ s
  · right
    have hr : (47 : UInt8) ∈ s.reverse := List.mem_reverse.2 h
    generalize hb : s.reverse.takeWhile (fun b => decide (b ≠ 47)) = t
    generalize hd : s.reverse.dropWhile (fun b => decide (b ≠ 47)) = u
    have htu : t ++ u = s.reverse := by rw [← hb, ← hd]; exact List.takeWhile_append_dropWhile
    have ht : ∀ x ∈ t, x ≠ 47 := by
      intro x hx
      rw [← hb] at hx
      simpa using List.mem_takeWhile_imp hx
    cases u with
    | nil =>
      exfalso
      rw [List.append_nil] at htu
      rw [← htu] at hr
      exact ht _ hr rfl
    | cons y u =>
      have hy : y = 47 := by
        have := List.head?_dropWhile_not (fun b : UInt8 => decide (b ≠ 47)) s.reverse
        rw [hd] at this
        simpa using this
      subst hy
      have hs : s = u.reverse ++ 47 :: t.reverse := by
        have := congrArg List.reverse htu
        simpa using this.symm
      refine ⟨u.reverse, t.reverse, hs, by simpa using ht, ?_⟩
      have hlen : s.length = u.length + 1 + t.length := by rw [hs]; simp; omega
      rw [if_neg (by omega)]
      congr 1
      simp; omega
  · left
    refine ⟨fun b hb e => h (e ▸ hb), ?_⟩
    rw [if_pos]
    rw [List.takeWhile_eq_self_iff.2]
    · simp
    · intro x hx
      simp only [List.mem_reverse] at hx
      have : x ≠ 47 := by rintro rfl; exact h hx
      simpa using this

theorem noSlashFrom_ok {a b : Bytes} (h : ∀ x ∈ b, x ≠ 47) : noSlashFrom (a ++ 47 :: b) (a.length + 1) = true := by
  unfold noSlashFrom
  have : (a ++ 47 :: b).drop (a.length + 1) = b := by
    rw [List.drop_append]; simp
  rw [this]
  simpa using h

theorem Dirname_eq (s : Bytes) : ((∀ b ∈ s, b ≠ 47) ∧ Dirname s = .ok (lit ".")) ∨
    ∃ a b, s = a ++ 47 :: b ∧ (∀ x ∈ b, x ≠ 47) ∧ Dirname s = .ok a := by
  rcases rfind_spec s with ⟨h1, h2⟩ | ⟨a, b, rfl, h1, h2⟩
  · left; refine ⟨h1, ?_⟩; unfold Dirname; rw [h2]; rfl
  · right
    refine ⟨a, b, rfl, h1, ?_⟩
    unfold Dirname; rw [h2]; simp only []
    rw [noSlashFrom_ok h1]
    simp [cassert, pure, Except.pure, bind, Except.bind]

theorem Basename_eq (s : Bytes) : ((∀ b ∈ s, b ≠ 47) ∧ Basename s = .ok (Slice.ofBytes s)) ∨
    ∃ a b, s = a ++ 47 :: b ∧ (∀ x ∈ b, x ≠ 47) ∧ Basename s = .ok ⟨s, a.length + 1, b.length⟩ := by
  rcases rfind_spec s with ⟨h1, h2⟩ | ⟨a, b, rfl, h1, h2⟩
  · left; refine ⟨h1, ?_⟩; unfold Basename; rw [h2]; rfl
  · right
    refine ⟨a, b, rfl, h1, ?_⟩
    unfold Basename; rw [h2]; simp only []
    rw [noSlashFrom_ok h1]
    simp [cassert, pure, Except.pure, bind, Except.bind]

theorem baseOf_none {s : Bytes} (h : ∀ b ∈ s, b ≠ 47) : baseOf s = s := by
  unfold baseOf
  rw [List.takeWhile_eq_self_iff.2 (by simpa using h)]
  simp

theorem baseOf_some {a b : Bytes} (h : ∀ x ∈ b, x ≠ 47) : baseOf (a ++ 47 :: b) = b := by
  unfold baseOf
  rw [List.reverse_append, List.reverse_cons, List.append_assoc, List.takeWhile_append_of_pos (by simpa using h)]
  simp

theorem parentDir_some {a b : Bytes} (h : ∀ x ∈ b, x ≠ 47) (ha : a ≠ []) : parentDir (a ++ 47 :: b) = a := by
  unfold parentDir
  rw [show (List.takeWhile (fun b => decide (b ≠ 47)) (a ++ 47 :: b).reverse).reverse = b from baseOf_some h]
  have : 0 < a.length := List.length_pos_iff.2 ha
  simp only []
  rw [if_neg (by simp; omega), if_neg (by simp; omega)]
  have : (a ++ 47 :: b).length - b.length - 1 = a.length := by simp; omega
  rw [this, List.take_append]; simp

theorem parentDir_none {s : Bytes} (h : ∀ x ∈ s, x ≠ 47) : parentDir s = [46] := by
  unfold parentDir
  rw [show (List.takeWhile (fun b => decide (b ≠ 47)) s.reverse).reverse = s from baseOf_none h]
  simp

theorem parentDir_eq (name : Bytes) (hroot : name.head? ≠ some 47 ∨ 2 ≤ name.count 47) :
    Dirname name = .ok (parentDir name) := by
  rcases Dirname_eq name with ⟨h1, h2⟩ | ⟨a, b, rfl, h1, h2⟩
  · rw [h2, parentDir_none h1]; rfl
  · rw [h2, parentDir_some h1]
    rintro rfl
    rcases hroot with h | h
    · exact h rfl
    · have : b.count 47 = 0 := List.count_eq_zero.2 (fun h => h1 47 h rfl)
      simp [this] at h

theorem cstr_eq {s : Bytes} (h : 0 ∉ s) : cstr s = s := by
  unfold cstr
  apply List.takeWhile_eq_self_iff.2
  intro x hx
  have : x ≠ 0 := by rintro rfl; exact h hx
  simpa using this

theorem cstr_parentDir {s : Bytes} (h : 0 ∉ s) : cstr (parentDir s) = parentDir s := by
  apply cstr_eq
  unfold parentDir
  simp only []
  split
  · simp
  · split
    · simp
    · intro hm; exact h (List.mem_of_mem_take hm)

theorem IsManifest_eq (s : Bytes) : IsManifest s = .ok (decide (lit "MANIFEST" <+: baseOf s)) := by
  have hx : (Slice.ofBytes (lit "MANIFEST")).WF := by unfold Slice.WF Slice.ofBytes; simp
  have hxb : (Slice.ofBytes (lit "MANIFEST")).bytes = lit "MANIFEST" := by
    unfold Slice.bytes Slice.ofBytes; simp
  unfold IsManifest
  rcases Basename_eq s with ⟨h1, h2⟩ | ⟨a, b, rfl, h1, h2⟩
  · rw [h2]
    show Slice.startsWith _ _ = _
    rw [Slice.startsWith_eq _ _ (by unfold Slice.WF Slice.ofBytes; simp) hx, hxb, baseOf_none h1]
    unfold Slice.bytes Slice.ofBytes; simp
  · rw [h2]
    show Slice.startsWith _ _ = _
    rw [Slice.startsWith_eq _ _ (by unfold Slice.WF; simp; omega) hx, hxb, baseOf_some h1]
    unfold Slice.bytes
    rw [List.drop_append, List.drop_eq_nil_of_le (by simp)]; simp

theorem new_eq (name : Bytes) (fd : Int) : ∃ m d, IsManifest name = .ok m ∧ Dirname name = .ok d ∧
    WFile.new name fd = .ok ⟨fun _ => none, 0, fd, m, name, d⟩ := by
  have h1 := IsManifest_eq name
  have h2 : ∃ d, Dirname name = .ok d := by
    rcases Dirname_eq name with ⟨_, h⟩ | ⟨a, b, _, _, h⟩
    · exact ⟨_, h⟩
    · exact ⟨_, h⟩
  obtain ⟨d, h2⟩ := h2
  refine ⟨_, d, h1, h2, ?_⟩
  unfold WFile.new; rw [h1, h2]; rfl

theorem Opened.buf {name : Bytes} {f : WFile} {ino : Nat} {base : Bytes} {w : World}
    (h : Opened name f ino base w) : BufHas f [] ∧ f.filename = name ∧ IsManifest name = .ok f.is_manifest ∧
      Dirname name = .ok f.dirname := by
  obtain ⟨m, d, h1, h2, h3⟩ := new_eq name f.fd
  have := h.new
  rw [h3] at this
  injection this with this
  rw [← this]
  exact ⟨⟨rfl, Nat.zero_le _, fun i hi => absurd hi (by simp)⟩, rfl, h1, h2⟩

theorem Opened.fileAt {name : Bytes} {f : WFile} {ino : Nat} {base : Bytes} {w : World}
    (h : Opened name f ino base w) : FileAt ino f.fd base (CouldBe w.k ino) w := by
  obtain ⟨o, n, h1, h2, h3, h4, h5, h6, h7⟩ := h.file
  exact ⟨h.alone, o, n, h1, h2, h3, h4, h5, h6, h7, fun c hc => ⟨n, h5, .inr hc⟩⟩

theorem Opened.base {name : Bytes} {f : WFile} {ino : Nat} {base : Bytes} {w : World}
    (h : Opened name f ino base w) : CouldBe w.k ino base := by
  obtain ⟨o, n, h1, h2, h3, h4, h5, h6, h7⟩ := h.file
  exact ⟨n, h5, .inl h7.symm⟩

theorem InoAt.contents {ino : Nat} {D : Bytes} {O : Bytes → Prop} {w : World} (h : InoAt ino D O w) :
    Contents w.k ino = some D := by
  obtain ⟨_, n, h1, _, h2, _⟩ := h
  unfold Contents; rw [h1, ← h2]; rfl

theorem InoAt.couldBe {ino : Nat} {D : Bytes} {O : Bytes → Prop} {w : World} (h : InoAt ino D O w) {c : Bytes}
    (hc : CouldBe w.k ino c) : c = D ∨ O c := by
  obtain ⟨_, n, h1, _, h2, h3⟩ := h
  obtain ⟨m, e1, e2⟩ := hc
  rw [h1] at e1
  injection e1 with e1
  subst e1
  rcases e2 with e2 | e2
  · left; rw [e2, h2]
  · right; exact h3 c e2

theorem FileAt.writable {ino : Nat} {fd : Int} {D : Bytes} {O : Bytes → Prop} {w : World}
    (h : FileAt ino fd D O w) : WritableAt w.k fd ino D := by
  obtain ⟨_, o, n, h1, h2, h3, h4, h5, h6, h7, _⟩ := h
  exact ⟨o, n, h1, h2, h3, h4, h5, h6, h7⟩

theorem run_append : ∀ (a b : List WOp) (f : WFile) (w : World),
    f.run strerror full (a ++ b) w =
      (match f.run strerror full a w with
        | .done (ss, f1) w1 =>
          match f1.run strerror full b w1 with
          | .done (ts, f2) w2 => .done (ss ++ ts, f2) w2
          | .crash w2 => .crash w2
          | .fault e => .fault e
        | .crash w1 => .crash w1
        | .fault e => .fault e) := by
  intro a
  induction a with
  | nil =>
    intro b f w
    simp only [List.nil_append, WFile.run, pure_eq]
    cases f.run strerror full b w with
    | done r w => obtain ⟨ts, f2⟩ := r; rfl
    | crash w => rfl
    | fault e => rfl
  | cons o os ih =>
    intro b f w
    simp only [List.cons_append, WFile.run, bind_eq]
    cases f.step strerror full o w with
    | crash w => rfl
    | fault e => rfl
    | done r w1 =>
      obtain ⟨s, f1⟩ := r
      simp only [bind_eq, ih]
      cases f1.run strerror full os w1 with
      | crash w => rfl
      | fault e => rfl
      | done r w2 =>
        obtain ⟨ss, f2⟩ := r
        simp only [pure_eq]
        cases f2.run strerror full b w2 with
        | crash w => rfl
        | fault e => rfl
        | done r w3 => rfl

theorem run_one (o : WOp) (f : WFile) (w : World) :
    f.run strerror full [o] w = (match f.step strerror full o w with
      | .done (s, f1) w1 => .done ([s], f1) w1
      | .crash w1 => .crash w1
      | .fault e => .fault e) := by
  simp only [WFile.run, bind_eq]
  cases f.step strerror full o w <;> rfl

theorem run_len : ∀ (ops : List WOp) (f : WFile) (w : World) (ss : List St) (f1 : WFile) (w1 : World),
    f.run strerror full ops w = .done (ss, f1) w1 → ss.length = ops.length := by
  intro ops
  induction ops with
  | nil =>
    intro f w ss f1 w1 h
    simp only [WFile.run, pure_eq] at h
    injection h with h1 h2
    injection h1 with h1
    rw [← h1]; rfl
  | cons o os ih =>
    intro f w ss f1 w1 h
    simp only [WFile.run, bind_eq] at h
    cases hs : f.step strerror full o w with
    | crash w => rw [hs] at h; exact nomatch h
    | fault e => rw [hs] at h; exact nomatch h
    | done r w2 =>
      obtain ⟨s, f2⟩ := r
      rw [hs] at h
      simp only [bind_eq] at h
      cases hs2 : f2.run strerror full os w2 with
      | crash w => rw [hs2] at h; exact nomatch h
      | fault e => rw [hs2] at h; exact nomatch h
      | done r w3 =>
        obtain ⟨ts, f3⟩ := r
        rw [hs2] at h
        simp only [pure_eq] at h
        injection h with h1 h2
        injection h1 with h1
        rw [← h1, List.length_cons, List.length_cons, ih f2 w2 ts f3 w3 hs2]

/-- Everything successful so far. -/
theorem Opened.run {name : Bytes} {f : WFile} {ino : Nat} {base : Bytes} {w : World}
    (h : Opened name f ino base w) {ops : List WOp} (hv : ValidOps ops) (hc : WOp.close ∉ ops)
    {ss : List St} {f1 : WFile} {w1 : World} (hr : f.run strerror full ops w = .done (ss, f1) w1)
    (hok : AllOk ss) : ∃ p b, p ++ b = appended ops ∧ BufHas f1 b ∧
      FileAt ino f1.fd (base ++ p) (Ext (CouldBe w.k ino) base (base ++ p)) w1 ∧ Same f f1 := by
  have := (run_ok strerror full ops f base [] _ w hv hc h.fileAt h.buf.1).done hr hok
  obtain ⟨p, b', h1, h2, h3, h4⟩ := this
  exact ⟨p, b', by rw [h1]; rfl, h2, h3, h4⟩

/-- Whatever happened so far. -/
theorem Opened.runAny {name : Bytes} {f : WFile} {ino : Nat} {base : Bytes} {w : World}
    (h : Opened name f ino base w) {ops : List WOp} (hv : ValidOps ops)
    {ss : List St} {f1 : WFile} {w1 : World} (hr : f.run strerror full ops w = .done (ss, f1) w1) :
    ∃ p b, BufHas f1 b ∧ Live ino f1 (base ++ p) (Ext (CouldBe w.k ino) base (base ++ p)) w1 :=
  (run_live strerror full ops f base [] _ w hv (.inl h.fileAt) h.buf.1).done hr

theorem step_reported {f : WFile} {b : Bytes} (op : WOp) (hv : ValidOps [op]) (hb : BufHas f b) (w : World) :
    (f.step strerror full op w).Sat
      (fun r w' => ∃ l, Made w w' l ∧ r.2.filename = f.filename ∧ (∃ b', BufHas r.2 b') ∧
        r.2.is_manifest = f.is_manifest ∧ r.2.dirname = f.dirname ∧ (op ≠ .close → r.2.fd = f.fd) ∧
        ∀ fd d e, Call.write fd d (.error e) ∈ l → e ≠ EINTR → r.1 = PosixError strerror f.filename e)
      (fun _ => True) := by
  have hwr : ∀ {l : List Call} {st : St}, (∀ x ∈ l, IsWrite f.fd x) → Reported strerror f.filename f.fd l st →
      ∀ fd d e, Call.write fd d (.error e) ∈ l → e ≠ EINTR → st = PosixError strerror f.filename e := by
    intro l st h1 h2 fd d e hm hne
    obtain ⟨d', r', e'⟩ := h1 _ hm
    injection e' with e1 e2 e3
    rw [e1] at hm
    exact h2.1 d e hm hne
  cases op with
  | append d =>
    apply (Append_trace strerror d (hv d (List.mem_singleton.2 rfl)) hb w).mono
    · rintro r w1 ⟨l, e1, e2, e3, e4, e5⟩
      exact ⟨l, e1, e4.2.2.1, e5, e4.2.1, e4.2.2.2, fun _ => e4.1, hwr e2 e3⟩
    · intro _ _; trivial
  | flush =>
    apply (FlushBuffer_trace strerror hb w).mono
    · rintro r w1 ⟨l, e1, e2, e3, e4⟩
      exact ⟨l, e1, by rw [e4], ⟨[], by rw [e4]; exact BufHas.zero f⟩, by rw [e4], by rw [e4], fun _ => by rw [e4], hwr e2 e3⟩
    · intro _ _; trivial
  | sync =>
    apply (Sync_trace strerror full hb w).mono
    · rintro r w1 ⟨pre, post, e1, e2, e3, e4, e5, e6, e7, e8, e9⟩
      refine ⟨pre ++ post, e1, ?_, ?_, by rcases e9 with e9 | e9 <;> rw [e9],
        by rcases e9 with e9 | e9 <;> rw [e9], fun _ => by rcases e9 with e9 | e9 <;> rw [e9], ?_⟩
      · rcases e9 with e9 | e9 <;> rw [e9]
      · rcases e9 with e9 | e9
        · exact ⟨b, by rw [e9]; exact hb⟩
        · exact ⟨[], by rw [e9]; exact BufHas.zero f⟩
      · intro fd d e hm hne
        rcases List.mem_append.1 hm with hm | hm
        · exact absurd rfl (e2 _ hm fd d (.error e))
        · rcases e3 _ hm with ⟨d', r', h⟩ | ⟨ok, h⟩
          · injection h with h1 _ _
            rw [h1] at hm
            exact e7 d e hm hne
          · exact nomatch h
    · intro _ _; trivial
  | close =>
    apply (Close_trace strerror hb w).mono
    · rintro r w1 ⟨l, c, e1, e2, e3, e4⟩
      refine ⟨_, e1, by rw [e4], ⟨[], by rw [e4]; exact ⟨rfl, Nat.zero_le _, fun i hi => absurd hi (by simp)⟩⟩,
        by rw [e4], by rw [e4], fun h => absurd rfl h, ?_⟩
      intro fd d e hm hne
      rcases List.mem_append.1 hm with hm | hm
      · obtain ⟨d', r', e'⟩ := e2 _ hm
        injection e' with i1 i2 i3
        rw [i1] at hm
        exact e3 d e hm hne
      · simp at hm
    · intro _ _; trivial

/-- A history on a closed file. -/
theorem run_closed {ino : Nat} {D : Bytes} {O : Bytes → Prop} : ∀ (ops : List WOp) (f : WFile) (b : Bytes)
    (w : World), ValidOps ops → f.fd = -1 → InoAt ino D O w → BufHas f b →
    (f.run strerror full ops w).Sat
      (fun r w' => ∃ b', r.2.fd = -1 ∧ BufHas r.2 b' ∧ InoAt ino D O w')
      (fun w' => InoAt ino D O w') := by
  intro ops
  induction ops with
  | nil => intro f b w _ hf h hb; exact ⟨b, hf, hb, h⟩
  | cons o os ih =>
    intro f b w hv hf h hb
    unfold WFile.run
    apply Out.Sat.bind
    apply (step_closed strerror full o hv.head hf h hb).mono
    · rintro ⟨s, f1⟩ w1 ⟨b', e1, e2, e3, _⟩
      simp only at e1 e2 ⊢
      apply Out.Sat.bind
      apply (ih f1 b' w1 hv.tail e2 e3 e1).mono
      · rintro ⟨ss, f2⟩ w2 h2; exact h2
      · intro w2 h2; exact h2
    · intro w1 h1; exact h1

/-- The object after Close. -/
theorem Opened.closed {name : Bytes} {f : WFile} {ino : Nat} {base : Bytes} {w : World}
    (h : Opened name f ino base w) {ops : List WOp} (hv : ValidOps ops)
    {ss : List St} {f1 : WFile} {w1 : World} (hr : f.run strerror full (ops ++ [.close]) w = .done (ss, f1) w1) :
    ∃ D O, f1.fd = -1 ∧ InoAt ino D O w1 ∧ BufHas f1 [] := by
  rw [run_append] at hr
  cases h1 : f.run strerror full ops w with
  | crash w => rw [h1] at hr; exact nomatch hr
  | fault e => rw [h1] at hr; exact nomatch hr
  | done r wa =>
    obtain ⟨ss1, fa⟩ := r
    rw [h1] at hr
    simp only [run_one] at hr
    cases h2 : fa.step strerror full .close wa with
    | crash w => rw [h2] at hr; exact nomatch hr
    | fault e => rw [h2] at hr; exact nomatch hr
    | done r wb =>
      obtain ⟨s, fb⟩ := r
      rw [h2] at hr
      simp only [] at hr
      injection hr with hr1 hr2
      injection hr1 with hr1 hr3
      subst hr1 hr2 hr3
      obtain ⟨p, b, e1, e2⟩ := h.runAny strerror full hv h1
      have hvs : ValidOps [WOp.close] := by
        intro d hd; rw [List.mem_singleton] at hd; exact nomatch hd
      obtain ⟨l, c, _, _, _, e4⟩ := (Close_trace strerror e1 wa).done h2
      simp only at e4
      obtain ⟨q, b', _, a2⟩ := (step_live strerror full .close hvs e2 e1).done h2
      refine ⟨_, _, by rw [e4], a2.ino, ?_⟩
      rw [e4]
      exact ⟨rfl, Nat.zero_le _, fun i hi => absurd hi (by simp)⟩

end Posix
end Lsmdb
