import Verif.Proof.PosixErr
import Verif.Spec.PosixRead

/-! # POSIX sequential files -/

namespace Lsmdb
namespace Posix

open MemEnv (St lit)

variable (strerror : Strerror)

theorem Alone.grows {ino : Nat} {fd : Int} {c : Choice} (h : Alone ino fd c) : Grows ino fd c := by
  intro k
  refine ⟨(h k).2, fun n hn => ⟨n, (h k).1 n hn, rfl, List.prefix_refl _⟩⟩

theorem ReadableAt.grow {k : Kernel} {fd : Int} {ino : Nat} {D : Bytes} {p : Nat} (h : ReadableAt k fd ino D p)
    {c : Choice} (hc : Grows ino fd c) : ∃ D', D <+: D' ∧ ReadableAt (c.other k) fd ino D' p := by
  obtain ⟨o, n, h1, h2, h3, h4, h5, h6, h7⟩ := h
  obtain ⟨g1, g2⟩ := hc k
  obtain ⟨n', g3, g4, g5⟩ := g2 n h5
  exact ⟨n'.data, h7 ▸ g5, o, n', g1 ▸ h1, h2, h3, h4, g3, g4 ▸ h6, rfl⟩

theorem ReadableAt.alone {k : Kernel} {fd : Int} {ino : Nat} {D : Bytes} {p : Nat} (h : ReadableAt k fd ino D p)
    {c : Choice} (hc : Alone ino fd c) : ReadableAt (c.other k) fd ino D p := by
  obtain ⟨o, n, h1, h2, h3, h4, h5, h6, h7⟩ := h
  exact ⟨o, n, (hc k).2 ▸ h1, h2, h3, h4, (hc k).1 n h5, h6, h7⟩

theorem ReadableAt.contents {k : Kernel} {fd : Int} {ino : Nat} {D D' : Bytes} {p p' : Nat}
    (h : ReadableAt k fd ino D p) (h' : ReadableAt k fd ino D' p') : D = D' ∧ p = p' := by
  obtain ⟨o, n, h1, h2, h3, h4, h5, h6, h7⟩ := h
  obtain ⟨o', n', g1, g2, g3, g4, g5, g6, g7⟩ := h'
  rw [h1] at g1; injection g1 with g1
  rw [h5] at g5; injection g5 with g5
  subst g1 g5
  exact ⟨h7 ▸ g7, h4 ▸ g4⟩

theorem kread_at {k : Kernel} {fd : Int} {ino : Nat} {D : Bytes} {p : Nat} (h : ReadableAt k fd ino D p)
    (n count : Nat) : ∃ d k', kread fd n count k = (.ok d, k') ∧ d <+: D.drop p ∧ d.length ≤ n ∧
      (d = [] ↔ n = 0 ∨ D.length ≤ p) ∧ ReadableAt k' fd ino D (p + d.length) := by
  obtain ⟨o, i, h1, h2, h3, h4, h5, h6, h7⟩ := h
  unfold kread
  simp only [h1, h3, if_true, h2, h5, h6, Bool.false_eq_true, if_false, h4, h7]
  refine ⟨_, _, rfl, ?_, ?_, ?_, ?_⟩
  · exact (List.take_prefix _ _).trans (List.take_prefix _ _)
  · simp only [List.length_take, List.length_drop]; omega
  · rw [← List.length_eq_zero_iff]
    simp only [List.length_take, List.length_drop]
    omega
  · exact ⟨_, i, ofd_set_same h1, rfl, rfl, rfl, h5, h6, h7⟩

/-- What one `Read` does. -/
structure ReadPost (fd : Int) (ino : Nat) (D : Bytes) (p n : Nat) (cs : List Choice) (r : St × Option Bytes)
    (w' : World) : Prop where
  suffix : w'.choices <:+ cs
  post : ∃ D', D <+: D' ∧ ((∀ c ∈ cs, Alone ino fd c) → D' = D) ∧
    ((∃ d, r = (.ok, some d) ∧ d <+: D'.drop p ∧ d.length ≤ n ∧ (d = [] ↔ n = 0 ∨ D'.length ≤ p) ∧
      ReadableAt w'.k fd ino D' (p + d.length)) ∨
    (r.1 ≠ .ok ∧ r.2 = none ∧ ReadableAt w'.k fd ino D' p))

theorem seqReadLoop_at (f : SeqFile) (ino n cap : Nat) (hn : n ≤ cap) : ∀ (fuel : Nat) (w : World) (D : Bytes) (p : Nat),
    w.choices.length < fuel → (∀ c ∈ w.choices, Grows ino f.fd c) → ReadableAt w.k f.fd ino D p →
    (seqReadLoop strerror f n cap fuel w).Sat (ReadPost f.fd ino D p n w.choices) (fun _ => True) := by
  intro fuel
  induction fuel with
  | zero => intro w D p h; omega
  | succ fuel ih =>
    intro w D p hf hg hr
    unfold seqReadLoop
    apply Out.Sat.bind
    unfold sysRead
    apply Out.Sat.sys (fun _ => trivial)
    intro c cs hcs
    obtain ⟨D1, hD1, hr1⟩ := hr.grow (hg c (by rw [hcs]; exact List.mem_cons_self))
    have hsuf : cs <:+ w.choices := by rw [hcs]; exact List.suffix_cons _ _
    have hal : (∀ c ∈ w.choices, Alone ino f.fd c) → D1 = D := fun ha =>
      (hr1.contents (hr.alone (ha c (by rw [hcs]; exact List.mem_cons_self)))).1
    cases hfail : c.fail with
    | some e =>
      simp only []
      by_cases he : e = EINTR
      · rw [if_pos he]
        refine true_mono (ih _ D1 p (by rw [hcs] at hf; simp at hf ⊢; omega)
          (fun c hc => hg c (hsuf.subset hc)) hr1) ?_
        rintro a w' ⟨hs, D2, h1, h2, h3⟩
        refine ⟨hs.trans hsuf, D2, hD1.trans h1, ?_, h3⟩
        intro ha
        rw [h2 (fun c hc => ha c (hsuf.subset hc)), hal ha]
      · rw [if_neg he]
        exact Out.Sat.pure ⟨hsuf, D1, hD1, hal, .inr ⟨PosixError_ne_ok _ _ _, rfl, hr1⟩⟩
    | none =>
      obtain ⟨d, k', h1, h2, h3, h4, h5⟩ := kread_at hr1 n c.count
      simp only [h1]
      rw [if_pos (by omega)]
      exact Out.Sat.pure ⟨hsuf, D1, hD1, hal, .inl ⟨d, rfl, h2, h3, h4, h5⟩⟩

theorem seqRead_at (f : SeqFile) (ino n cap : Nat) (hn : n ≤ cap) (w : World) (D : Bytes) (p : Nat)
    (hg : ∀ c ∈ w.choices, Grows ino f.fd c) (hr : ReadableAt w.k f.fd ino D p) :
    (f.Read strerror n cap w).Sat (ReadPost f.fd ino D p n w.choices) (fun _ => True) :=
  seqReadLoop_at strerror f ino n cap hn _ w D p (Nat.lt_succ_self _) hg hr

theorem toOff_small {n : Nat} (h : n < 2 ^ 63) : toOff n = n := by
  unfold toOff
  have : n % 2 ^ 64 = n := Nat.mod_eq_of_lt (by omega)
  rw [this, if_pos h]

theorem toOff_big {n : Nat} (h : 2 ^ 63 ≤ n) (h' : n < 2 ^ 64) : toOff n = (n : Int) - 2 ^ 64 := by
  unfold toOff
  have : n % 2 ^ 64 = n := Nat.mod_eq_of_lt h'
  rw [this, if_neg (by omega)]

/-- What `lseek` does on a readable file. -/
theorem sysLseek_at {w : World} {fd : Int} {ino : Nat} {D : Bytes} {p : Nat} (off : Int)
    (hg : ∀ c ∈ w.choices, Grows ino fd c) (hr : ReadableAt w.k fd ino D p) :
    (sysLseekCur fd off w).Sat (fun r w' => w'.choices <:+ w.choices ∧
      ∃ D', D <+: D' ∧ ((∀ c ∈ w.choices, Alone ino fd c) → D' = D) ∧
      ((∃ q, r = .ok q ∧ (q : Int) = p + off ∧ ReadableAt w'.k fd ino D' q) ∨
       (∃ e, r = .error e ∧ ReadableAt w'.k fd ino D' p))) (fun _ => True) := by
  unfold sysLseekCur
  apply Out.Sat.sys (fun _ => trivial)
  intro c cs hcs
  obtain ⟨D1, hD1, hr1⟩ := hr.grow (hg c (by rw [hcs]; exact List.mem_cons_self))
  have hal : (∀ c ∈ w.choices, Alone ino fd c) → D1 = D := fun ha =>
    (hr1.contents (hr.alone (ha c (by rw [hcs]; exact List.mem_cons_self)))).1
  refine ⟨by rw [hcs]; exact List.suffix_cons _ _, D1, hD1, hal, ?_⟩
  cases hfail : c.fail with
  | some e => exact .inr ⟨e, rfl, hr1⟩
  | none =>
    simp only []
    have hr2 := hr1
    obtain ⟨o, i, h1, h2, h3, h4, h5, h6, h7⟩ := hr2
    simp only [h1, h4]
    by_cases ha : (p : Int) + off < 0
    · simp only [ha, if_true]; exact .inr ⟨_, rfl, hr1⟩
    · by_cases hb : (p : Int) + off ≥ 2 ^ 63
      · rw [if_neg ha, if_pos hb]; exact .inr ⟨_, rfl, hr1⟩
      · rw [if_neg ha, if_neg hb]
        exact .inl ⟨_, rfl, by omega, _, i, ofd_set_same h1, h2, h3, rfl, h5, h6, h7⟩

theorem seqSkip_at (f : SeqFile) (ino n : Nat) (w : World) (D : Bytes) (p : Nat)
    (hg : ∀ c ∈ w.choices, Grows ino f.fd c) (hr : ReadableAt w.k f.fd ino D p) :
    (f.Skip strerror n w).Sat (fun r w' => w'.choices <:+ w.choices ∧
      ∃ D', D <+: D' ∧ ((∀ c ∈ w.choices, Alone ino f.fd c) → D' = D) ∧
      ((∃ q : Nat, r = .ok ∧ (q : Int) = p + toOff n ∧ ReadableAt w'.k f.fd ino D' q) ∨
       (r ≠ .ok ∧ ReadableAt w'.k f.fd ino D' p))) (fun _ => True) := by
  unfold SeqFile.Skip
  apply Out.Sat.bind
  refine true_mono (sysLseek_at (toOff n) hg hr) ?_
  rintro r w' ⟨hs, D', h1, h2, h3⟩
  rcases h3 with ⟨q, rfl, h4, h5⟩ | ⟨e, rfl, h5⟩
  · exact Out.Sat.pure ⟨hs, D', h1, h2, .inl ⟨q, rfl, h4, h5⟩⟩
  · exact Out.Sat.pure ⟨hs, D', h1, h2, .inr ⟨PosixError_ne_ok _ _ _, h5⟩⟩

theorem drop_prefix_of_prefix {a b : Bytes} (h : a <+: b) (p : Nat) : a.drop p <+: b.drop p := by
  obtain ⟨t, rfl⟩ := h
  rw [List.drop_append]
  exact List.prefix_append _ _

theorem Walk.grow {D0 D D' D'' : Bytes} {p q : Nat} {os : List SOp} {rs : List (St × Option Bytes)}
    (h : Walk D D' p os rs q) (h0 : D0.length ≤ D.length) (h1 : D' <+: D'') : Walk D0 D'' p os rs q := by
  induction h with
  | nil p => exact .nil p
  | read p n q d os rs hd hl he _ ih =>
    exact .read p n q d os rs (hd.trans (drop_prefix_of_prefix h1 p)) hl (fun h => (he h).imp id (by omega)) ih
  | readErr p n q s os rs hs _ ih => exact .readErr p n q s os rs hs ih
  | skip p n q os rs _ ih => exact .skip p n q os rs ih
  | skipErr p n q s os rs hs _ ih => exact .skipErr p n q s os rs hs ih

theorem seq_run (f : SeqFile) (ino : Nat) : ∀ (ops : List SOp) (w : World) (D : Bytes) (p : Nat),
    (∀ n, SOp.skip n ∈ ops → n < 2 ^ 63) →
    (∀ c ∈ w.choices, Grows ino f.fd c) → ReadableAt w.k f.fd ino D p →
    (f.run strerror ops w).Sat (fun rs w' => w'.choices <:+ w.choices ∧ ∃ D' q, D <+: D' ∧
      ((∀ c ∈ w.choices, Alone ino f.fd c) → D' = D) ∧ Walk D D' p ops rs q ∧ ReadableAt w'.k f.fd ino D' q)
      (fun _ => True) := by
  intro ops
  induction ops with
  | nil =>
    intro w D p _ hg hr
    exact Out.Sat.pure ⟨List.suffix_refl _, D, p, List.prefix_refl _, fun _ => rfl, .nil p, hr⟩
  | cons op ops ih =>
    intro w D p hsk hg hr
    have hsk' : ∀ n, SOp.skip n ∈ ops → n < 2 ^ 63 := fun n hn => hsk n (List.mem_cons_of_mem _ hn)
    cases op with
    | read n =>
      unfold SeqFile.run
      apply Out.Sat.bind
      refine true_mono (seqRead_at strerror f ino n n (Nat.le_refl _) w D p hg hr) ?_
      rintro r w1 ⟨hs, D1, h1, h2, h3⟩
      have hg1 : ∀ c ∈ w1.choices, Grows ino f.fd c := fun c hc => hg c (hs.subset hc)
      apply Out.Sat.bind
      rcases h3 with ⟨d, rfl, g1, g2, g3, g4⟩ | ⟨g1, g2, g3⟩
      · refine true_mono (ih w1 D1 _ hsk' hg1 g4) ?_
        rintro rs w2 ⟨hs2, D2, q, k1, k2, k3, k4⟩
        refine Out.Sat.pure ⟨hs2.trans hs, D2, q, h1.trans k1, ?_, ?_, k4⟩
        · intro ha; rw [k2 (fun c hc => ha c (hs.subset hc)), h2 ha]
        · refine .read p n q d ops rs (g1.trans (drop_prefix_of_prefix k1 p)) g2 ?_
            (k3.grow h1.length_le (List.prefix_refl _))
          intro hd
          exact (g3.1 hd).imp id (fun h => Nat.le_trans h1.length_le h)
      · refine true_mono (ih w1 D1 p hsk' hg1 g3) ?_
        rintro rs w2 ⟨hs2, D2, q, k1, k2, k3, k4⟩
        refine Out.Sat.pure ⟨hs2.trans hs, D2, q, h1.trans k1, ?_, ?_, k4⟩
        · intro ha; rw [k2 (fun c hc => ha c (hs.subset hc)), h2 ha]
        · obtain ⟨s, d⟩ := r
          simp only at g1 g2
          subst g2
          exact .readErr p n q s ops rs g1 (k3.grow h1.length_le (List.prefix_refl _))
    | skip n =>
      unfold SeqFile.run
      apply Out.Sat.bind
      refine true_mono (seqSkip_at strerror f ino n w D p hg hr) ?_
      rintro r w1 ⟨hs, D1, h1, h2, h3⟩
      have hg1 : ∀ c ∈ w1.choices, Grows ino f.fd c := fun c hc => hg c (hs.subset hc)
      apply Out.Sat.bind
      rcases h3 with ⟨q1, rfl, g1, g4⟩ | ⟨g1, g3⟩
      · rw [toOff_small (hsk n List.mem_cons_self)] at g1
        have : q1 = p + n := by omega
        subst this
        refine true_mono (ih w1 D1 _ hsk' hg1 g4) ?_
        rintro rs w2 ⟨hs2, D2, q, k1, k2, k3, k4⟩
        refine Out.Sat.pure ⟨hs2.trans hs, D2, q, h1.trans k1, ?_, ?_, k4⟩
        · intro ha; rw [k2 (fun c hc => ha c (hs.subset hc)), h2 ha]
        · exact .skip p n q ops rs (k3.grow h1.length_le (List.prefix_refl _))
      · refine true_mono (ih w1 D1 p hsk' hg1 g3) ?_
        rintro rs w2 ⟨hs2, D2, q, k1, k2, k3, k4⟩
        refine Out.Sat.pure ⟨hs2.trans hs, D2, q, h1.trans k1, ?_, ?_, k4⟩
        · intro ha; rw [k2 (fun c hc => ha c (hs.subset hc)), h2 ha]
        · exact .skipErr p n q r ops rs g1 (k3.grow h1.length_le (List.prefix_refl _))

/-- Reads alone receive the contents from the position on. -/
theorem Walk.received {D D' : Bytes} {p q : Nat} {os : List SOp} {rs : List (St × Option Bytes)}
    (h : Walk D D' p os rs q) (hn : ∀ n, SOp.skip n ∉ os) :
    received rs <+: D'.drop p ∧ q = p + (received rs).length := by
  induction h with
  | nil p => exact ⟨List.nil_prefix, rfl⟩
  | read p n q d os rs hd hl he _ ih =>
    obtain ⟨i1, i2⟩ := ih (fun n h => hn n (List.mem_cons_of_mem _ h))
    simp only [Posix.received, Option.getD_some]
    refine ⟨?_, by rw [i2]; simp; omega⟩
    obtain ⟨t, ht⟩ := hd
    obtain ⟨u, hu⟩ := i1
    refine ⟨u, ?_⟩
    rw [List.append_assoc, hu, ← ht]
    congr 1
    rw [← List.drop_drop, ← ht, List.drop_append]
    simp
  | readErr p n q s os rs hs _ ih =>
    simpa [Posix.received] using ih (fun n h => hn n (List.mem_cons_of_mem _ h))
  | skip p n q os rs _ _ => exact absurd List.mem_cons_self (hn n)
  | skipErr p n q s os rs hs _ _ => exact absurd List.mem_cons_self (hn n)

end Posix
end Lsmdb
