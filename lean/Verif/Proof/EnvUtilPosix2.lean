import Verif.Proof.EnvUtilPosix

/-!
# ReadFileToString on the POSIX Env; which system call failed
-/

namespace Lsmdb
namespace Iface

open MemEnv (St lit)
open Posix

section
variable (strerror : Strerror) (full : Bool)

/-- The reader while ReadFileToString works. -/
structure Reading (name : Bytes) (ino : Nat) (fd : Int) (D : Bytes) (p : Nat) (w : World) : Prop where
  file : ReadableAt w.k fd ino D p
  named : w.k.lookup (cstr name) = some ino
  quiet : ∀ c ∈ w.choices, Undisturbed name c

theorem Holds.undisturbed {k : Kernel} {name D : Bytes} {c : Choice} (h : Holds k name D) (hq : Undisturbed name c) :
    Holds (c.other k) name D := by
  obtain ⟨h0, ino, h1, n, h2⟩ := h
  exact ⟨h0, ino, by rw [(hq k).1, h1], n, (hq k).2.1 _ _ h2.1, h2.2⟩

/-- A choice that makes a `read` fail for good. -/
def Hard (c : Choice) : Prop := ∃ e, c.fail = some e ∧ e ≠ EINTR

theorem seqReadLoop_err (f : SeqFile) (ino n cap : Nat) (hn : n ≤ cap) : ∀ (fuel : Nat) (w : World) (D : Bytes) (p : Nat),
    w.choices.length < fuel → (∀ c ∈ w.choices, Alone ino f.fd c) → ReadableAt w.k f.fd ino D p →
    (seqReadLoop strerror f n cap fuel w).Sat (fun r _ => r.1 ≠ .ok → ∃ c ∈ w.choices, Hard c) (fun _ => True) := by
  intro fuel
  induction fuel with
  | zero => intro w D p h; omega
  | succ fuel ih =>
    intro w D p hf hg hr
    unfold seqReadLoop
    apply Out.Sat.bind
    unfold sysRead
    apply Out.Sat.sys (fun _ => trivial)
    intro c cs hcs
    have hmem : c ∈ w.choices := by rw [hcs]; exact List.mem_cons_self
    have hsuf : ∀ c ∈ cs, c ∈ w.choices := by intro c hc; rw [hcs]; exact List.mem_cons_of_mem _ hc
    have hr1 := hr.alone (hg c hmem)
    cases hfail : c.fail with
    | some e =>
      simp only []
      by_cases he : e = EINTR
      · rw [if_pos he]
        refine (ih _ D p (by rw [hcs] at hf; simp at hf ⊢; omega) (fun c hc => hg c (hsuf c hc)) hr1).mono ?_ (fun _ h => h)
        intro r w' h hne
        obtain ⟨c, h1, h2⟩ := h hne
        exact ⟨c, hsuf c h1, h2⟩
      · rw [if_neg he]
        exact Out.Sat.pure fun _ => ⟨c, hmem, e, hfail, he⟩
    | none =>
      obtain ⟨d, k', h1, h2, h3, h4, h5⟩ := kread_at hr1 n c.count
      simp only [h1]
      rw [if_pos (by omega)]
      exact Out.Sat.pure fun h => absurd rfl h

/-- One `Read`. -/
theorem Reading.read {name : Bytes} {ino : Nat} {f : SeqFile} {D : Bytes} {p : Nat} {w : World} (h : Reading name ino f.fd D p w) (n : Nat) :
    (f.Read strerror n n w).Sat (fun r w' => w'.choices <:+ w.choices ∧ ((∃ d, r = (.ok, some d) ∧ d <+: D.drop p ∧ (d = [] ↔ n = 0 ∨ D.length ≤ p) ∧
      Reading name ino f.fd D (p + d.length) w') ∨
      (r.1 ≠ .ok ∧ Reading name ino f.fd D p w' ∧ ∃ c ∈ w.choices, Hard c))) (fun _ => True) := by
  have hal : ∀ c ∈ w.choices, Alone ino f.fd c := fun c hc => Undisturbed.alone (h.quiet c hc) _ _
  have h1 := seqRead_at strerror f ino n n (Nat.le_refl _) w D p (fun c hc => (hal c hc).grows) h.file
  have h2 : (f.Read strerror n n w).Sat (fun r _ => r.1 ≠ .ok → ∃ c ∈ w.choices, Hard c) (fun _ => True) :=
    seqReadLoop_err strerror f ino n n (Nat.le_refl _) _ w D p (Nat.lt_succ_self _) hal h.file
  have h3 := Pres.sat (SeqRead_frame (lookup_frame (cstr name)) strerror f n n) (Undisturbed.same h.quiet) (h1.and h2)
  refine h3.mono ?_ (fun _ _ => trivial)
  rintro r w' ⟨⟨⟨a1, D', a2, a3, a4⟩, a5⟩, a6, a7⟩
  have hD := a3 hal
  subst hD
  have hn : w'.k.lookup (cstr name) = some ino := (show w'.k.lookup (cstr name) = w.k.lookup (cstr name) from a6).trans h.named
  have hq : ∀ c ∈ w'.choices, Undisturbed name c := fun c hc => h.quiet c (a1.subset hc)
  refine ⟨a1, ?_⟩
  rcases a4 with ⟨d, rfl, b1, b2, b3, b4⟩ | ⟨b1, b2, b3⟩
  · exact .inl ⟨d, rfl, b1, b3, b4, hn, hq⟩
  · exact .inr ⟨b1, ⟨b3, hn, hq⟩, a5 b1⟩

/-- The loop. -/
theorem readLoop_sat {name : Bytes} {ino : Nat} {f : SeqFile} {D : Bytes} {i : Nat} {e : PEnv} (he : e.has i (.seq f)) :
    ∀ (fuel : Nat) (p : Nat) (w : World), Reading name ino f.fd D p w → p ≤ D.length → D.length - p < fuel →
    ((readLoop (posixFiles strerror full) (.obj i) fuel (D.take p)).run e w).Sat (fun r w' => r.2 = e ∧ w'.choices <:+ w.choices ∧
      r.1.2 <+: D ∧ (r.1.1 = .ok → r.1.2 = D) ∧ (r.1.1 ≠ .ok → ∃ c ∈ w.choices, Hard c) ∧ ∃ p', Reading name ino f.fd D p' w')
      (fun _ => True) := by
  intro fuel
  induction fuel with
  | zero => intro p w _ _ h; omega
  | succ fuel ih =>
    intro p w h hp hf
    unfold readLoop
    apply sat_bindS
    apply seqRead_sat strerror full he
    refine (h.read strerror kBufferSize).mono ?_ (fun _ _ => trivial)
    rintro r w' ⟨a0, ⟨d, rfl, a1, a2, a3⟩ | ⟨a1, a2, a3⟩⟩
    · dsimp only []
      rw [if_neg (by simp)]
      dsimp only [Option.getD_some]
      by_cases hd : d = []
      · rw [if_pos hd]
        have hpl : D.length ≤ p := by
          rcases a2.1 hd with h | h
          · simp [kBufferSize] at h
          · exact h
        subst hd
        refine ⟨rfl, a0, ?_, ?_, ?_, ?_⟩
        · simp [List.take_of_length_le hpl]
        · intro _; simp [List.take_of_length_le hpl]
        · intro h; exact absurd rfl h
        · exact ⟨_, a3⟩
      · rw [if_neg hd]
        have hlen : 0 < d.length := List.length_pos_iff.2 hd
        have hle : d.length ≤ D.length - p := by simpa using a1.length_le
        have htk : D.take p ++ d = D.take (p + d.length) := by
          rw [List.take_add, ← List.prefix_iff_eq_take.1 a1]
        rw [htk]
        refine (ih (p + d.length) w' a3 (by omega) (by omega)).mono ?_ (fun _ h => h)
        rintro r2 w2 ⟨b1, b2, b3, b4, b5, b6⟩
        refine ⟨b1, b2.trans a0, b3, b4, fun h => ?_, b6⟩
        obtain ⟨c, hc, hh⟩ := b5 h
        exact ⟨c, a0.subset hc, hh⟩
    · obtain ⟨st, o⟩ := r
      dsimp only at a1 ⊢
      rw [if_pos a1]
      exact ⟨rfl, a0, List.take_prefix _ _, fun h => absurd h a1, fun _ => a3, _, a2⟩

/-- Opening for reading. -/
theorem newSequential_sat (e : PEnv) {name D : Bytes} {w : World} (h : Holds w.k name D) (hq : ∀ c ∈ w.choices, Undisturbed name c) :
    (e.NewSequentialFile strerror name w).Sat (fun r w' => ∃ c, w.choices = c :: w'.choices ∧
      ((r.1 ≠ .ok ∧ r.2 = (none, e) ∧ Holds w'.k name D ∧ c.fail ≠ none) ∨
       (r.1 = .ok ∧ ∃ i f ino, r.2.1 = some i ∧ r.2.2.has i (.seq f) ∧ Reading name ino f.fd D 0 w'))) (fun _ => True) := by
  unfold PEnv.NewSequentialFile
  apply Out.Sat.bind
  unfold sysOpen
  apply Out.Sat.sys (fun _ => trivial)
  intro c cs hcs
  have hmem : c ∈ w.choices := by rw [hcs]; exact List.mem_cons_self
  obtain ⟨h0, ino, h1, n, h2, h3, h4⟩ := Holds.undisturbed h (hq c hmem)
  cases hf : c.fail with
  | some er =>
    exact ⟨c, hcs, .inl ⟨PosixError_ne_ok _ _ _, rfl, ⟨h0, ino, h1, n, h2, h3, h4⟩, by rw [hf]; exact fun h => nomatch h⟩⟩
  | none =>
    have hk : kopen .rdonly (cstr name) (c.other w.k) = (.ok (Kernel.freeFd (c.other w.k).fds),
        { c.other w.k with fds := Kernel.putFd (c.other w.k).fds (Kernel.freeFd (c.other w.k).fds) (Mode.rdonly.ofd ino) }) := by
      simp [kopen, h0, h1, h2]
    simp only [hk]
    refine ⟨c, hcs, .inr ⟨rfl, _, ⟨Kernel.freeFd (c.other w.k).fds, name⟩, ino, rfl, ?_, ?_, h1, ?_⟩⟩
    · simp [PEnv.has, PEnv.alloc]
    · refine ⟨⟨ino, 0, false, true, false⟩, n, ?_, rfl, rfl, rfl, h2, h3, h4⟩
      simp [Kernel.ofd, putFd_get_same, Mode.ofd]
    · intro c hc; exact hq c (by rw [hcs]; exact List.mem_cons_of_mem _ hc)

/-- ReadFileToString. -/
theorem posix_read_sat (pr : Process) (e : PEnv) (name D : Bytes) (fuel : Nat) (hf : D.length < fuel) (w : World)
    (h : Holds w.k name D) (hq : ∀ c ∈ w.choices, Undisturbed name c) :
    ((ReadFileToString (PosixEnv strerror pr) (posixFiles strerror full) fuel name).run e w).Sat
      (fun r w' => w'.choices <:+ w.choices ∧ Holds w'.k name D ∧ r.1.2 <+: D ∧ (r.1.1 = .ok → r.1.2 = D) ∧
        (r.1.1 ≠ .ok → (∃ c ∈ w.choices.head?, c.fail ≠ none) ∨ ∃ c ∈ w.choices, Hard c))
      (fun _ => True) := by
  unfold ReadFileToString
  apply sat_bindS
  show ((do
    let (s, h, e) ← e.NewSequentialFile strerror name
    return ((s, Ptr.of h), e) : P ((St × Ptr) × PEnv)) w).Sat _ _
  apply Out.Sat.bind
  refine (newSequential_sat strerror e h hq).mono ?_ (fun _ _ => trivial)
  rintro ⟨st, hd, e1⟩ w1 ⟨c, hcs, ⟨h1, h2, h3, h4⟩ | ⟨h1, i, f, ino, h2, h3, h4⟩⟩
  · simp only [Prod.mk.injEq] at h1 h2
    obtain ⟨rfl, rfl⟩ := h2
    apply Out.Sat.pure
    dsimp only []
    apply sat_bindS
    show (((pure (Ptr.of none)) : StateT PEnv P Ptr).run _ w1).Sat _ _
    apply Out.Sat.pure
    dsimp only []
    rw [if_pos h1]
    refine ⟨by rw [hcs]; exact List.suffix_cons _ _, h3, List.nil_prefix, fun h => absurd h h1, fun _ => .inl ⟨c, by rw [hcs]; rfl, h4⟩⟩
  · simp only at h1 h2 h3
    subst h1 h2
    apply Out.Sat.pure
    dsimp only []
    apply sat_bindS
    show (((pure (Ptr.obj i)) : StateT PEnv P Ptr).run _ w1).Sat _ _
    apply Out.Sat.pure
    dsimp only []
    rw [if_neg (by simp)]
    have hsuf1 : w1.choices <:+ w.choices := by rw [hcs]; exact List.suffix_cons _ _
    apply sat_bindS
    refine (readLoop_sat strerror full h3 fuel 0 w1 h4 (Nat.zero_le _) (by omega)).mono ?_ (fun _ _ => trivial)
    rintro ⟨⟨st, d⟩, e2⟩ w2 ⟨a1, a2, a3, a4, a5, p', a6⟩
    dsimp only at a1 a3 a4 a5 ⊢
    subst a1
    apply sat_bindS
    rw [destroyUnique, if_neg (by simp)]
    apply deleteSeq_sat strerror full h3
    obtain ⟨g1, g2, g3⟩ := a6
    have hH : Holds w2.k name D := by
      obtain ⟨o, n, x1, x2, x3, x4, x5, x6, x7⟩ := g1
      exact ⟨h.1, ino, g2, n, x5, x6, x7⟩
    unfold sysClose
    apply Out.Sat.sys (fun _ => trivial)
    intro c2 cs2 hcs2
    have hH2 := Holds.undisturbed hH (g3 c2 (by rw [hcs2]; exact List.mem_cons_self))
    refine ⟨?_, ?_, a3, a4, fun h => ?_⟩
    · exact ((by rw [hcs2]; exact List.suffix_cons _ _ : cs2 <:+ w2.choices).trans a2).trans hsuf1
    · show Holds (Prod.snd (match (c2.other w2.k).ofd f.fd with | none => _ | some _ => _)) name D
      cases (c2.other w2.k).ofd f.fd with
      | none => exact hH2
      | some o => cases c2.fail <;> exact hH2
    · obtain ⟨c, hc, hh⟩ := a5 h
      exact .inr ⟨c, hsuf1.subset hc, hh⟩

end

end Iface
end Lsmdb
