import Verif.Spec.PosixApart
import Verif.Proof.PosixReads2
import Verif.Proof.PosixNs

/-! What a step does to a file that it does not name. -/

namespace Lsmdb
namespace Posix

open MemEnv (St lit)

namespace Conc

/-- A descriptor through which the file can be changed (`ro`: only those that are open for writing count). -/
def Grasp (ro : Bool) (ino : Nat) (q : Ofd) : Prop := q.ino = ino ∧ (ro = true → q.wr = true)

/-- The relation between the file before and after. -/
def Unmoved (ro : Bool) (a b : Option Inode) : Prop := if ro then SameData a b else b = a

/-- The step does not name the file. -/
def Cmd.elsewhere (ro : Bool) (n : Bytes) : Cmd → Prop
  | .open m p => cstr p ≠ n ∨ (ro = true ∧ m = .rdonly)
  | .opendir p => cstr p ≠ n ∨ ro = true
  | .unlink p => cstr p ≠ n
  | .mkdir p => cstr p ≠ n
  | .rmdir p => cstr p ≠ n
  | .rename a b => cstr a ≠ n ∧ cstr b ≠ n
  | _ => True

/-- The descriptor through which the step changes a file. -/
def Cmd.alters : Cmd → Option Int
  | .write fd _ => some fd
  | .sync fd => some fd
  | _ => none

section
variable (ro : Bool) (name : Bytes) (ino : Nat)

/-- From `k` to `k'`: the names of the file stay, there are no new descriptors of it, the contents stay if `P`. -/
structure Apart (P : Prop) (k k' : Kernel) : Prop where
  names : OnlyName k' name ino
  node : ∃ a, k'.inodes[ino]? = some a
  fds : ∀ i q, k'.ofd i = some q → Grasp ro ino q → ∃ q', k.ofd i = some q' ∧ Grasp ro ino q'
  same : P → Unmoved ro (k.inodes[ino]?) (k'.inodes[ino]?)

end

variable {ro : Bool} {name : Bytes} {ino : Nat}

theorem SameData.refl (a : Option Inode) : SameData a a := fun n hn => ⟨n, hn, rfl, rfl, fun _ h => h⟩

theorem Unmoved.refl (a : Option Inode) : Unmoved ro a a := by
  unfold Unmoved
  split
  · exact SameData.refl a
  · rfl

theorem SameData.trans {a b c : Option Inode} (h1 : SameData a b) (h2 : SameData b c) : SameData a c := by
  intro n hn
  obtain ⟨n1, e1, d1, f1, g1⟩ := h1 n hn
  obtain ⟨n2, e2, d2, f2, g2⟩ := h2 n1 e1
  exact ⟨n2, e2, d2.trans d1, f2.trans f1, fun d hd => g1 d (g2 d hd)⟩

theorem Unmoved.trans {a b c : Option Inode} (h1 : Unmoved ro a b) (h2 : Unmoved ro b c) : Unmoved ro a c := by
  unfold Unmoved at *
  split at h1
  · rename_i h; rw [if_pos h] at h2 ⊢; exact h1.trans h2
  · rename_i h; rw [if_neg h] at h2 ⊢; exact h2.trans h1

variable {P : Prop} {k : Kernel}

theorem Apart.refl (hn : OnlyName k name ino) (hi : ∃ a, k.inodes[ino]? = some a) : Apart ro name ino P k k :=
  ⟨hn, hi, fun _ q h1 h2 => ⟨q, h1, h2⟩, fun _ => Unmoved.refl _⟩

/-- Only the names change. -/
theorem Apart.rename (hi : ∃ a, k.inodes[ino]? = some a) {k' : Kernel} (hn : OnlyName k' name ino) (h1 : k'.inodes = k.inodes)
    (h2 : k'.fds = k.fds) : Apart ro name ino P k k' := by
  refine ⟨hn, by rw [h1]; exact hi, fun i q hq hg => ⟨q, ?_, hg⟩, fun _ => by rw [h1]; exact Unmoved.refl _⟩
  unfold Kernel.ofd at hq ⊢
  rw [← h2]; exact hq

theorem only_set (hn : OnlyName k name ino) {p : Bytes} (hp : p ≠ cstr name) {v : Option Nat} (hv : v ≠ some ino) :
    OnlyName (k.setName p v) name ino := by
  intro q
  rw [lookup_setName]
  by_cases h : q = p
  · subst h
    rw [if_pos rfl]
    exact ⟨fun h => (hv h).elim, fun h => (hp h).elim⟩
  · rw [if_neg h]; exact hn q

theorem lookup_ne (hn : OnlyName k name ino) {p : Bytes} (hp : p ≠ cstr name) : k.lookup p ≠ some ino := fun h => hp ((hn p).1 h)

theorem ofd_set_sub {k' : Kernel} {fd : Nat} {z : Option Ofd} (hk : k'.fds = k.fds.set fd z) {i : Int} {q : Ofd} (h : k'.ofd i = some q) :
    k.ofd i = some q ∨ (i = fd ∧ z = some q) := by
  unfold Kernel.ofd at h ⊢
  split at h
  · exact nomatch h
  · rename_i hi
    rw [if_neg hi]
    rw [hk, List.getElem?_set] at h
    split at h
    · rename_i he
      split at h
      · simp only [Option.join_some] at h
        exact .inr ⟨by omega, h⟩
      · exact nomatch h
    · exact .inl h

theorem ofd_putFd_sub {k' : Kernel} {fd : Nat} {z : Ofd} (hk : k'.fds = Kernel.putFd k.fds fd z) {i : Int} {q : Ofd} (h : k'.ofd i = some q) :
    k.ofd i = some q ∨ z = q := by
  unfold Kernel.putFd at hk
  split at hk
  · rcases ofd_set_sub hk h with h | ⟨_, h⟩
    · exact .inl h
    · injection h with h; exact .inr h
  · unfold Kernel.ofd at h ⊢
    split at h
    · exact nomatch h
    · rename_i hi
      rw [if_neg hi]
      rw [hk, List.getElem?_append] at h
      split at h
      · exact .inl h
      · cases hj : i.toNat - k.fds.length with
        | zero => rw [hj] at h; simp only [List.getElem?_cons_zero, Option.join_some] at h; injection h with h; exact .inr h
        | succ j => rw [hj] at h; exact nomatch h

/-- `open`. -/
theorem kopen_apart (hn : OnlyName k name ino) (hi : ∃ a, k.inodes[ino]? = some a) (m : Mode) (p : Bytes)
    (hp : p ≠ cstr name ∨ (ro = true ∧ m = .rdonly)) : Apart ro name ino P k (kopen m p k).2 := by
  obtain ⟨a, ha⟩ := hi
  have hlt : ino < k.inodes.length := (List.getElem?_eq_some_iff.1 ha).1
  unfold kopen
  by_cases h0 : p = []
  · rw [if_pos h0]; exact .refl hn ⟨a, ha⟩
  · rw [if_neg h0]
    dsimp only
    cases hl : k.lookup p with
    | none =>
      dsimp only
      by_cases hc : m.creat = true
      · rw [if_pos hc]
        have hp : p ≠ cstr name := by
          rcases hp with hp | ⟨_, rfl⟩
          · exact hp
          · exact nomatch hc
        have hne : k.inodes.length ≠ ino := by omega
        refine ⟨?_, ⟨a, ?_⟩, ?_, fun _ => ?_⟩
        · exact only_set (v := some k.inodes.length) hn hp (fun e => hne (Option.some.inj e))
        · show (k.inodes ++ _)[ino]? = _
          rw [List.getElem?_append_left hlt]; exact ha
        · intro i q hq hg
          rcases ofd_putFd_sub (k := k) rfl hq with h | h
          · exact ⟨q, h, hg⟩
          · subst h
            refine (hne ?_).elim
            have := hg.1
            cases m <;> exact this
        · show Unmoved ro _ ((k.inodes ++ _)[ino]?)
          rw [List.getElem?_append_left hlt]; exact Unmoved.refl _
      · rw [if_neg hc]; exact .refl hn ⟨a, ha⟩
    | some j =>
      dsimp only
      cases hj : k.inodes[j]? with
      | none => exact .refl hn ⟨a, ha⟩
      | some n =>
        dsimp only
        by_cases hd : n.dir = true ∧ m ≠ .rdonly
        · rw [if_pos hd]; exact .refl hn ⟨a, ha⟩
        · rw [if_neg hd]
          have hjo : j = ino → ro = true ∧ m = .rdonly := by
            rintro rfl
            rcases hp with hp | hp
            · exact (lookup_ne hn hp hl).elim
            · exact hp
          have hfd : ∀ {k' : Kernel} {fd : Nat}, k'.fds = Kernel.putFd k.fds fd (m.ofd j) → ∀ i q, k'.ofd i = some q → Grasp ro ino q →
              ∃ q', k.ofd i = some q' ∧ Grasp ro ino q' := by
            intro k' fd hk i q hq hg
            rcases ofd_putFd_sub hk hq with h | h
            · exact ⟨q, h, hg⟩
            · subst h
              have hij : j = ino := by have := hg.1; cases m <;> exact this
              obtain ⟨h1, rfl⟩ := hjo hij
              exact nomatch hg.2 h1
          by_cases hm : m = .trunc
          · have hne : j ≠ ino := fun e => by rw [hm] at hjo; exact nomatch (hjo e).2
            simp only [if_pos hm]
            refine ⟨hn, ⟨a, ?_⟩, hfd rfl, fun _ => ?_⟩
            · show (k.inodes.set j _)[ino]? = _
              rw [List.getElem?_set_ne hne]; exact ha
            · show Unmoved ro _ ((k.inodes.set j _)[ino]?)
              rw [List.getElem?_set_ne hne]; exact Unmoved.refl _
          · simp only [if_neg hm]
            exact ⟨hn, ⟨a, ha⟩, hfd rfl, fun _ => Unmoved.refl _⟩

/-- A descriptor changes its position, or is closed. -/
theorem Apart.seek (hn : OnlyName k name ino) (hi : ∃ a, k.inodes[ino]? = some a) {k' : Kernel} {fd : Nat} {z : Option Ofd}
    (h1 : k'.inodes = k.inodes) (h2 : k'.names = k.names) (h3 : k'.fds = k.fds.set fd z)
    (hz : ∀ q, z = some q → ∃ q', k.ofd (fd : Int) = some q' ∧ q'.ino = q.ino ∧ q'.wr = q.wr) : Apart ro name ino P k k' := by
  refine ⟨?_, by rw [h1]; exact hi, fun i q hq hg => ?_, fun _ => by rw [h1]; exact Unmoved.refl _⟩
  · intro p
    unfold Kernel.lookup
    rw [h2]; exact hn p
  · rcases ofd_set_sub h3 hq with h | ⟨rfl, h⟩
    · exact ⟨q, h, hg⟩
    · obtain ⟨q', e1, e2, e3⟩ := hz q h
      exact ⟨q', e1, e2.trans hg.1, fun hr => e3.trans (hg.2 hr)⟩

theorem ofd_nat {fd : Int} {o : Ofd} (h : k.ofd fd = some o) : ((fd.toNat : Nat) : Int) = fd := by
  have := (toNat_lt_of_ofd h).1
  omega

theorem kread_apart (hn : OnlyName k name ino) (hi : ∃ a, k.inodes[ino]? = some a) (fd : Int) (n count : Nat) :
    Apart ro name ino P k (kread fd n count k).2 := by
  unfold kread
  cases ho : k.ofd fd with
  | none => exact .refl hn hi
  | some o =>
    dsimp only
    by_cases hr : o.rd = true
    · rw [if_pos hr]
      cases h1 : k.inodes[o.ino]? with
      | none => exact .refl hn hi
      | some d =>
        dsimp only
        by_cases hd : d.dir = true
        · rw [if_pos hd]; exact .refl hn hi
        · rw [if_neg hd]
          refine .seek hn hi rfl rfl rfl fun q hq => ?_
          injection hq with hq
          subst hq
          exact ⟨o, by rw [ofd_nat ho]; exact ho, rfl, rfl⟩
    · rw [if_neg hr]; exact .refl hn hi

theorem kwrite_apart (hn : OnlyName k name ino) (hi : ∃ a, k.inodes[ino]? = some a) (fd : Int) (d : Bytes) (count : Nat) :
    Apart ro name ino (∀ q, k.ofd fd = some q → ¬ Grasp ro ino q) k (kwrite fd d count k).2 := by
  obtain ⟨a, ha⟩ := hi
  unfold kwrite
  cases ho : k.ofd fd with
  | none => exact .refl hn ⟨a, ha⟩
  | some o =>
    dsimp only
    by_cases hr : o.wr = true
    · rw [if_pos hr]
      cases h1 : k.inodes[o.ino]? with
      | none => exact .refl hn ⟨a, ha⟩
      | some b =>
        refine ⟨hn, ?_, ?_, fun hP => ?_⟩
        · dsimp only
          by_cases he : o.ino = ino
          · rw [he, List.getElem?_set_self (List.getElem?_eq_some_iff.1 ha).1]; exact ⟨_, rfl⟩
          · rw [List.getElem?_set_ne he]; exact ⟨a, ha⟩
        · intro i q hq hg
          rcases ofd_set_sub (k := k) rfl hq with h | ⟨rfl, h⟩
          · exact ⟨q, h, hg⟩
          · injection h with h
            subst h
            exact ⟨o, by rw [ofd_nat ho]; exact ho, hg⟩
        · dsimp only
          rw [List.getElem?_set_ne]
          · exact Unmoved.refl _
          · intro he
            exact hP o rfl ⟨he, fun _ => hr⟩
    · rw [if_neg hr]; exact .refl hn ⟨a, ha⟩

theorem ksync_apart (hn : OnlyName k name ino) (hi : ∃ a, k.inodes[ino]? = some a) (fd : Int) :
    Apart ro name ino (∀ q, k.ofd fd = some q → ¬ Grasp ro ino q) k (ksync fd k).2 := by
  obtain ⟨a, ha⟩ := hi
  unfold ksync Kernel.inodeOf
  cases ho : k.ofd fd with
  | none => exact .refl hn ⟨a, ha⟩
  | some o =>
    simp only [Option.map_some]
    cases h1 : k.inodes[o.ino]? with
    | none => exact .refl hn ⟨a, ha⟩
    | some b =>
      dsimp only
      by_cases hd : b.dir = true
      · rw [if_pos hd]; exact .rename ⟨a, ha⟩ hn rfl rfl
      · rw [if_neg hd]
        refine ⟨hn, ?_, fun i q hq hg => ⟨q, hq, hg⟩, fun hP => ?_⟩
        · dsimp only
          by_cases he : o.ino = ino
          · rw [he, List.getElem?_set_self (List.getElem?_eq_some_iff.1 ha).1]; exact ⟨_, rfl⟩
          · rw [List.getElem?_set_ne he]; exact ⟨a, ha⟩
        · dsimp only
          by_cases he : o.ino = ino
          · rw [he, List.getElem?_set_self (List.getElem?_eq_some_iff.1 ha).1, ha]
            rw [he, ha] at h1
            injection h1 with h1
            subst h1
            unfold Unmoved
            cases ro with
            | true =>
              rw [if_pos rfl]
              intro n hn
              injection hn with hn
              subst hn
              exact ⟨_, rfl, rfl, rfl, fun _ h => nomatch h⟩
            | false => exact (hP o rfl ⟨he, fun h => nomatch h⟩).elim
          · rw [List.getElem?_set_ne he]; exact Unmoved.refl _

end Conc
end Posix
end Lsmdb
