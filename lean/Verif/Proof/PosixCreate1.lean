import Verif.Spec.PosixCreate
import Verif.Proof.PosixApart4

/-! Steps that do not create a file leave it absent. -/

namespace Lsmdb
namespace Posix

open MemEnv (St lit)

namespace Conc

variable {name : Bytes} {k k' : Kernel}

/-- The file stays absent, and no file vanishes. -/
def Lacks (name : Bytes) (k k' : Kernel) : Prop := Absent k' name ∧ k.inodes.length ≤ k'.inodes.length

theorem Absent.refl (h : Absent k name) : Lacks name k k := ⟨h, Nat.le_refl _⟩

theorem Absent.same (h : Absent k name) (h1 : k'.inodes.length = k.inodes.length) (h2 : k'.names = k.names)
    (h3 : ∀ i q, k'.ofd i = some q → ∃ i' q', k.ofd i' = some q' ∧ q'.ino = q.ino) : Lacks name k k' := by
  have hl : ∀ p, k'.lookup p = k.lookup p := fun p => by unfold Kernel.lookup; rw [h2]
  refine ⟨⟨by rw [hl]; exact h.name, fun p i hp => by rw [hl] at hp; rw [h1]; exact h.names p i hp, fun i q hq => ?_⟩, by omega⟩
  obtain ⟨i', q', e1, e2⟩ := h3 i q hq
  rw [h1, ← e2]
  exact h.fds i' q' e1

/-- A descriptor is closed or changes its position. -/
theorem Absent.seek (h : Absent k name) {fd : Nat} {z : Option Ofd} (h1 : k'.inodes.length = k.inodes.length) (h2 : k'.names = k.names)
    (h3 : k'.fds = k.fds.set fd z) (hz : ∀ q, z = some q → ∃ q', k.ofd (fd : Int) = some q' ∧ q'.ino = q.ino) : Lacks name k k' := by
  refine h.same h1 h2 fun i q hq => ?_
  rcases ofd_set_sub h3 hq with hq' | hz'
  · exact ⟨i, q, hq', rfl⟩
  · obtain ⟨q', e1, e2⟩ := hz q hz'.2
    exact ⟨_, q', e1, e2⟩

/-- A name changes. -/
theorem Absent.setName (h : Absent k name) {p : Bytes} (hp : p ≠ cstr name) {v : Option Nat} (hv : ∀ i, v = some i → i < k.inodes.length) :
    Absent (k.setName p v) name := by
  refine ⟨?_, ?_, h.fds⟩
  · rw [lookup_setName, if_neg (Ne.symm hp)]; exact h.name
  · intro q i hq
    rw [lookup_setName] at hq
    split at hq
    · exact hv i hq
    · exact h.names q i hq

/-- A new file comes. -/
theorem Absent.push (h : Absent k name) {p : Bytes} (hp : p ≠ cstr name) {n : Inode}
    (h1 : k'.inodes = k.inodes ++ [n]) (h2 : k'.names = (k.setName p (some k.inodes.length)).names)
    (hf : ∀ i q, k'.ofd i = some q → q.ino ≤ k.inodes.length) : Lacks name k k' := by
  have hlen : k'.inodes.length = k.inodes.length + 1 := by rw [h1]; simp
  have hl : ∀ q, k'.lookup q = (k.setName p (some k.inodes.length)).lookup q := fun q => by unfold Kernel.lookup; rw [h2]
  refine ⟨⟨?_, ?_, ?_⟩, by omega⟩
  · rw [hl, lookup_setName, if_neg (Ne.symm hp)]; exact h.name
  · intro q i hq
    rw [hl, lookup_setName] at hq
    split at hq
    · injection hq with hq; omega
    · have := h.names q i hq; omega
  · intro i q hq
    have := hf i q hq
    omega

theorem kopen_absent (h : Absent k name) (m : Mode) (p : Bytes) (hp : p ≠ cstr name) : Lacks name k (kopen m p k).2 := by
  unfold kopen
  by_cases h0 : p = []
  · rw [if_pos h0]; exact h.refl
  · rw [if_neg h0]
    dsimp only
    cases hl : k.lookup p with
    | none =>
      dsimp only
      by_cases hc : m.creat = true
      · rw [if_pos hc]
        refine h.push hp rfl rfl fun i q hq => ?_
        rcases ofd_putFd_sub (k := k) rfl hq with hq | rfl
        · have := h.fds i q hq; omega
        · cases m <;> exact Nat.le_refl _
      · rw [if_neg hc]; exact h.refl
    | some j =>
      have hj := h.names p j hl
      dsimp only
      cases hn : k.inodes[j]? with
      | none => exact h.refl
      | some n =>
        dsimp only
        by_cases hd : n.dir = true ∧ m ≠ .rdonly
        · rw [if_pos hd]; exact h.refl
        · rw [if_neg hd]
          have key : ∀ {k' : Kernel} {fd : Nat}, k'.inodes.length = k.inodes.length → k'.names = k.names →
              k'.fds = Kernel.putFd k.fds fd (m.ofd j) → Lacks name k k' := by
            intro k' fd h1 h2 h3
            have hl : ∀ p, k'.lookup p = k.lookup p := fun p => by unfold Kernel.lookup; rw [h2]
            refine ⟨⟨by rw [hl]; exact h.name, fun p i hp => by rw [hl] at hp; rw [h1]; exact h.names p i hp, fun i q hq => ?_⟩, by omega⟩
            rw [h1]
            rcases ofd_putFd_sub h3 hq with hq | rfl
            · exact h.fds i q hq
            · cases m <;> exact hj
          by_cases hm : m = .trunc
          · simp only [if_pos hm]
            exact key (by simp) rfl rfl
          · simp only [if_neg hm]
            exact key rfl rfl rfl

theorem kread_absent (h : Absent k name) (fd : Int) (n count : Nat) : Lacks name k (kread fd n count k).2 := by
  unfold kread
  cases ho : k.ofd fd with
  | none => exact h.refl
  | some o =>
    dsimp only
    by_cases hr : o.rd = true
    · rw [if_pos hr]
      cases h1 : k.inodes[o.ino]? with
      | none => exact h.refl
      | some d =>
        dsimp only
        by_cases hd : d.dir = true
        · rw [if_pos hd]; exact h.refl
        · rw [if_neg hd]
          refine h.seek rfl rfl rfl fun q hq => ?_
          injection hq with hq
          subst hq
          exact ⟨o, by rw [ofd_nat ho]; exact ho, rfl⟩
    · rw [if_neg hr]; exact h.refl

theorem kwrite_absent (h : Absent k name) (fd : Int) (d : Bytes) (count : Nat) : Lacks name k (kwrite fd d count k).2 := by
  unfold kwrite
  cases ho : k.ofd fd with
  | none => exact h.refl
  | some o =>
    dsimp only
    by_cases hr : o.wr = true
    · rw [if_pos hr]
      cases h1 : k.inodes[o.ino]? with
      | none => exact h.refl
      | some b =>
        refine h.seek (by simp) rfl rfl fun q hq => ?_
        injection hq with hq
        subst hq
        exact ⟨o, by rw [ofd_nat ho]; exact ho, rfl⟩
    · rw [if_neg hr]; exact h.refl

theorem ksync_absent (h : Absent k name) (fd : Int) : Lacks name k (ksync fd k).2 := by
  unfold ksync Kernel.inodeOf
  cases ho : k.ofd fd with
  | none => exact h.refl
  | some o =>
    simp only [Option.map_some]
    cases h1 : k.inodes[o.ino]? with
    | none => exact h.refl
    | some b =>
      dsimp only
      split
      · exact h.same rfl rfl fun i q hq => ⟨i, q, hq, rfl⟩
      · exact h.same (by simp) rfl fun i q hq => ⟨i, q, hq, rfl⟩

theorem sys_absent {α : Type} {call : α → List Call} {f : Choice → Kernel → α × Kernel} {w w' : World} {r : α}
    (hx : ∀ x ∈ w.choices, KeepsAbsent name x) (hn : Absent w.k name) (h : sys call f w = .done r w')
    (hf : ∀ x k, Absent k name → Lacks name k (f x k).2) : Lacks name w.k w'.k := by
  obtain ⟨x, hm, hk⟩ := sys_done h
  obtain ⟨h1, h2⟩ := hx x hm w.k hn
  rw [hk]
  have := hf x _ h1
  exact ⟨this.1, Nat.le_trans h2 this.2⟩

/-- A step that does not name the file. -/
theorem exec_absent {cmd : Cmd} {sh sh' : Shared} {w w' : World} {r : cmd.Resp} (he : cmd.exec sh w = .done (r, sh') w')
    (hc : Cmd.elsewhere false (cstr name) cmd) (hx : ∀ x ∈ w.choices, KeepsAbsent name x) (hn : Absent w.k name) :
    Lacks name w.k w'.k := by
  cases cmd with
  | «open» m p =>
    obtain ⟨he, -⟩ := keep_done he
    have hc : cstr p ≠ cstr name := hc.elim id fun h => nomatch h.1
    refine sys_absent hx hn he fun x k hn => ?_
    cases hf : x.fail with
    | some e => exact hn.refl
    | none => exact kopen_absent hn m (cstr p) hc
  | opendir p =>
    obtain ⟨he, -⟩ := keep_done he
    have hc : cstr p ≠ cstr name := hc.elim id fun h => nomatch h
    refine sys_absent hx hn he fun x k hn => ?_
    cases hf : x.fail with
    | some e => exact hn.refl
    | none =>
      dsimp only
      cases hl : k.lookup (cstr p) with
      | none => exact hn.refl
      | some i =>
        dsimp only
        split
        · have := kopen_absent hn .rdonly (cstr p) hc
          cases h1 : (kopen .rdonly (cstr p) k).1 with
          | error e => exact this
          | ok fd => exact this
        · exact hn.refl
  | close fd =>
    obtain ⟨he, -⟩ := keep_done he
    refine sys_absent hx hn he fun x k hn => ?_
    cases ho : k.ofd fd with
    | none => exact hn.refl
    | some o =>
      cases hf : x.fail with
      | some e => exact hn.seek rfl rfl rfl fun q hq => nomatch hq
      | none => exact hn.seek rfl rfl rfl fun q hq => nomatch hq
  | read fd n =>
    obtain ⟨he, -⟩ := keep_done he
    refine sys_absent hx hn he fun x k hn => ?_
    cases hf : x.fail with
    | some e => exact hn.refl
    | none => exact kread_absent hn fd n x.count
  | pread fd n o =>
    obtain ⟨he, -⟩ := keep_done he
    refine sys_absent hx hn he fun x k hn => ?_
    have : ∀ (y : Except Errno Bytes × Kernel), y.2 = k → Lacks name k y.2 := fun y hy => by
      rw [hy]; exact hn.refl
    apply this
    cases hf : x.fail with
    | some e => rfl
    | none =>
      dsimp only
      cases k.ofd fd with
      | none => rfl
      | some q =>
        dsimp only
        split
        · rfl
        · split
          · split
            · rfl
            · split <;> rfl
          · rfl
  | lseek fd o =>
    obtain ⟨he, -⟩ := keep_done he
    refine sys_absent hx hn he fun x k hn => ?_
    cases hf : x.fail with
    | some e => exact hn.refl
    | none =>
      dsimp only
      cases ho : k.ofd fd with
      | none => exact hn.refl
      | some q =>
        dsimp only
        by_cases h1 : (q.off : Int) + o < 0
        · rw [if_pos h1]; exact hn.refl
        · rw [if_neg h1]
          by_cases h2 : (q.off : Int) + o ≥ 2 ^ 63
          · rw [if_pos h2]; exact hn.refl
          · rw [if_neg h2]
            refine hn.seek rfl rfl rfl fun q' hq => ?_
            injection hq with hq
            subst hq
            exact ⟨q, by rw [ofd_nat ho]; exact ho, rfl⟩
  | write fd d =>
    obtain ⟨he, -⟩ := keep_done he
    refine sys_absent hx hn he fun x k hn => ?_
    cases hf : x.fail with
    | some e => exact hn.refl
    | none => exact kwrite_absent hn fd d x.count
  | sync fd =>
    obtain ⟨he, -⟩ := keep_done he
    refine sys_absent hx hn he fun x k hn => ?_
    cases hf : x.fail with
    | some e => exact hn.refl
    | none => exact ksync_absent hn fd
  | stat p =>
    obtain ⟨he, -⟩ := keep_done he
    refine sys_absent hx hn he fun x k hn => ?_
    cases hf : x.fail with
    | some e => exact hn.refl
    | none =>
      dsimp only
      cases k.lookup (cstr p) with
      | none => exact hn.refl
      | some i => exact hn.refl
  | access p =>
    obtain ⟨he, -⟩ := keep_done he
    refine sys_absent hx hn he fun x k hn => ?_
    cases hf : x.fail with
    | some e => exact hn.refl
    | none =>
      dsimp only
      cases k.lookup (cstr p) with
      | none => exact hn.refl
      | some i => exact hn.refl
  | unlink p =>
    obtain ⟨he, -⟩ := keep_done he
    refine sys_absent hx hn he fun x k hn => ?_
    cases hf : x.fail with
    | some e => exact hn.refl
    | none =>
      dsimp only
      cases hl : k.lookup (cstr p) with
      | none => exact hn.refl
      | some i =>
        dsimp only
        split
        · exact hn.refl
        · exact ⟨hn.setName (v := none) hc (fun _ h => nomatch h), Nat.le_refl _⟩
  | mkdir p =>
    obtain ⟨he, -⟩ := keep_done he
    refine sys_absent hx hn he fun x k hn => ?_
    cases hf : x.fail with
    | some e => exact hn.refl
    | none =>
      dsimp only
      split
      · exact hn.refl
      · cases hl : k.lookup (cstr p) with
        | some i => exact hn.refl
        | none =>
          exact hn.push hc rfl rfl fun i q hq => Nat.le_of_lt (hn.fds i q hq)
  | rmdir p =>
    obtain ⟨he, -⟩ := keep_done he
    refine sys_absent hx hn he fun x k hn => ?_
    cases hf : x.fail with
    | some e => exact hn.refl
    | none =>
      dsimp only
      cases hl : k.lookup (cstr p) with
      | none => exact hn.refl
      | some i =>
        dsimp only
        split
        · split
          · exact hn.refl
          · exact ⟨hn.setName (v := none) hc (fun _ h => nomatch h), Nat.le_refl _⟩
        · exact hn.refl
  | rename a b =>
    obtain ⟨he, -⟩ := keep_done he
    refine sys_absent hx hn he fun x k hn => ?_
    cases hf : x.fail with
    | some e => exact hn.refl
    | none =>
      dsimp only
      cases hl : k.lookup (cstr a) with
      | none => exact hn.refl
      | some i =>
        have done : Lacks name k ((k.setName (cstr b) (some i)).setName (cstr a) none) :=
          ⟨(hn.setName hc.2 fun j hj => by cases hj; exact hn.names _ _ hl).setName hc.1 (fun _ h => nomatch h), Nat.le_refl _⟩
        dsimp only
        split
        · exact hn.refl
        · split
          · exact hn.refl
          · cases hj : k.lookup (cstr b) with
            | none => exact done
            | some j =>
              dsimp only
              split
              · exact hn.refl
              · split
                · exact hn.refl
                · exact done
  | mmap fd n =>
    obtain ⟨he, -⟩ := keep_done he
    refine sys_absent hx hn he fun x k hn => ?_
    cases hf : x.fail with
    | some e => exact hn.refl
    | none =>
      dsimp only
      split
      · exact hn.refl
      · cases k.inodeOf fd with
        | none => exact hn.refl
        | some i => exact hn.same rfl rfl fun i q hq => ⟨i, q, hq, rfl⟩
  | munmap m =>
    obtain ⟨he, -⟩ := keep_done he
    refine sys_absent hx hn he fun x k hn => ?_
    cases hm : (k.maps[m]?).join with
    | none => exact hn.refl
    | some i => exact hn.same rfl rfl fun i q hq => ⟨i, q, hq, rfl⟩
  | other fd =>
    obtain ⟨he, -⟩ := keep_done he
    refine sys_absent hx hn he fun x k hn => ?_
    cases hf : x.fail with
    | some e => exact hn.refl
    | none => exact hn.refl
  | readdir fd l =>
    obtain ⟨he, -⟩ := keep_done he
    refine sys_absent hx hn he fun x k hn => ?_
    cases hf : x.fail with
    | some e => exact hn.refl
    | none => exact hn.refl
  | fetchSub l =>
    injection he with _ he
    subst he
    exact hn.refl
  | fetchAdd l =>
    injection he with _ he
    subst he
    exact hn.refl
  | insert n =>
    injection he with _ he
    subst he
    exact hn.refl
  | remove n =>
    injection he with _ he
    subst he
    exact hn.refl

end Conc
end Posix
end Lsmdb
