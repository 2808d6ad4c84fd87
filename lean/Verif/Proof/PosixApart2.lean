import Verif.Proof.PosixApart1

/-! What a step does to a file that it does not name: all steps; programs that do not name a file. -/

namespace Lsmdb
namespace Posix

open MemEnv (St lit)

namespace Conc

variable {ro : Bool} {name : Bytes} {ino : Nat}

theorem sys_done {α : Type} {call : α → List Call} {f : Choice → Kernel → α × Kernel} {w w' : World} {r : α} (h : sys call f w = .done r w') :
    ∃ x ∈ w.choices, w'.k = (f x (x.other w.k)).2 := by
  unfold sys at h
  cases hc : w.choices with
  | nil => rw [hc] at h; exact nomatch h
  | cons x xs =>
    rw [hc] at h
    injection h with _ h
    subst h
    exact ⟨x, List.mem_cons_self, rfl⟩

/-- Others do something, then the step. -/
theorem Apart.after {P : Prop} {k k' : Kernel} {x : Choice} (hx : Respects name ino x) (hi : ∃ a, k.inodes[ino]? = some a)
    (h : Apart ro name ino P (x.other k) k') : Apart ro name ino P k k' := by
  obtain ⟨h1, h3, -⟩ := hx k
  obtain ⟨a, ha⟩ := hi
  have h1 : (x.other k).inodes[ino]? = k.inodes[ino]? := by rw [ha]; exact (h1 a ha).1
  refine ⟨h.names, h.node, fun i q hq hg => ?_, fun hP => ?_⟩
  · obtain ⟨q', h4, h5⟩ := h.fds i q hq hg
    refine ⟨q', ?_, h5⟩
    unfold Kernel.ofd at h4 ⊢
    rw [← h3]; exact h4
  · rw [← h1]; exact h.same hP

theorem sys_apart {α : Type} {call : α → List Call} {f : Choice → Kernel → α × Kernel} {w w' : World} {r : α} {P : Prop}
    (hx : ∀ x ∈ w.choices, Respects name ino x) (hn : OnlyName w.k name ino) (hi : ∃ a, w.k.inodes[ino]? = some a)
    (h : sys call f w = .done r w')
    (hf : ∀ x k, OnlyName k name ino → (∃ a, k.inodes[ino]? = some a) → k.fds = w.k.fds → Apart ro name ino P k (f x k).2) :
    Apart ro name ino P w.k w'.k := by
  obtain ⟨x, hm, hk⟩ := sys_done h
  have h1 := hx x hm w.k
  rw [hk]
  obtain ⟨a, ha⟩ := hi
  exact .after (hx x hm) ⟨a, ha⟩ (hf x _ ((h1.1 a ha).2 hn) ⟨a, (h1.1 a ha).1⟩ h1.2.1)

theorem ofd_of_fds {k k' : Kernel} (h : k'.fds = k.fds) (fd : Int) : k'.ofd fd = k.ofd fd := by
  unfold Kernel.ofd; rw [h]

/-- A step that does not name the file. -/
theorem exec_apart {cmd : Cmd} {sh sh' : Shared} {w w' : World} {r : cmd.Resp} (he : cmd.exec sh w = .done (r, sh') w')
    (hc : Cmd.elsewhere ro (cstr name) cmd) (hx : ∀ x ∈ w.choices, Respects name ino x) (hn : OnlyName w.k name ino)
    (hi : ∃ a, w.k.inodes[ino]? = some a) :
    Apart ro name ino (∀ fd q, Cmd.alters cmd = some fd → w.k.ofd fd = some q → ¬ Grasp ro ino q) w.k w'.k := by
  cases cmd with
  | «open» m p =>
    obtain ⟨he, -⟩ := keep_done he
    refine sys_apart hx hn hi he fun x k hn hi _ => ?_
    cases hf : x.fail with
    | some e => exact .refl hn hi
    | none => exact kopen_apart hn hi m (cstr p) hc
  | opendir p =>
    obtain ⟨he, -⟩ := keep_done he
    refine sys_apart hx hn hi he fun x k hn hi _ => ?_
    cases hf : x.fail with
    | some e => exact .refl hn hi
    | none =>
      dsimp only
      cases hl : k.lookup (cstr p) with
      | none => exact .refl hn hi
      | some i =>
        dsimp only
        by_cases hd : ((k.inodes[i]?).map (·.dir)).getD false = true
        · rw [if_pos hd]
          have := kopen_apart (ro := ro) (P := ∀ fd q, Cmd.alters (.opendir p) = some fd → w.k.ofd fd = some q → ¬ Grasp ro ino q)
            hn hi .rdonly (cstr p) (hc.imp id fun h => ⟨h, rfl⟩)
          cases h1 : (kopen .rdonly (cstr p) k).1 with
          | error e => exact this
          | ok fd => exact this
        · rw [if_neg hd]; exact .refl hn hi
  | close fd =>
    obtain ⟨he, -⟩ := keep_done he
    refine sys_apart hx hn hi he fun x k hn hi _ => ?_
    cases ho : k.ofd fd with
    | none => exact .refl hn hi
    | some o =>
      cases hf : x.fail with
      | some e => exact .seek hn hi rfl rfl rfl fun q hq => nomatch hq
      | none => exact .seek hn hi rfl rfl rfl fun q hq => nomatch hq
  | read fd n =>
    obtain ⟨he, -⟩ := keep_done he
    refine sys_apart hx hn hi he fun x k hn hi _ => ?_
    cases hf : x.fail with
    | some e => exact .refl hn hi
    | none => exact kread_apart hn hi fd n x.count
  | pread fd n o =>
    obtain ⟨he, -⟩ := keep_done he
    refine sys_apart hx hn hi he fun x k hn hi _ => ?_
    have : ∀ (y : Except Errno Bytes × Kernel), y.2 = k → Apart ro name ino
        (∀ fd' q, Cmd.alters (.pread fd n o) = some fd' → w.k.ofd fd' = some q → ¬ Grasp ro ino q) k y.2 := fun y hy => by
      rw [hy]; exact .refl hn hi
    apply this
    cases hf : x.fail with
    | some e => rfl
    | none =>
      dsimp only
      cases k.ofd fd with
      | none => rfl
      | some q =>
        dsimp only
        split
        · rfl
        · split
          · split
            · rfl
            · split <;> rfl
          · rfl
  | lseek fd o =>
    obtain ⟨he, -⟩ := keep_done he
    refine sys_apart hx hn hi he fun x k hn hi _ => ?_
    cases hf : x.fail with
    | some e => exact .refl hn hi
    | none =>
      dsimp only
      cases ho : k.ofd fd with
      | none => exact .refl hn hi
      | some q =>
        dsimp only
        by_cases h1 : (q.off : Int) + o < 0
        · rw [if_pos h1]; exact .refl hn hi
        · rw [if_neg h1]
          by_cases h2 : (q.off : Int) + o ≥ 2 ^ 63
          · rw [if_pos h2]; exact .refl hn hi
          · rw [if_neg h2]
            refine .seek hn hi rfl rfl rfl fun q' hq => ?_
            injection hq with hq
            subst hq
            exact ⟨q, by rw [ofd_nat ho]; exact ho, rfl, rfl⟩
  | write fd d =>
    obtain ⟨he, -⟩ := keep_done he
    refine sys_apart hx hn hi he fun x k hn hi hfd => ?_
    cases hf : x.fail with
    | some e => exact .refl hn hi
    | none =>
      have := kwrite_apart (ro := ro) hn hi fd d x.count
      exact ⟨this.names, this.node, this.fds, fun hP => this.same fun q hq => hP fd q rfl (by rw [← ofd_of_fds hfd]; exact hq)⟩
  | sync fd =>
    obtain ⟨he, -⟩ := keep_done he
    refine sys_apart hx hn hi he fun x k hn hi hfd => ?_
    cases hf : x.fail with
    | some e => exact .refl hn hi
    | none =>
      have := ksync_apart (ro := ro) hn hi fd
      exact ⟨this.names, this.node, this.fds, fun hP => this.same fun q hq => hP fd q rfl (by rw [← ofd_of_fds hfd]; exact hq)⟩
  | stat p =>
    obtain ⟨he, -⟩ := keep_done he
    refine sys_apart hx hn hi he fun x k hn hi _ => ?_
    cases hf : x.fail with
    | some e => exact .refl hn hi
    | none =>
      dsimp only
      cases k.lookup (cstr p) with
      | none => exact .refl hn hi
      | some i => exact .refl hn hi
  | access p =>
    obtain ⟨he, -⟩ := keep_done he
    refine sys_apart hx hn hi he fun x k hn hi _ => ?_
    cases hf : x.fail with
    | some e => exact .refl hn hi
    | none =>
      dsimp only
      cases k.lookup (cstr p) with
      | none => exact .refl hn hi
      | some i => exact .refl hn hi
  | unlink p =>
    obtain ⟨he, -⟩ := keep_done he
    refine sys_apart hx hn hi he fun x k hn hi _ => ?_
    cases hf : x.fail with
    | some e => exact .refl hn hi
    | none =>
      dsimp only
      cases hl : k.lookup (cstr p) with
      | none => exact .refl hn hi
      | some i =>
        dsimp only
        split
        · exact .refl hn hi
        · exact .rename hi (only_set hn hc (by simp)) rfl rfl
  | mkdir p =>
    obtain ⟨he, -⟩ := keep_done he
    refine sys_apart hx hn hi he fun x k hn hi _ => ?_
    cases hf : x.fail with
    | some e => exact .refl hn hi
    | none =>
      dsimp only
      split
      · exact .refl hn hi
      · cases hl : k.lookup (cstr p) with
        | some i => exact .refl hn hi
        | none =>
          obtain ⟨a, ha⟩ := hi
          have hlt : ino < k.inodes.length := (List.getElem?_eq_some_iff.1 ha).1
          have hne : k.inodes.length ≠ ino := by omega
          have hap : (k.inodes ++ [⟨true, [], []⟩])[ino]? = k.inodes[ino]? := List.getElem?_append_left hlt
          refine ⟨only_set (v := some k.inodes.length) hn hc (fun e => hne (Option.some.inj e)), ⟨a, hap.trans ha⟩,
            fun i q hq hg => ⟨q, hq, hg⟩, fun _ => ?_⟩
          show Unmoved ro _ ((k.inodes ++ [⟨true, [], []⟩])[ino]?)
          rw [hap]; exact Unmoved.refl _
  | rmdir p =>
    obtain ⟨he, -⟩ := keep_done he
    refine sys_apart hx hn hi he fun x k hn hi _ => ?_
    cases hf : x.fail with
    | some e => exact .refl hn hi
    | none =>
      dsimp only
      cases hl : k.lookup (cstr p) with
      | none => exact .refl hn hi
      | some i =>
        dsimp only
        split
        · split
          · exact .refl hn hi
          · exact .rename hi (only_set hn hc (by simp)) rfl rfl
        · exact .refl hn hi
  | rename a b =>
    obtain ⟨he, -⟩ := keep_done he
    refine sys_apart hx hn hi he fun x k hn hi _ => ?_
    cases hf : x.fail with
    | some e => exact .refl hn hi
    | none =>
      dsimp only
      cases hl : k.lookup (cstr a) with
      | none => exact .refl hn hi
      | some i =>
        have hne : some i ≠ some ino := by rw [← hl]; exact lookup_ne hn hc.1
        have done : Apart ro name ino (∀ fd q, Cmd.alters (.rename a b) = some fd → w.k.ofd fd = some q → ¬ Grasp ro ino q) k
            ((k.setName (cstr b) (some i)).setName (cstr a) none) :=
          .rename hi (only_set (only_set hn hc.2 hne) hc.1 (by simp)) rfl rfl
        dsimp only
        split
        · exact .refl hn hi
        · split
          · exact .refl hn hi
          · cases hj : k.lookup (cstr b) with
            | none => exact done
            | some j =>
              dsimp only
              split
              · exact .refl hn hi
              · split
                · exact .refl hn hi
                · exact done
  | mmap fd n =>
    obtain ⟨he, -⟩ := keep_done he
    refine sys_apart hx hn hi he fun x k hn hi _ => ?_
    cases hf : x.fail with
    | some e => exact .refl hn hi
    | none =>
      dsimp only
      split
      · exact .refl hn hi
      · cases k.inodeOf fd with
        | none => exact .refl hn hi
        | some i => exact .rename hi hn rfl rfl
  | munmap m =>
    obtain ⟨he, -⟩ := keep_done he
    refine sys_apart hx hn hi he fun x k hn hi _ => ?_
    cases hm : (k.maps[m]?).join with
    | none => exact .refl hn hi
    | some i => exact .rename hi hn rfl rfl
  | other fd =>
    obtain ⟨he, -⟩ := keep_done he
    refine sys_apart hx hn hi he fun x k hn hi _ => ?_
    cases hf : x.fail with
    | some e => exact .refl hn hi
    | none => exact .refl hn hi
  | readdir fd l =>
    obtain ⟨he, -⟩ := keep_done he
    refine sys_apart hx hn hi he fun x k hn hi _ => ?_
    cases hf : x.fail with
    | some e => exact .refl hn hi
    | none => exact .refl hn hi
  | fetchSub l =>
    injection he with _ he
    subst he
    exact .refl hn hi
  | fetchAdd l =>
    injection he with _ he
    subst he
    exact .refl hn hi
  | insert n =>
    injection he with _ he
    subst he
    exact .refl hn hi
  | remove n =>
    injection he with _ he
    subst he
    exact .refl hn hi

end Conc
end Posix
end Lsmdb
