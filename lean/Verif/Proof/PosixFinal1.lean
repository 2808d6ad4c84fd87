import Verif.Spec.PosixFinal
import Verif.Proof.PosixInstall1

/-! What a step does to names and directories. -/

namespace Lsmdb
namespace Posix

open MemEnv (St lit)

namespace Conc

/-- The step does not change what the names mean. -/
def Cmd.leavesNames (Q : Bytes → Prop) : Cmd → Prop
  | .open m p => m = .rdonly ∨ ¬ Q (cstr p)
  | .mkdir p => ¬ Q (cstr p)
  | .unlink p => ¬ Q (cstr p)
  | .rmdir p => ¬ Q (cstr p)
  | .rename a b => ¬ Q (cstr a) ∧ ¬ Q (cstr b)
  | _ => True

/-- From `k` to `k'`: the names `Q` stay, of all names only the meaning they had is remembered, directories stay directories. -/
structure Touch (Q : Bytes → Prop) (k k' : Kernel) : Prop where
  names : ∀ p, Q p → k'.lookup p = k.lookup p
  pend : ∀ p u, (p, u) ∈ k'.pend → (p, u) ∈ k.pend ∨ u = k.lookup p
  dirs : ∀ (i : Nat) n, k.inodes[i]? = some n → n.dir = true → ∃ n', k'.inodes[i]? = some n' ∧ n'.dir = true

variable {Q : Bytes → Prop} {k k' : Kernel} {strerror : Strerror} {full : Bool} {c c' : Conf}

theorem Touch.refl : Touch Q k k := ⟨fun _ _ => rfl, fun _ _ h => .inl h, fun _ n h1 h2 => ⟨n, h1, h2⟩⟩

theorem touch_same (h1 : k'.names = k.names) (h2 : k'.pend = k.pend) (h3 : k'.inodes = k.inodes) : Touch Q k k' :=
  ⟨fun _ _ => by unfold Kernel.lookup; rw [h1], fun _ _ h => .inl (by rw [← h2]; exact h), fun _ n h4 h5 => ⟨n, by rw [h3]; exact h4, h5⟩⟩

/-- A file changes. -/
theorem touch_node {i : Nat} {n n' : Inode} (hn : k.inodes[i]? = some n) (hd : n'.dir = n.dir) (h1 : k'.names = k.names) (h2 : k'.pend = k.pend)
    (h3 : k'.inodes = k.inodes.set i n') : Touch Q k k' := by
  refine ⟨fun _ _ => by unfold Kernel.lookup; rw [h1], fun _ _ h => .inl (by rw [← h2]; exact h), fun j m h4 h5 => ?_⟩
  rw [h3]
  by_cases e : i = j
  · subst e
    rw [hn] at h4
    injection h4 with h4
    subst h4
    exact ⟨n', by rw [List.getElem?_set_self (List.getElem?_eq_some_iff.1 hn).1], hd.trans h5⟩
  · exact ⟨m, by rw [List.getElem?_set_ne e]; exact h4, h5⟩

theorem lookup_of_names {p : Bytes} (h : k'.names = k.names) : k'.lookup p = k.lookup p := by
  unfold Kernel.lookup
  rw [h]

/-- A name gets another meaning. -/
theorem touch_set {p : Bytes} {v : Option Nat} (hp : ¬ Q p) (h1 : k'.names = (k.setName p v).names) (h2 : k'.pend = (k.setName p v).pend)
    (h3 : k'.inodes = k.inodes) : Touch Q k k' := by
  refine ⟨fun q hq => ?_, fun q u h => ?_, fun _ n h4 h5 => ⟨n, by rw [h3]; exact h4, h5⟩⟩
  · rw [lookup_of_names h1, lookup_setName, if_neg]
    rintro rfl
    exact hp hq
  · rw [h2] at h
    rcases List.mem_cons.1 h with e | h
    · obtain ⟨rfl, rfl⟩ := Prod.mk.inj e
      exact .inr rfl
    · exact .inl h

/-- A new file, or directory. -/
theorem touch_push {p : Bytes} {v : Option Nat} {x : Inode} (hp : ¬ Q p) (h1 : k'.names = (k.setName p v).names)
    (h2 : k'.pend = (k.setName p v).pend) (h3 : k'.inodes = k.inodes ++ [x]) : Touch Q k k' := by
  obtain ⟨g1, g2, -⟩ : Touch Q k (k.setName p v) := touch_set hp rfl rfl rfl
  refine ⟨fun q hq => (lookup_of_names h1).trans (g1 q hq), fun q u h => g2 q u (by rw [← h2]; exact h), fun i n h4 h5 => ⟨n, ?_, h5⟩⟩
  rw [h3, List.getElem?_append_left (List.getElem?_eq_some_iff.1 h4).1]
  exact h4

theorem touch_rename {a b : Bytes} {i : Nat} (ha : ¬ Q a) (hb : ¬ Q b) (hab : a ≠ b) : Touch Q k ((k.setName b (some i)).setName a none) := by
  obtain ⟨g1, g2, g3⟩ : Touch Q k (k.setName b (some i)) := touch_set hb rfl rfl rfl
  obtain ⟨f1, f2, f3⟩ : Touch Q (k.setName b (some i)) ((k.setName b (some i)).setName a none) := touch_set ha rfl rfl rfl
  refine ⟨fun p hp => (f1 p hp).trans (g1 p hp), fun p u h => ?_, fun j n h4 h5 => ⟨n, h4, h5⟩⟩
  rcases List.mem_cons.1 h with e | h
  · obtain ⟨rfl, rfl⟩ := Prod.mk.inj e
    rw [lookup_setName, if_neg hab]
    exact .inr rfl
  · exact g2 p u h

theorem kopen_touch (m : Mode) (p : Bytes) (hp : m = .rdonly ∨ ¬ Q p) : Touch Q k (kopen m p k).2 := by
  unfold kopen
  by_cases h0 : p = []
  · rw [if_pos h0]; exact .refl
  · rw [if_neg h0]
    dsimp only
    cases hl : k.lookup p with
    | none =>
      dsimp only
      by_cases hc : m.creat = true
      · rw [if_pos hc]
        have hp : ¬ Q p := by
          rcases hp with rfl | hp
          · exact nomatch hc
          · exact hp
        exact touch_push (v := some k.inodes.length) hp rfl rfl rfl
      · rw [if_neg hc]; exact .refl
    | some j =>
      dsimp only
      cases hj : k.inodes[j]? with
      | none => exact .refl
      | some n =>
        dsimp only
        by_cases hd : n.dir = true ∧ m ≠ .rdonly
        · rw [if_pos hd]; exact .refl
        · rw [if_neg hd]
          by_cases hm : m = .trunc
          · simp only [if_pos hm]
            exact touch_node (n' := truncInode n) hj rfl rfl rfl rfl
          · simp only [if_neg hm]
            exact touch_same rfl rfl rfl

theorem kwrite_touch (fd : Int) (d : Bytes) (count : Nat) : Touch Q k (kwrite fd d count k).2 := by
  unfold kwrite
  cases ho : k.ofd fd with
  | none => exact .refl
  | some o =>
    dsimp only
    by_cases hr : o.wr = true
    · rw [if_pos hr]
      cases h1 : k.inodes[o.ino]? with
      | none => exact .refl
      | some b => exact touch_node (n' := writeInode b _ _) h1 rfl rfl rfl rfl
    · rw [if_neg hr]; exact .refl

theorem ksync_touch (fd : Int) : Touch Q k (ksync fd k).2 := by
  unfold ksync Kernel.inodeOf
  cases ho : k.ofd fd with
  | none => exact .refl
  | some o =>
    simp only [Option.map_some]
    cases h1 : k.inodes[o.ino]? with
    | none => exact .refl
    | some b =>
      dsimp only
      by_cases hd : b.dir = true
      · rw [if_pos hd]
        exact ⟨fun _ _ => rfl, fun p u h => .inl (List.mem_filter.1 h).1, fun i n h4 h5 => ⟨n, h4, h5⟩⟩
      · rw [if_neg hd]
        exact touch_node (n' := { b with old := [] }) h1 rfl rfl rfl rfl

theorem sys_touch {α : Type} {call : α → List Call} {f : Choice → Kernel → α × Kernel} {w w' : World} {r : α} (hs : sys call f w = .done r w')
    (hf : ∀ x k, Touch Q k (f x k).2) : w'.k = w.k ∨ ∃ x ∈ w.choices, Touch Q (x.other w.k) w'.k := by
  obtain ⟨x, hm, hk⟩ := sys_done hs
  rw [hk]
  exact .inr ⟨x, hm, hf x _⟩

/-- A step, after what others did. -/
theorem exec_touch {cmd : Cmd} {sh sh' : Shared} {w w' : World} {r : cmd.Resp} (he : cmd.exec sh w = .done (r, sh') w')
    (hc : Cmd.leavesNames Q cmd) : w'.k = w.k ∨ ∃ x ∈ w.choices, Touch Q (x.other w.k) w'.k := by
  cases cmd with
  | «open» m p =>
    obtain ⟨he, -⟩ := keep_done he
    refine sys_touch he fun x k => ?_
    cases hf : x.fail with
    | some e => exact .refl
    | none => exact kopen_touch m (cstr p) hc
  | opendir p =>
    obtain ⟨he, -⟩ := keep_done he
    refine sys_touch he fun x k => ?_
    cases hf : x.fail with
    | some e => exact .refl
    | none =>
      dsimp only
      cases hl : k.lookup (cstr p) with
      | none => exact .refl
      | some i =>
        dsimp only
        by_cases hd : ((k.inodes[i]?).map (·.dir)).getD false = true
        · rw [if_pos hd]
          have := kopen_touch (Q := Q) (k := k) .rdonly (cstr p) (.inl rfl)
          cases h1 : (kopen .rdonly (cstr p) k).1 with
          | error e => exact this
          | ok fd => exact this
        · rw [if_neg hd]; exact .refl
  | close fd =>
    obtain ⟨he, -⟩ := keep_done he
    refine sys_touch he fun x k => ?_
    cases ho : k.ofd fd with
    | none => exact .refl
    | some o =>
      cases hf : x.fail with
      | some e => exact touch_same rfl rfl rfl
      | none => exact touch_same rfl rfl rfl
  | read fd n =>
    obtain ⟨he, -⟩ := keep_done he
    refine sys_touch he fun x k => ?_
    cases hf : x.fail with
    | some e => exact .refl
    | none =>
      dsimp only [kread]
      cases ho : k.ofd fd with
      | none => exact .refl
      | some o =>
        dsimp only
        split
        · split
          · exact .refl
          · split
            · exact .refl
            · exact touch_same rfl rfl rfl
        · exact .refl
  | pread fd n o =>
    obtain ⟨he, -⟩ := keep_done he
    refine sys_touch he fun x k => ?_
    have : ∀ (y : Except Errno Bytes × Kernel), y.2 = k → Touch Q k y.2 := fun y hy => by rw [hy]; exact .refl
    apply this
    cases hf : x.fail with
    | some e => rfl
    | none =>
      dsimp only
      cases k.ofd fd with
      | none => rfl
      | some q =>
        dsimp only
        split
        · rfl
        · split
          · split
            · rfl
            · split <;> rfl
          · rfl
  | lseek fd o =>
    obtain ⟨he, -⟩ := keep_done he
    refine sys_touch he fun x k => ?_
    cases hf : x.fail with
    | some e => exact .refl
    | none =>
      dsimp only
      cases ho : k.ofd fd with
      | none => exact .refl
      | some q =>
        dsimp only
        split
        · exact .refl
        · split
          · exact .refl
          · exact touch_same rfl rfl rfl
  | write fd d =>
    obtain ⟨he, -⟩ := keep_done he
    refine sys_touch he fun x k => ?_
    cases hf : x.fail with
    | some e => exact .refl
    | none => exact kwrite_touch fd d x.count
  | sync fd =>
    obtain ⟨he, -⟩ := keep_done he
    refine sys_touch he fun x k => ?_
    cases hf : x.fail with
    | some e => exact .refl
    | none => exact ksync_touch fd
  | stat p =>
    obtain ⟨he, -⟩ := keep_done he
    refine sys_touch he fun x k => ?_
    cases hf : x.fail with
    | some e => exact .refl
    | none =>
      dsimp only
      cases k.lookup (cstr p) with
      | none => exact .refl
      | some i => exact .refl
  | access p =>
    obtain ⟨he, -⟩ := keep_done he
    refine sys_touch he fun x k => ?_
    cases hf : x.fail with
    | some e => exact .refl
    | none =>
      dsimp only
      cases k.lookup (cstr p) with
      | none => exact .refl
      | some i => exact .refl
  | unlink p =>
    obtain ⟨he, -⟩ := keep_done he
    refine sys_touch he fun x k => ?_
    cases hf : x.fail with
    | some e => exact .refl
    | none =>
      dsimp only
      cases hl : k.lookup (cstr p) with
      | none => exact .refl
      | some i =>
        dsimp only
        split
        · exact .refl
        · exact touch_set hc rfl rfl rfl
  | mkdir p =>
    obtain ⟨he, -⟩ := keep_done he
    refine sys_touch he fun x k => ?_
    cases hf : x.fail with
    | some e => exact .refl
    | none =>
      dsimp only
      split
      · exact .refl
      · cases hl : k.lookup (cstr p) with
        | some i => exact .refl
        | none => exact touch_push (v := some k.inodes.length) hc rfl rfl rfl
  | rmdir p =>
    obtain ⟨he, -⟩ := keep_done he
    refine sys_touch he fun x k => ?_
    cases hf : x.fail with
    | some e => exact .refl
    | none =>
      dsimp only
      cases hl : k.lookup (cstr p) with
      | none => exact .refl
      | some i =>
        dsimp only
        split
        · split
          · exact .refl
          · exact touch_set hc rfl rfl rfl
        · exact .refl
  | rename a b =>
    obtain ⟨he, -⟩ := keep_done he
    refine sys_touch he fun x k => ?_
    cases hf : x.fail with
    | some e => exact .refl
    | none =>
      dsimp only
      cases hl : k.lookup (cstr a) with
      | none => exact .refl
      | some i =>
        have done : k.lookup (cstr b) ≠ some i → Touch Q k ((k.setName (cstr b) (some i)).setName (cstr a) none) := fun hb =>
          touch_rename hc.1 hc.2 (by rintro e; rw [← e] at hb; exact hb hl)
        dsimp only
        split
        · exact .refl
        · split
          · exact .refl
          · cases hj : k.lookup (cstr b) with
            | none => exact done (by rw [hj]; exact nofun)
            | some j =>
              dsimp only
              split
              · exact .refl
              · split
                · exact .refl
                · rename_i hne _
                  exact done (by rw [hj]; intro e; injection e with e; exact hne e.symm)
  | mmap fd n =>
    obtain ⟨he, -⟩ := keep_done he
    refine sys_touch he fun x k => ?_
    cases hf : x.fail with
    | some e => exact .refl
    | none =>
      dsimp only
      split
      · exact .refl
      · cases k.inodeOf fd with
        | none => exact .refl
        | some i => exact touch_same rfl rfl rfl
  | munmap m =>
    obtain ⟨he, -⟩ := keep_done he
    refine sys_touch he fun x k => ?_
    cases hm : (k.maps[m]?).join with
    | none => exact .refl
    | some i => exact touch_same rfl rfl rfl
  | other fd =>
    obtain ⟨he, -⟩ := keep_done he
    refine sys_touch he fun x k => ?_
    cases hf : x.fail with
    | some e => exact .refl
    | none => exact .refl
  | readdir fd l =>
    obtain ⟨he, -⟩ := keep_done he
    refine sys_touch he fun x k => ?_
    cases hf : x.fail with
    | some e => exact .refl
    | none => exact .refl
  | fetchSub l =>
    injection he with _ he
    subst he
    exact .inl rfl
  | fetchAdd l =>
    injection he with _ he
    subst he
    exact .inl rfl
  | insert n =>
    injection he with _ he
    subst he
    exact .inl rfl
  | remove n =>
    injection he with _ he
    subst he
    exact .inl rfl

end Conc
end Posix
end Lsmdb
