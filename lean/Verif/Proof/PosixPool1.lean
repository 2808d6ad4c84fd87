import Verif.Spec.PosixPool
import Verif.Proof.PosixLoad2

/-! What a step does to files that are only renamed among each other. -/

namespace Lsmdb
namespace Posix

open MemEnv (St lit)

namespace Conc

/-- The step does not create anything under the names, and renames within them or without; and does not take
the names `T` away. -/
def Cmd.pooled (N T : Bytes → Prop) : Cmd → Prop
  | .open m p => ¬ N (cstr p) ∨ m = .rdonly
  | .mkdir p => ¬ N (cstr p)
  | .unlink p => ¬ T (cstr p)
  | .rename a b => (N (cstr a) ↔ N (cstr b)) ∧ ¬ T (cstr a)
  | _ => True

/-- The files are there, under these names, the names `T` exist, and nobody has the files open for writing. -/
structure Lasts (N : Bytes → Prop) (S : Nat → Option Bytes) (T : Bytes → Prop) (k : Kernel) : Prop where
  names : NamesOf N S k
  files : FilesOf S k
  fds : ∀ i q, k.ofd i = some q → (∃ D, S q.ino = some D) → q.wr = false
  found : ∀ p, T p → N p ∧ k.lookup p ≠ none

/-- Others let the files be. -/
def Spares (N : Bytes → Prop) (S : Nat → Option Bytes) (T : Bytes → Prop) (x : Choice) : Prop :=
  Leaves N S x ∧ ∀ k, NamesOf N S k → FilesOf S k → ∀ p, T p → k.lookup p ≠ none → (x.other k).lookup p ≠ none

variable {N : Bytes → Prop} {S : Nat → Option Bytes} {T : Bytes → Prop} {k k' : Kernel}

/-- Only the names change. -/
theorem Lasts.rename (h : Lasts N S T k) (hn : NamesOf N S k') (h1 : k'.inodes = k.inodes) (h2 : k'.fds = k.fds)
    (h3 : ∀ p, T p → k.lookup p ≠ none → k'.lookup p ≠ none) : Lasts N S T k' := by
  refine ⟨hn, fun i D hi => ?_, fun i q hq => h.fds i q ?_, fun p hp => ⟨(h.found p hp).1, h3 p hp (h.found p hp).2⟩⟩
  · unfold RegularFile
    rw [h1]
    exact h.files i D hi
  · rw [keeps_ofd h2] at hq
    exact hq

theorem names_erase (h : NamesOf N S k) (p : Bytes) : NamesOf N S (k.setName p none) := by
  intro q i hq
  rw [lookup_setName] at hq
  split at hq
  · exact nomatch hq
  · exact h q i hq

/-- A name is taken away. -/
theorem found_erase {p : Bytes} (h : ¬ T p) : ∀ q, T q → k.lookup q ≠ none → (k.setName p none).lookup q ≠ none := by
  intro q hq hl
  rw [lookup_setName, if_neg]
  · exact hl
  · rintro rfl
    exact h hq

/-- A name is given. -/
theorem found_set {p : Bytes} {j : Nat} : ∀ q, k.lookup q ≠ none → (k.setName p (some j)).lookup q ≠ none := by
  intro q hl
  rw [lookup_setName]
  split
  · exact nofun
  · exact hl

theorem names_set (h : NamesOf N S k) {p : Bytes} {j : Nat} (hj : N p ↔ ∃ D, S j = some D) : NamesOf N S (k.setName p (some j)) := by
  intro q i hq
  rw [lookup_setName] at hq
  split at hq
  · rename_i e
    injection hq with hq
    subst hq e
    exact hj
  · exact h q i hq

/-- A new file has a new number. -/
theorem FilesOf.fresh (h : FilesOf S k) : ¬ ∃ D, S k.inodes.length = some D := by
  rintro ⟨D, hD⟩
  obtain ⟨n, hn, -⟩ := h _ D hD
  exact absurd (List.getElem?_eq_some_iff.1 hn).1 (Nat.lt_irrefl _)

theorem FilesOf.push (h : FilesOf S k) {x : Inode} (h1 : k'.inodes = k.inodes ++ [x]) : FilesOf S k' := by
  intro i D hi
  obtain ⟨n, hn, h2⟩ := h i D hi
  refine ⟨n, ?_, h2⟩
  rw [h1, List.getElem?_append_left (List.getElem?_eq_some_iff.1 hn).1]
  exact hn

/-- Another file changes. -/
theorem FilesOf.other (h : FilesOf S k) {j : Nat} {x : Inode} (hj : ¬ ∃ D, S j = some D) (h1 : k'.inodes = k.inodes.set j x) : FilesOf S k' := by
  intro i D hi
  obtain ⟨n, hn, h2⟩ := h i D hi
  refine ⟨n, ?_, h2⟩
  rw [h1, List.getElem?_set_ne]
  · exact hn
  · rintro rfl
    exact hj ⟨D, hi⟩

theorem ofd_ino (m : Mode) (j : Nat) : (m.ofd j).ino = j := by cases m <;> rfl

/-- `open`. -/
theorem kopen_lasts (h : Lasts N S T k) (m : Mode) (p : Bytes) (hp : ¬ N p ∨ m = .rdonly) : Lasts N S T (kopen m p k).2 := by
  unfold kopen
  by_cases h0 : p = []
  · rw [if_pos h0]; exact h
  · rw [if_neg h0]
    dsimp only
    cases hl : k.lookup p with
    | none =>
      dsimp only
      by_cases hc : m.creat = true
      · rw [if_pos hc]
        have hp : ¬ N p := by
          rcases hp with hp | rfl
          · exact hp
          · exact nomatch hc
        refine ⟨names_set (j := k.inodes.length) h.names ⟨fun e => (hp e).elim, fun e => (h.files.fresh e).elim⟩, FilesOf.push h.files rfl, ?_,
          fun p' hp' => ⟨(h.found p' hp').1, found_set p' (h.found p' hp').2⟩⟩
        intro i q hq hS
        rcases ofd_putFd_sub (k := k) rfl hq with h1 | h1
        · exact h.fds i q h1 hS
        · subst h1
          rw [ofd_ino] at hS
          exact (h.files.fresh hS).elim
      · rw [if_neg hc]; exact h
    | some j =>
      dsimp only
      cases hj : k.inodes[j]? with
      | none => exact h
      | some n =>
        dsimp only
        by_cases hd : n.dir = true ∧ m ≠ .rdonly
        · rw [if_pos hd]; exact h
        · rw [if_neg hd]
          have hjo : (∃ D, S j = some D) → m = .rdonly := fun hS =>
            hp.elim (fun e => (e ((h.names p j hl).2 hS)).elim) id
          have hfd : ∀ {k' : Kernel} {fd : Nat}, k'.fds = Kernel.putFd k.fds fd (m.ofd j) → ∀ i q, k'.ofd i = some q →
              (∃ D, S q.ino = some D) → q.wr = false := by
            intro k' fd hk i q hq hS
            rcases ofd_putFd_sub hk hq with h1 | h1
            · exact h.fds i q h1 hS
            · subst h1
              rw [ofd_ino] at hS
              rw [hjo hS]
              rfl
          by_cases hm : m = .trunc
          · simp only [if_pos hm]
            exact ⟨h.names, FilesOf.other h.files (fun hS => nomatch hm.symm.trans (hjo hS)) rfl, hfd rfl, h.found⟩
          · simp only [if_neg hm]
            exact ⟨h.names, h.files, hfd rfl, h.found⟩

/-- A descriptor changes its position, or is closed. -/
theorem Lasts.seek (h : Lasts N S T k) {fd : Nat} {z : Option Ofd} (h1 : k'.inodes = k.inodes) (h2 : k'.names = k.names)
    (h3 : k'.fds = k.fds.set fd z) (hz : ∀ q, z = some q → ∃ q', k.ofd (fd : Int) = some q' ∧ q'.ino = q.ino ∧ q'.wr = q.wr) : Lasts N S T k' := by
  refine ⟨?_, fun i D hi => ?_, fun i q hq hS => ?_, fun p hp => ⟨(h.found p hp).1, ?_⟩⟩
  · intro p i hp
    unfold Kernel.lookup at hp
    rw [h2] at hp
    exact h.names p i hp
  · unfold RegularFile
    rw [h1]
    exact h.files i D hi
  · rcases ofd_set_sub h3 hq with h4 | ⟨rfl, h4⟩
    · exact h.fds i q h4 hS
    · obtain ⟨q', e1, e2, e3⟩ := hz q h4
      rw [← e3]
      exact h.fds _ q' e1 (by rw [e2]; exact hS)
  · unfold Kernel.lookup
    rw [h2]
    exact (h.found p hp).2

theorem kread_lasts (h : Lasts N S T k) (fd : Int) (n count : Nat) : Lasts N S T (kread fd n count k).2 := by
  unfold kread
  cases ho : k.ofd fd with
  | none => exact h
  | some o =>
    dsimp only
    by_cases hr : o.rd = true
    · rw [if_pos hr]
      cases h1 : k.inodes[o.ino]? with
      | none => exact h
      | some d =>
        dsimp only
        by_cases hd : d.dir = true
        · rw [if_pos hd]; exact h
        · rw [if_neg hd]
          refine h.seek rfl rfl rfl fun q hq => ?_
          injection hq with hq
          subst hq
          exact ⟨o, by rw [ofd_nat ho]; exact ho, rfl, rfl⟩
    · rw [if_neg hr]; exact h

theorem kwrite_lasts (h : Lasts N S T k) (fd : Int) (d : Bytes) (count : Nat) : Lasts N S T (kwrite fd d count k).2 := by
  unfold kwrite
  cases ho : k.ofd fd with
  | none => exact h
  | some o =>
    dsimp only
    by_cases hr : o.wr = true
    · rw [if_pos hr]
      cases h1 : k.inodes[o.ino]? with
      | none => exact h
      | some b =>
        have hS : ¬ ∃ D, S o.ino = some D := fun hS => nomatch hr.symm.trans (h.fds fd o ho hS)
        refine ⟨h.names, FilesOf.other h.files hS rfl, fun i q hq hS' => ?_, h.found⟩
        rcases ofd_set_sub (k := k) rfl hq with h2 | ⟨rfl, h2⟩
        · exact h.fds i q h2 hS'
        · injection h2 with h2
          subst h2
          exact (hS hS').elim
    · rw [if_neg hr]; exact h

theorem ksync_lasts (h : Lasts N S T k) (fd : Int) : Lasts N S T (ksync fd k).2 := by
  unfold ksync Kernel.inodeOf
  cases ho : k.ofd fd with
  | none => exact h
  | some o =>
    simp only [Option.map_some]
    cases h1 : k.inodes[o.ino]? with
    | none => exact h
    | some b =>
      dsimp only
      by_cases hd : b.dir = true
      · rw [if_pos hd]; exact h.rename h.names rfl rfl fun _ _ e => e
      · rw [if_neg hd]
        refine ⟨h.names, fun i D hi => ?_, h.fds, h.found⟩
        obtain ⟨n, hn, h2, h3⟩ := h.files i D hi
        by_cases he : o.ino = i
        · subst he
          rw [h1] at hn
          injection hn with hn
          subst hn
          refine ⟨_, List.getElem?_set_self (List.getElem?_eq_some_iff.1 h1).1, h2, h3⟩
        · exact ⟨n, by rw [List.getElem?_set_ne he]; exact hn, h2, h3⟩

/-- Others do something. -/
theorem Lasts.others {x : Choice} (h : Lasts N S T k) (hx : Spares N S T x) : Lasts N S T (x.other k) := by
  obtain ⟨h1, h2, h3, -⟩ := hx.1 k
  refine ⟨h2 h.names h.files, fun i D hi => ?_, fun i q hq => h.fds i q ?_,
    fun p hp => ⟨(h.found p hp).1, hx.2 k h.names h.files p hp (h.found p hp).2⟩⟩
  · obtain ⟨n, hn, h4⟩ := h.files i D hi
    exact ⟨n, h1 i D n hi hn, h4⟩
  · rw [keeps_ofd h3] at hq
    exact hq

theorem sys_lasts {α : Type} {call : α → List Call} {f : Choice → Kernel → α × Kernel} {w w' : World} {r : α}
    (hx : ∀ x ∈ w.choices, Spares N S T x) (h : Lasts N S T w.k) (hs : sys call f w = .done r w') (hf : ∀ x k, Lasts N S T k → Lasts N S T (f x k).2) :
    Lasts N S T w'.k := by
  obtain ⟨x, hm, hk⟩ := sys_done hs
  rw [hk]
  exact hf x _ (h.others (hx x hm))

/-- A step. -/
theorem exec_lasts {cmd : Cmd} {sh sh' : Shared} {w w' : World} {r : cmd.Resp} (he : cmd.exec sh w = .done (r, sh') w')
    (hc : Cmd.pooled N T cmd) (hx : ∀ x ∈ w.choices, Spares N S T x) (h : Lasts N S T w.k) : Lasts N S T w'.k := by
  cases cmd with
  | «open» m p =>
    obtain ⟨he, -⟩ := keep_done he
    refine sys_lasts hx h he fun x k h => ?_
    cases hf : x.fail with
    | some e => exact h
    | none => exact kopen_lasts h m (cstr p) hc
  | opendir p =>
    obtain ⟨he, -⟩ := keep_done he
    refine sys_lasts hx h he fun x k h => ?_
    cases hf : x.fail with
    | some e => exact h
    | none =>
      dsimp only
      cases hl : k.lookup (cstr p) with
      | none => exact h
      | some i =>
        dsimp only
        by_cases hd : ((k.inodes[i]?).map (·.dir)).getD false = true
        · rw [if_pos hd]
          have := kopen_lasts h .rdonly (cstr p) (.inr rfl)
          cases h1 : (kopen .rdonly (cstr p) k).1 with
          | error e => exact this
          | ok fd => exact this
        · rw [if_neg hd]; exact h
  | close fd =>
    obtain ⟨he, -⟩ := keep_done he
    refine sys_lasts hx h he fun x k h => ?_
    cases ho : k.ofd fd with
    | none => exact h
    | some o =>
      cases hf : x.fail with
      | some e => exact h.seek rfl rfl rfl fun q hq => nomatch hq
      | none => exact h.seek rfl rfl rfl fun q hq => nomatch hq
  | read fd n =>
    obtain ⟨he, -⟩ := keep_done he
    refine sys_lasts hx h he fun x k h => ?_
    cases hf : x.fail with
    | some e => exact h
    | none => exact kread_lasts h fd n x.count
  | pread fd n o =>
    obtain ⟨he, -⟩ := keep_done he
    refine sys_lasts hx h he fun x k h => ?_
    have : ∀ (y : Except Errno Bytes × Kernel), y.2 = k → Lasts N S T y.2 := fun y hy => by rw [hy]; exact h
    apply this
    cases hf : x.fail with
    | some e => rfl
    | none =>
      dsimp only
      cases k.ofd fd with
      | none => rfl
      | some q =>
        dsimp only
        split
        · rfl
        · split
          · split
            · rfl
            · split <;> rfl
          · rfl
  | lseek fd o =>
    obtain ⟨he, -⟩ := keep_done he
    refine sys_lasts hx h he fun x k h => ?_
    cases hf : x.fail with
    | some e => exact h
    | none =>
      dsimp only
      cases ho : k.ofd fd with
      | none => exact h
      | some q =>
        dsimp only
        by_cases h1 : (q.off : Int) + o < 0
        · rw [if_pos h1]; exact h
        · rw [if_neg h1]
          by_cases h2 : (q.off : Int) + o ≥ 2 ^ 63
          · rw [if_pos h2]; exact h
          · rw [if_neg h2]
            refine h.seek rfl rfl rfl fun q' hq => ?_
            injection hq with hq
            subst hq
            exact ⟨q, by rw [ofd_nat ho]; exact ho, rfl, rfl⟩
  | write fd d =>
    obtain ⟨he, -⟩ := keep_done he
    refine sys_lasts hx h he fun x k h => ?_
    cases hf : x.fail with
    | some e => exact h
    | none => exact kwrite_lasts h fd d x.count
  | sync fd =>
    obtain ⟨he, -⟩ := keep_done he
    refine sys_lasts hx h he fun x k h => ?_
    cases hf : x.fail with
    | some e => exact h
    | none => exact ksync_lasts h fd
  | stat p =>
    obtain ⟨he, -⟩ := keep_done he
    refine sys_lasts hx h he fun x k h => ?_
    cases hf : x.fail with
    | some e => exact h
    | none =>
      dsimp only
      cases k.lookup (cstr p) with
      | none => exact h
      | some i => exact h
  | access p =>
    obtain ⟨he, -⟩ := keep_done he
    refine sys_lasts hx h he fun x k h => ?_
    cases hf : x.fail with
    | some e => exact h
    | none =>
      dsimp only
      cases k.lookup (cstr p) with
      | none => exact h
      | some i => exact h
  | unlink p =>
    obtain ⟨he, -⟩ := keep_done he
    refine sys_lasts hx h he fun x k h => ?_
    cases hf : x.fail with
    | some e => exact h
    | none =>
      dsimp only
      cases hl : k.lookup (cstr p) with
      | none => exact h
      | some i =>
        dsimp only
        split
        · exact h
        · exact h.rename (names_erase h.names _) rfl rfl (found_erase hc)
  | mkdir p =>
    obtain ⟨he, -⟩ := keep_done he
    refine sys_lasts hx h he fun x k h => ?_
    cases hf : x.fail with
    | some e => exact h
    | none =>
      dsimp only
      split
      · exact h
      · cases hl : k.lookup (cstr p) with
        | some i => exact h
        | none =>
          exact ⟨names_set (j := k.inodes.length) h.names ⟨fun e => (hc e).elim, fun e => (h.files.fresh e).elim⟩, FilesOf.push h.files rfl,
            fun i q hq hS => h.fds i q hq hS, fun p' hp' => ⟨(h.found p' hp').1, found_set p' (h.found p' hp').2⟩⟩
  | rmdir p =>
    obtain ⟨he, -⟩ := keep_done he
    refine sys_lasts hx h he fun x k h => ?_
    cases hf : x.fail with
    | some e => exact h
    | none =>
      dsimp only
      cases hl : k.lookup (cstr p) with
      | none => exact h
      | some i =>
        dsimp only
        by_cases hd : ((k.inodes[i]?).map (·.dir)).getD false = true
        · rw [if_pos hd]
          split
          · exact h
          · refine h.rename (names_erase h.names _) rfl rfl (found_erase fun hT => ?_)
            obtain ⟨D, hD⟩ := (h.names _ _ hl).1 (h.found _ hT).1
            obtain ⟨n, hn, hnd, -⟩ := h.files i D hD
            rw [hn] at hd
            simp [hnd] at hd
        · rw [if_neg hd]; exact h
  | rename a b =>
    obtain ⟨he, -⟩ := keep_done he
    refine sys_lasts hx h he fun x k h => ?_
    cases hf : x.fail with
    | some e => exact h
    | none =>
      dsimp only
      cases hl : k.lookup (cstr a) with
      | none => exact h
      | some i =>
        obtain ⟨hab, hT⟩ : (N (cstr a) ↔ N (cstr b)) ∧ ¬ T (cstr a) := hc
        have done : Lasts N S T ((k.setName (cstr b) (some i)).setName (cstr a) none) :=
          h.rename (names_erase (names_set h.names (hab.symm.trans (h.names _ _ hl))) _) rfl rfl
            fun q hq e => found_erase hT q hq (found_set q e)
        dsimp only
        split
        · exact h
        · split
          · exact h
          · cases hj : k.lookup (cstr b) with
            | none => exact done
            | some j =>
              dsimp only
              split
              · exact h
              · split
                · exact h
                · exact done
  | mmap fd n =>
    obtain ⟨he, -⟩ := keep_done he
    refine sys_lasts hx h he fun x k h => ?_
    cases hf : x.fail with
    | some e => exact h
    | none =>
      dsimp only
      split
      · exact h
      · cases k.inodeOf fd with
        | none => exact h
        | some i => exact h.rename h.names rfl rfl fun _ _ e => e
  | munmap m =>
    obtain ⟨he, -⟩ := keep_done he
    refine sys_lasts hx h he fun x k h => ?_
    cases hm : (k.maps[m]?).join with
    | none => exact h
    | some i => exact h.rename h.names rfl rfl fun _ _ e => e
  | other fd =>
    obtain ⟨he, -⟩ := keep_done he
    refine sys_lasts hx h he fun x k h => ?_
    cases hf : x.fail with
    | some e => exact h
    | none => exact h
  | readdir fd l =>
    obtain ⟨he, -⟩ := keep_done he
    refine sys_lasts hx h he fun x k h => ?_
    cases hf : x.fail with
    | some e => exact h
    | none => exact h
  | fetchSub l =>
    injection he with _ he
    subst he
    exact h
  | fetchAdd l =>
    injection he with _ he
    subst he
    exact h
  | insert n =>
    injection he with _ he
    subst he
    exact h
  | remove n =>
    injection he with _ he
    subst he
    exact h

end Conc
end Posix
end Lsmdb
