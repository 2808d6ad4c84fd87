import Verif.Spec.PosixInstall
import Verif.Proof.PosixPool2

/-! What a crash can do to files that are only renamed among each other. -/

namespace Lsmdb
namespace Posix

open MemEnv (St lit)

namespace Conc

/-- What the disk remembers of the names. -/
def Pends (R T : Bytes → Prop) (S : Nat → Option Bytes) (k : Kernel) : Prop :=
  ∀ p v, R p → (p, v) ∈ k.pend → (v = none ∧ ¬ T p) ∨ ∃ i D, v = some i ∧ S i = some D

/-- A crash does no harm to the files, nor to the names `R`. -/
structure Hard (R T : Bytes → Prop) (S : Nat → Option Bytes) (k : Kernel) : Prop where
  disk : OnDisk S k
  pend : Pends R T S k

variable {N R T : Bytes → Prop} {S : Nat → Option Bytes} {k k' : Kernel} {strerror : Strerror} {full : Bool} {c c' : Conf}

theorem Hard.names (h : Hard R T S k) (hL : Lasts N S T k) (hR : ∀ p, R p → N p) : NamesAfter R T S k := by
  rintro p v hp (rfl | hv)
  · cases hl : k.lookup p with
    | none => exact .inl ⟨rfl, fun hT => (hL.found p hT).2 hl⟩
    | some i =>
      obtain ⟨D, hD⟩ := (hL.names p i hl).1 (hR p hp)
      exact .inr ⟨i, D, rfl, hD⟩
  · exact h.pend p v hp hv

theorem pends_of (h : NamesAfter R T S k) : Pends R T S k := fun p v hp hv => h p v hp (.inr hv)

/-- Nothing happens to names and files. -/
theorem Hard.same (h : Hard R T S k) (h1 : k'.inodes = k.inodes) (h2 : k'.pend = k.pend) : Hard R T S k' := by
  refine ⟨fun i D hi b hb => h.disk i D hi b ?_, fun p v hp hv => h.pend p v hp (by rw [← h2]; exact hv)⟩
  obtain ⟨n, hn, ha⟩ := hb
  exact ⟨n, by rw [← h1]; exact hn, ha⟩

/-- The files stay the same. -/
theorem OnDisk.keep (h : OnDisk S k) (h1 : ∀ i D n, S i = some D → k'.inodes[i]? = some n → k.inodes[i]? = some n) : OnDisk S k' := by
  rintro i D hi b ⟨n, hn, ha⟩
  exact h i D hi b ⟨n, h1 i D n hi hn, ha⟩

/-- A name changes: what it meant is remembered. -/
theorem Pends.set (h : Pends R T S k) (hL : Lasts N S T k) (hR : ∀ p, R p → N p) (p : Bytes) (v : Option Nat) : Pends R T S (k.setName p v) := by
  intro q u hq hu
  rcases List.mem_cons.1 hu with e | hu
  · obtain ⟨rfl, rfl⟩ := Prod.mk.inj e
    cases hl : k.lookup q with
    | none => exact .inl ⟨rfl, fun hT => (hL.found q hT).2 hl⟩
    | some i =>
      obtain ⟨D, hD⟩ := (hL.names q i hl).1 (hR q hq)
      exact .inr ⟨i, D, rfl, hD⟩
  · exact h q u hq hu

/-- Others let the names be. -/
def Mindful (N R T : Bytes → Prop) (S : Nat → Option Bytes) (x : Choice) : Prop :=
  Spares N S T x ∧ ∀ k, NamesOf N S k → FilesOf S k → NamesAfter R T S k → NamesAfter R T S (x.other k)

theorem Hard.others {x : Choice} (h : Hard R T S k) (hL : Lasts N S T k) (hR : ∀ p, R p → N p) (hx : Mindful N R T S x) : Hard R T S (x.other k) := by
  refine ⟨h.disk.keep fun i D n hi hn => ?_, pends_of (hx.2 k hL.names hL.files (h.names hL hR))⟩
  obtain ⟨m, hm, -⟩ := hL.files i D hi
  have := (hx.1.1 k).1 i D m hi hm
  rw [this] at hn
  rw [hm]
  exact hn

theorem sys_hard {α : Type} {call : α → List Call} {f : Choice → Kernel → α × Kernel} {w w' : World} {r : α} (hR : ∀ p, R p → N p)
    (hx : ∀ x ∈ w.choices, Mindful N R T S x) (hL : Lasts N S T w.k) (h : Hard R T S w.k) (hs : sys call f w = .done r w')
    (hf : ∀ x k, Lasts N S T k → Hard R T S k → Hard R T S (f x k).2) : Hard R T S w'.k := by
  obtain ⟨x, hm, hk⟩ := sys_done hs
  rw [hk]
  exact hf x _ (hL.others (hx x hm).1) (h.others hL hR (hx x hm))

theorem OnDisk.push (h : OnDisk S k) (hL : FilesOf S k) {x : Inode} (h1 : k'.inodes = k.inodes ++ [x]) : OnDisk S k' := by
  refine h.keep fun i D n hi hn => ?_
  obtain ⟨m, hm, -⟩ := hL i D hi
  rw [h1, List.getElem?_append_left (List.getElem?_eq_some_iff.1 hm).1] at hn
  exact hn

theorem OnDisk.other (h : OnDisk S k) {j : Nat} {x : Inode} (hj : ¬ ∃ D, S j = some D) (h1 : k'.inodes = k.inodes.set j x) : OnDisk S k' := by
  refine h.keep fun i D n hi hn => ?_
  rw [h1, List.getElem?_set_ne] at hn
  · exact hn
  · rintro rfl
    exact hj ⟨D, hi⟩

theorem kopen_hard (hR : ∀ p, R p → N p) (hL : Lasts N S T k) (h : Hard R T S k) (m : Mode) (p : Bytes) (hp : ¬ N p ∨ m = .rdonly) :
    Hard R T S (kopen m p k).2 := by
  unfold kopen
  by_cases h0 : p = []
  · rw [if_pos h0]; exact h
  · rw [if_neg h0]
    dsimp only
    cases hl : k.lookup p with
    | none =>
      dsimp only
      by_cases hc : m.creat = true
      · rw [if_pos hc]
        exact ⟨OnDisk.push h.disk hL.files rfl, h.pend.set hL hR p (some k.inodes.length)⟩
      · rw [if_neg hc]; exact h
    | some j =>
      dsimp only
      cases hj : k.inodes[j]? with
      | none => exact h
      | some n =>
        dsimp only
        by_cases hd : n.dir = true ∧ m ≠ .rdonly
        · rw [if_pos hd]; exact h
        · rw [if_neg hd]
          have hjo : (∃ D, S j = some D) → m = .rdonly := fun hS =>
            hp.elim (fun e => (e ((hL.names p j hl).2 hS)).elim) id
          by_cases hm : m = .trunc
          · simp only [if_pos hm]
            exact ⟨OnDisk.other h.disk (fun hS => nomatch hm.symm.trans (hjo hS)) rfl, h.pend⟩
          · simp only [if_neg hm]
            exact h.same rfl rfl

theorem kwrite_hard (hL : Lasts N S T k) (h : Hard R T S k) (fd : Int) (d : Bytes) (count : Nat) : Hard R T S (kwrite fd d count k).2 := by
  unfold kwrite
  cases ho : k.ofd fd with
  | none => exact h
  | some o =>
    dsimp only
    by_cases hr : o.wr = true
    · rw [if_pos hr]
      cases h1 : k.inodes[o.ino]? with
      | none => exact h
      | some b =>
        have hS : ¬ ∃ D, S o.ino = some D := fun hS => nomatch hr.symm.trans (hL.fds fd o ho hS)
        exact ⟨OnDisk.other h.disk hS rfl, h.pend⟩
    · rw [if_neg hr]; exact h

theorem ksync_hard (h : Hard R T S k) (fd : Int) : Hard R T S (ksync fd k).2 := by
  unfold ksync Kernel.inodeOf
  cases ho : k.ofd fd with
  | none => exact h
  | some o =>
    simp only [Option.map_some]
    cases h1 : k.inodes[o.ino]? with
    | none => exact h
    | some b =>
      dsimp only
      by_cases hd : b.dir = true
      · rw [if_pos hd]
        exact ⟨h.disk, fun p v hp hv => h.pend p v hp (List.mem_filter.1 hv).1⟩
      · rw [if_neg hd]
        refine ⟨?_, h.pend⟩
        rintro i D hi y ⟨n, hn, ha⟩
        by_cases he : o.ino = i
        · subst he
          simp only at hn
          rw [List.getElem?_set_self (List.getElem?_eq_some_iff.1 h1).1] at hn
          injection hn with hn
          subst hn
          rcases ha with ha | ha
          · exact h.disk _ D hi y ⟨b, h1, .inl ha⟩
          · exact nomatch ha
        · simp only at hn
          rw [List.getElem?_set_ne he] at hn
          exact h.disk i D hi y ⟨n, hn, ha⟩

/-- A step. -/
theorem exec_hard (hR : ∀ p, R p → N p) {cmd : Cmd} {sh sh' : Shared} {w w' : World} {r : cmd.Resp} (he : cmd.exec sh w = .done (r, sh') w')
    (hc : Cmd.pooled N T cmd) (hx : ∀ x ∈ w.choices, Mindful N R T S x) (hL : Lasts N S T w.k) (h : Hard R T S w.k) : Hard R T S w'.k := by
  cases cmd with
  | «open» m p =>
    obtain ⟨he, -⟩ := keep_done he
    refine sys_hard hR hx hL h he fun x k hL h => ?_
    cases hf : x.fail with
    | some e => exact h
    | none => exact kopen_hard hR hL h m (cstr p) hc
  | opendir p =>
    obtain ⟨he, -⟩ := keep_done he
    refine sys_hard hR hx hL h he fun x k hL h => ?_
    cases hf : x.fail with
    | some e => exact h
    | none =>
      dsimp only
      cases hl : k.lookup (cstr p) with
      | none => exact h
      | some i =>
        dsimp only
        by_cases hd : ((k.inodes[i]?).map (·.dir)).getD false = true
        · rw [if_pos hd]
          have := kopen_hard hR hL h .rdonly (cstr p) (.inr rfl)
          cases h1 : (kopen .rdonly (cstr p) k).1 with
          | error e => exact this
          | ok fd => exact this
        · rw [if_neg hd]; exact h
  | close fd =>
    obtain ⟨he, -⟩ := keep_done he
    refine sys_hard hR hx hL h he fun x k hL h => ?_
    cases ho : k.ofd fd with
    | none => exact h
    | some o =>
      cases hf : x.fail with
      | some e => exact h.same rfl rfl
      | none => exact h.same rfl rfl
  | read fd n =>
    obtain ⟨he, -⟩ := keep_done he
    refine sys_hard hR hx hL h he fun x k hL h => ?_
    cases hf : x.fail with
    | some e => exact h
    | none =>
      dsimp only [kread]
      cases ho : k.ofd fd with
      | none => exact h
      | some o =>
        dsimp only
        split
        · split
          · exact h
          · split
            · exact h
            · exact h.same rfl rfl
        · exact h
  | pread fd n o =>
    obtain ⟨he, -⟩ := keep_done he
    refine sys_hard hR hx hL h he fun x k hL h => ?_
    have : ∀ (y : Except Errno Bytes × Kernel), y.2 = k → Hard R T S y.2 := fun y hy => by rw [hy]; exact h
    apply this
    cases hf : x.fail with
    | some e => rfl
    | none =>
      dsimp only
      cases k.ofd fd with
      | none => rfl
      | some q =>
        dsimp only
        split
        · rfl
        · split
          · split
            · rfl
            · split <;> rfl
          · rfl
  | lseek fd o =>
    obtain ⟨he, -⟩ := keep_done he
    refine sys_hard hR hx hL h he fun x k hL h => ?_
    cases hf : x.fail with
    | some e => exact h
    | none =>
      dsimp only
      cases ho : k.ofd fd with
      | none => exact h
      | some q =>
        dsimp only
        split
        · exact h
        · split
          · exact h
          · exact h.same rfl rfl
  | write fd d =>
    obtain ⟨he, -⟩ := keep_done he
    refine sys_hard hR hx hL h he fun x k hL h => ?_
    cases hf : x.fail with
    | some e => exact h
    | none => exact kwrite_hard hL h fd d x.count
  | sync fd =>
    obtain ⟨he, -⟩ := keep_done he
    refine sys_hard hR hx hL h he fun x k hL h => ?_
    cases hf : x.fail with
    | some e => exact h
    | none => exact ksync_hard h fd
  | stat p =>
    obtain ⟨he, -⟩ := keep_done he
    refine sys_hard hR hx hL h he fun x k hL h => ?_
    cases hf : x.fail with
    | some e => exact h
    | none =>
      dsimp only
      cases k.lookup (cstr p) with
      | none => exact h
      | some i => exact h
  | access p =>
    obtain ⟨he, -⟩ := keep_done he
    refine sys_hard hR hx hL h he fun x k hL h => ?_
    cases hf : x.fail with
    | some e => exact h
    | none =>
      dsimp only
      cases k.lookup (cstr p) with
      | none => exact h
      | some i => exact h
  | unlink p =>
    obtain ⟨he, -⟩ := keep_done he
    refine sys_hard hR hx hL h he fun x k hL h => ?_
    cases hf : x.fail with
    | some e => exact h
    | none =>
      dsimp only
      cases hl : k.lookup (cstr p) with
      | none => exact h
      | some i =>
        dsimp only
        split
        · exact h
        · exact ⟨h.disk, h.pend.set hL hR _ _⟩
  | mkdir p =>
    obtain ⟨he, -⟩ := keep_done he
    refine sys_hard hR hx hL h he fun x k hL h => ?_
    cases hf : x.fail with
    | some e => exact h
    | none =>
      dsimp only
      split
      · exact h
      · cases hl : k.lookup (cstr p) with
        | some i => exact h
        | none => exact ⟨OnDisk.push h.disk hL.files rfl, h.pend.set hL hR _ (some k.inodes.length)⟩
  | rmdir p =>
    obtain ⟨he, -⟩ := keep_done he
    refine sys_hard hR hx hL h he fun x k hL h => ?_
    cases hf : x.fail with
    | some e => exact h
    | none =>
      dsimp only
      cases hl : k.lookup (cstr p) with
      | none => exact h
      | some i =>
        dsimp only
        split
        · split
          · exact h
          · exact ⟨h.disk, h.pend.set hL hR _ _⟩
        · exact h
  | rename a b =>
    obtain ⟨he, -⟩ := keep_done he
    refine sys_hard hR hx hL h he fun x k hL h => ?_
    cases hf : x.fail with
    | some e => exact h
    | none =>
      dsimp only
      cases hl : k.lookup (cstr a) with
      | none => exact h
      | some i =>
        obtain ⟨hab, hT⟩ : (N (cstr a) ↔ N (cstr b)) ∧ ¬ T (cstr a) := hc
        have mid : Lasts N S T (k.setName (cstr b) (some i)) :=
          hL.rename (names_set hL.names (hab.symm.trans (hL.names _ _ hl))) rfl rfl fun q _ e => found_set q e
        have done : Hard R T S ((k.setName (cstr b) (some i)).setName (cstr a) none) :=
          ⟨h.disk, (h.pend.set hL hR _ _).set mid hR _ _⟩
        dsimp only
        split
        · exact h
        · split
          · exact h
          · cases hj : k.lookup (cstr b) with
            | none => exact done
            | some j =>
              dsimp only
              split
              · exact h
              · split
                · exact h
                · exact done
  | mmap fd n =>
    obtain ⟨he, -⟩ := keep_done he
    refine sys_hard hR hx hL h he fun x k hL h => ?_
    cases hf : x.fail with
    | some e => exact h
    | none =>
      dsimp only
      split
      · exact h
      · cases k.inodeOf fd with
        | none => exact h
        | some i => exact h.same rfl rfl
  | munmap m =>
    obtain ⟨he, -⟩ := keep_done he
    refine sys_hard hR hx hL h he fun x k hL h => ?_
    cases hm : (k.maps[m]?).join with
    | none => exact h
    | some i => exact h.same rfl rfl
  | other fd =>
    obtain ⟨he, -⟩ := keep_done he
    refine sys_hard hR hx hL h he fun x k hL h => ?_
    cases hf : x.fail with
    | some e => exact h
    | none => exact h
  | readdir fd l =>
    obtain ⟨he, -⟩ := keep_done he
    refine sys_hard hR hx hL h he fun x k hL h => ?_
    cases hf : x.fail with
    | some e => exact h
    | none => exact h
  | fetchSub l =>
    injection he with _ he
    subst he
    exact h
  | fetchAdd l =>
    injection he with _ he
    subst he
    exact h
  | insert n =>
    injection he with _ he
    subst he
    exact h
  | remove n =>
    injection he with _ he
    subst he
    exact h

/-- The files are left alone, now and later, also by a crash. -/
structure Firm (N R T : Bytes → Prop) (S : Nat → Option Bytes) (c : Conf) : Prop where
  sub : ∀ p, R p → N p
  peace : Peace N S T c
  hard : Hard R T S c.w.k
  mind : ∀ x ∈ c.w.choices, Mindful N R T S x

theorem Firm.step {e : Option Ev} (h : Firm N R T S c) (hs : Step strerror full c e c')
    (he : ∀ t op, e = some (.call t op) → Obeys N T op) : Firm N R T S c' := by
  refine ⟨h.sub, h.peace.step hs he, ?_, ?_⟩
  · cases hs with
    | call => exact h.hard
    | ret => rw [finish_w]; exact h.hard
    | move t home cmd k r sh w ht hx => exact exec_hard h.sub hx (h.peace.progs t home _ ht).1 h.mind h.peace.lasts h.hard
  · cases hs with
    | call => exact h.mind
    | ret => rw [finish_w]; exact h.mind
    | move t home cmd k r sh w ht hx => exact fun x hm => h.mind x (exec_choices hx x hm)

theorem Firm.all {es : List Ev} (hr : Run strerror full c es c') (he : ∀ t op, Ev.call t op ∈ es → Obeys N T op) (h : Firm N R T S c) :
    Firm N R T S c' := by
  induction hr with
  | nil => exact h
  | step hr hs ih =>
    exact (ih fun t op hm => he t op (List.mem_append_left _ hm)).step hs
      fun t op e => he t op (List.mem_append_right _ (by rw [e]; exact List.mem_singleton_self _))

/-- What a crash leaves. -/
theorem Firm.reads (h : Firm N R T S c) {name : Bytes} (hn : R (cstr name)) {x : Option Bytes} (hx : Iface.CrashReads c.w.k name x) :
    (x = none ∧ ¬ T (cstr name)) ∨ ∃ i D, x = some D ∧ S i = some D := by
  have hN := h.hard.names h.peace.lasts h.sub
  cases x with
  | none =>
    rcases hN _ _ hn hx with h1 | ⟨i, D, h1, -⟩
    · exact .inl ⟨rfl, h1.2⟩
    · exact nomatch h1
  | some b =>
    obtain ⟨j, h1, h2⟩ := hx
    rcases hN _ _ hn h1 with h3 | ⟨i, D, h3, h4⟩
    · exact nomatch h3.1
    · injection h3 with h3
      subst h3
      exact .inr ⟨j, D, by rw [h.hard.disk j D h4 b h2], h4⟩

/-- The events of a call among others. -/
theorem CallIn.events {t : Nat} {op : POp} {r : PRes} {ds : List Ev} (h : CallIn strerror full t op r c ds c') :
    ∃ es, Run strerror full c es c' ∧ ∀ u op', Ev.call u op' ∈ es → op' = op ∨ Ev.call u op' ∈ ds := by
  cases h with
  | mk before call meanwhile busy ret =>
    refine ⟨_, (run_append (before.step call) meanwhile).step ret, fun u op' hm => ?_⟩
    simp only [List.mem_append, Option.toList, List.mem_singleton] at hm
    rcases hm with ((hm | hm) | hm) | hm
    · exact .inr (List.mem_append_left _ hm)
    · cases hm; exact .inl rfl
    · exact .inr (List.mem_append_right _ hm)
    · exact nomatch hm

end Conc
end Posix
end Lsmdb
