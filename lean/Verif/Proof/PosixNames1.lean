import Verif.Spec.PosixNames
import Verif.Proof.PosixFinal1

/-! What each step does to the names. -/

namespace Lsmdb
namespace Posix

open MemEnv (St lit)

namespace Conc

/-- The step, as far as names go. -/
def Cmd.onNames (strerror : Strerror) (faulty : Prop) : (c : Cmd) → Names → Names → c.Resp → Prop
  | .open m p, ns, ns', (r : Except Errno Int) =>
    if m = .rdonly then
      ns' = ns ∧ (((∃ fd, r = .ok fd) ∧ ns (cstr p) ≠ none) ∨ ((∃ e, r = .error e) ∧ (faulty ∨ cstr p = [] ∨ ns (cstr p) = none)))
    else ((∃ fd, r = .ok fd) ∧ Appears (cstr p) ns ns') ∨ ((∃ e, r = .error e) ∧ ns' = ns ∧ (faulty ∨ Unmakable (cstr p) ns))
  | .mkdir p, ns, ns', r => Does faulty (.createDir p) ns ns' (.status (statusOf strerror p r))
  | .unlink p, ns, ns', r => Does faulty (.removeFile p) ns ns' (.status (statusOf strerror p r))
  | .rmdir p, ns, ns', r => Does faulty (.removeDir p) ns ns' (.status (statusOf strerror p r))
  | .rename a b, ns, ns', r => Does faulty (.renameFile a b) ns ns' (.status (statusOf strerror a r))
  | .stat p, ns, ns', (r : Except Errno Nat) =>
    ns' = ns ∧ (((∃ n, r = .ok n) ∧ ns (cstr p) ≠ none) ∨ ((∃ e, r = .error e) ∧ (faulty ∨ ns (cstr p) = none)))
  | .access p, ns, ns', (r : Except Errno Unit) =>
    ns' = ns ∧ ((r = .ok () ∧ ns (cstr p) ≠ none) ∨ ((∃ e, r = .error e) ∧ (faulty ∨ ns (cstr p) = none)))
  | .opendir p, ns, ns', (r : Except Errno (Int × List Bytes)) =>
    ns' = ns ∧ ((∃ fd l, r = .ok (fd, l) ∧ (∃ i, ns (cstr p) = some ⟨i, true⟩) ∧
        (∀ x ∈ l, x = [46] ∨ x = [46, 46] ∨ ∃ q, ns q ≠ none ∧ parentDir q = cstr p ∧ lastOf q = x) ∧
        ∀ q, ns q ≠ none → parentDir q = cstr p → lastOf q ∈ l) ∨
      ((∃ e, r = .error e) ∧ (faulty ∨ cstr p = [] ∨ ∀ i, ns (cstr p) ≠ some ⟨i, true⟩)))
  | .readdir _ rest, ns, ns', (r : Option Bytes) => ns' = ns ∧ (r = rest.head? ∨ (faulty ∧ r = none))
  | .other _, ns, ns', (r : Except Errno Unit) => ns' = ns ∧ ((∃ e, r = .error e) → faulty)
  | _, ns, ns', _ => ns' = ns

variable {strerror : Strerror} {faulty : Prop} {R : Names → Names → Prop} {k k' : Kernel}

/-- The names stay. -/
structure Calm (k k' : Kernel) : Prop where
  names : k'.names = k.names
  len : k'.inodes.length = k.inodes.length
  dirs : ∀ i : Nat, (k'.inodes[i]?).map (·.dir) = (k.inodes[i]?).map (·.dir)

theorem Calm.refl : Calm k k := ⟨rfl, rfl, fun _ => rfl⟩

theorem calm_same (h1 : k'.names = k.names) (h3 : k'.inodes = k.inodes) : Calm k k' := ⟨h1, by rw [h3], fun _ => by rw [h3]⟩

theorem calm_node {i : Nat} {n n' : Inode} (hn : k.inodes[i]? = some n) (hd : n'.dir = n.dir) (h1 : k'.names = k.names)
    (h3 : k'.inodes = k.inodes.set i n') : Calm k k' := by
  refine ⟨h1, by rw [h3, List.length_set], fun j => ?_⟩
  rw [h3]
  by_cases e : i = j
  · subst e
    rw [List.getElem?_set_self (List.getElem?_eq_some_iff.1 hn).1, hn]
    exact congrArg some hd
  · rw [List.getElem?_set_ne e]

theorem namesOf_eq (k : Kernel) (p : Bytes) :
    namesOf k p = (k.lookup p).bind fun i => ((k.inodes[i]?).map (·.dir)).map fun d => ⟨i, d⟩ := by
  unfold namesOf
  congr 1
  funext i
  rw [Option.map_map]
  rfl

theorem Calm.same (h : Calm k k') : namesOf k' = namesOf k := by
  funext p
  rw [namesOf_eq, namesOf_eq, lookup_of_names h.names]
  congr 1
  funext i
  rw [h.dirs]

theorem Calm.sound (h : Calm k k') (hs : Sound k) : Sound k' := fun p i hp => by
  rw [h.len]
  rw [lookup_of_names h.names] at hp
  exact hs p i hp

theorem namesOf_none (hs : Sound k) {p : Bytes} : namesOf k p = none ↔ k.lookup p = none := by
  unfold namesOf
  cases h : k.lookup p with
  | none => simp
  | some i =>
    have := hs p i h
    simp [List.getElem?_eq_getElem this]

theorem namesOf_some {p : Bytes} {i : Nat} {n : Inode} (h : k.lookup p = some i) (hn : k.inodes[i]? = some n) :
    namesOf k p = some ⟨i, n.dir⟩ := by
  unfold namesOf
  rw [h]
  simp [hn]

theorem Sound.node (hs : Sound k) {p : Bytes} {i : Nat} (h : k.lookup p = some i) : ∃ n, k.inodes[i]? = some n :=
  ⟨_, List.getElem?_eq_getElem (hs p i h)⟩

theorem fresh_len (k : Kernel) : (namesOf k).fresh k.inodes.length := by
  intro p e he
  unfold namesOf at he
  cases h : k.lookup p with
  | none => rw [h] at he; exact nomatch he
  | some i =>
    rw [h] at he
    simp only [Option.bind_some, Option.map_eq_some_iff] at he
    obtain ⟨n, hn, rfl⟩ := he
    have := (List.getElem?_eq_some_iff.1 hn).1
    exact fun e => absurd this (by rw [show i = k.inodes.length from e]; exact Nat.lt_irrefl _)

/-- A name goes away. -/
theorem names_gone {p : Bytes} : namesOf (k.setName p none) = (namesOf k).put p none := by
  funext q
  unfold namesOf Names.put
  rw [lookup_setName]
  by_cases h : q = p
  · rw [if_pos h, if_pos h]; rfl
  · rw [if_neg h, if_neg h]; rfl

theorem sound_gone (hs : Sound k) {p : Bytes} : Sound (k.setName p none) := by
  intro q i h
  rw [lookup_setName] at h
  by_cases e : q = p
  · rw [if_pos e] at h; exact nomatch h
  · rw [if_neg e] at h; exact hs q i h

/-- A name gets another meaning. -/
theorem names_put {p : Bytes} {i : Nat} {n : Inode} (hn : k.inodes[i]? = some n) :
    namesOf (k.setName p (some i)) = (namesOf k).put p (some ⟨i, n.dir⟩) := by
  funext q
  unfold namesOf Names.put
  rw [lookup_setName]
  by_cases h : q = p
  · rw [if_pos h, if_pos h]
    show ((k.inodes[i]?).map _) = _
    rw [hn]; rfl
  · rw [if_neg h, if_neg h]; rfl

theorem sound_set (hs : Sound k) {p : Bytes} {i : Nat} (hi : i < k.inodes.length) : Sound (k.setName p (some i)) := by
  intro q j h
  rw [lookup_setName] at h
  by_cases e : q = p
  · rw [if_pos e] at h; injection h with h; subst h; exact hi
  · rw [if_neg e] at h; exact hs q j h

/-- Something new gets a name. -/
theorem names_new (hs : Sound k) {p : Bytes} {x : Inode} (h1 : k'.names = (k.setName p (some k.inodes.length)).names)
    (h3 : k'.inodes = k.inodes ++ [x]) : namesOf k' = (namesOf k).put p (some ⟨k.inodes.length, x.dir⟩) ∧ Sound k' := by
  constructor
  · funext q
    unfold namesOf Names.put
    rw [lookup_of_names h1, lookup_setName]
    by_cases h : q = p
    · rw [if_pos h, if_pos h, h3]
      simp
    · rw [if_neg h, if_neg h]
      show _ = (k.lookup q).bind _
      cases hl : k.lookup q with
      | none => rfl
      | some i => simp only [Option.bind_some]; rw [h3, List.getElem?_append_left (hs q i hl)]
  · intro q i h
    rw [lookup_of_names h1, lookup_setName] at h
    rw [h3, List.length_append]
    by_cases e : q = p
    · rw [if_pos e] at h; injection h with h; subst h; exact Nat.lt_succ_self _
    · rw [if_neg e] at h; exact Nat.lt_succ_of_lt (hs q i h)

/-- What has to be shown of a step. -/
def Good (Q : Names → Names → α → Prop) (k : Kernel) (y : α × Kernel) : Prop := Q (namesOf k) (namesOf y.2) y.1 ∧ Sound y.2

theorem good_calm {α : Type} {Q : Names → Names → α → Prop} {r : α} (hs : Sound k) (h : Calm k k') (hq : Q (namesOf k) (namesOf k) r) :
    Good Q k (r, k') := by
  refine ⟨?_, h.sound hs⟩
  show Q _ (namesOf k') r
  rw [h.same]
  exact hq

theorem sys_good {α : Type} {call : α → List Call} {f : Choice → Kernel → α × Kernel} {w w' : World} {r : α} {Q : Names → Names → α → Prop}
    (hR : ∀ x ∈ w.choices, Leave R x) (hf : ¬ faulty → ∀ x ∈ w.choices, x.fail = none) (hs : Sound w.k) (h : sys call f w = .done r w')
    (hg : ∀ x k, Sound k → (¬ faulty → x.fail = none) → Good Q k (f x k)) :
    (∃ m, (m = namesOf w.k ∨ R (namesOf w.k) m) ∧ Q m (namesOf w'.k) r) ∧ Sound w'.k := by
  unfold sys at h
  cases hc : w.choices with
  | nil => rw [hc] at h; exact nomatch h
  | cons x xs =>
    rw [hc] at h
    injection h with h0 h
    subst h h0
    have hx : x ∈ w.choices := by rw [hc]; exact List.mem_cons_self
    obtain ⟨h1, h2⟩ := hR x hx w.k hs
    obtain ⟨h3, h4⟩ := hg x (x.other w.k) h1 fun hn => hf hn x hx
    exact ⟨⟨_, .inr h2, h3⟩, h4⟩

theorem faulty_of {x : Choice} {e : Errno} (hf : ¬ faulty → x.fail = none) (h : x.fail = some e) : faulty :=
  Classical.byContradiction fun hn => by rw [hf hn] at h; exact nomatch h

theorem open_new {m : Mode} {p : Bytes} (h0 : p ≠ []) (hl : k.lookup p = none) (hc : m.creat = true) :
    ∃ fd k', kopen m p k = (.ok fd, k') ∧ k'.names = (k.setName p (some k.inodes.length)).names ∧ k'.inodes = k.inodes ++ [⟨false, [], []⟩] := by
  have : kopen m p k = (.ok (Kernel.freeFd k.fds : Nat), { k.setName p (some k.inodes.length) with
      inodes := k.inodes ++ [⟨false, [], []⟩], fds := Kernel.putFd k.fds (Kernel.freeFd k.fds) (m.ofd k.inodes.length) }) := by
    unfold kopen; rw [if_neg h0]; dsimp only; rw [hl]; dsimp only; rw [if_pos hc]; rfl
  exact ⟨_, _, this, rfl, rfl⟩

theorem open_old {m : Mode} {p : Bytes} {i : Nat} {n : Inode} (h0 : p ≠ []) (hl : k.lookup p = some i) (hn : k.inodes[i]? = some n)
    (hd : ¬ (n.dir = true ∧ m ≠ .rdonly)) : ∃ fd k', kopen m p k = (.ok fd, k') ∧ Calm k k' := by
  by_cases hm : m = .trunc
  · refine ⟨_, _, by unfold kopen; rw [if_neg h0]; dsimp only; rw [hl]; dsimp only; rw [hn]; dsimp only; rw [if_neg hd], ?_⟩
    simp only [if_pos hm]
    exact calm_node (n' := truncInode n) hn rfl rfl rfl
  · refine ⟨_, _, by unfold kopen; rw [if_neg h0]; dsimp only; rw [hl]; dsimp only; rw [hn]; dsimp only; rw [if_neg hd], ?_⟩
    simp only [if_neg hm]
    exact calm_same rfl rfl

theorem kopen_good (hs : Sound k) (m : Mode) (p : Bytes) (hp : cstr p' = p) : Good (Cmd.onNames strerror faulty (.open m p')) k (kopen m p k) := by
  subst hp
  have L : ∀ ns ns' r, Cmd.onNames strerror faulty (.open .rdonly p') ns ns' r ↔
      (ns' = ns ∧ (((∃ fd, r = .ok fd) ∧ ns (cstr p') ≠ none) ∨ ((∃ e, r = .error e) ∧ (faulty ∨ cstr p' = [] ∨ ns (cstr p') = none)))) :=
    fun ns ns' r => Iff.rfl
  have W : ∀ ns ns' r, m ≠ .rdonly → (Cmd.onNames strerror faulty (.open m p') ns ns' r ↔
      (((∃ fd, r = .ok fd) ∧ Appears (cstr p') ns ns') ∨ ((∃ e, r = .error e) ∧ ns' = ns ∧ (faulty ∨ Unmakable (cstr p') ns)))) :=
    fun ns ns' r h => by show (if m = Mode.rdonly then _ else _) ↔ _; rw [if_neg h]; exact Iff.rfl
  by_cases h0 : cstr p' = []
  · have : kopen m (cstr p') k = (.error ENOENT, k) := by unfold kopen; rw [if_pos h0]
    rw [this]
    refine good_calm hs .refl ?_
    by_cases hm : m = .rdonly
    · subst hm
      exact (L _ _ _).2 ⟨rfl, .inr ⟨⟨_, rfl⟩, .inr (.inl h0)⟩⟩
    · exact (W _ _ _ hm).2 (.inr ⟨⟨_, rfl⟩, rfl, .inr (.inl h0)⟩)
  · cases hl : k.lookup (cstr p') with
    | none =>
      by_cases hc : m.creat = true
      · obtain ⟨fd, k', h1, h2, h3⟩ := open_new h0 hl hc
        obtain ⟨h4, h5⟩ := names_new hs h2 h3
        rw [h1]
        refine ⟨(W _ _ _ (by rintro rfl; exact nomatch hc)).2 (.inl ⟨⟨_, rfl⟩, .inr ⟨h0, (namesOf_none hs).2 hl, _, fresh_len k, h4⟩⟩), h5⟩
      · have hm : m = .rdonly := by cases m <;> first | rfl | exact absurd rfl hc
        subst hm
        have : kopen .rdonly (cstr p') k = (.error ENOENT, k) := by unfold kopen; rw [if_neg h0]; dsimp only; rw [hl]; rfl
        rw [this]
        exact good_calm hs .refl ((L _ _ _).2 ⟨rfl, .inr ⟨⟨_, rfl⟩, .inr (.inr ((namesOf_none hs).2 hl))⟩⟩)
    | some i =>
      obtain ⟨n, hn⟩ := hs.node hl
      have he := namesOf_some hl hn
      by_cases hd : n.dir = true ∧ m ≠ .rdonly
      · have : kopen m (cstr p') k = (.error EISDIR, k) := by unfold kopen; rw [if_neg h0]; dsimp only; rw [hl]; dsimp only; rw [hn]; dsimp only; rw [if_pos hd]
        rw [this]
        rw [hd.1] at he
        exact good_calm hs .refl ((W _ _ _ hd.2).2 (.inr ⟨⟨_, rfl⟩, rfl, .inr (.inr ⟨_, he⟩)⟩))
      · obtain ⟨fd, k', h1, h2⟩ := open_old h0 hl hn hd
        rw [h1]
        refine good_calm hs h2 ?_
        by_cases hm : m = .rdonly
        · subst hm
          exact (L _ _ _).2 ⟨rfl, .inl ⟨⟨_, rfl⟩, by rw [he]; exact nofun⟩⟩
        · have : n.dir = false := Bool.eq_false_iff.2 fun h => hd ⟨h, hm⟩
          rw [this] at he
          exact (W _ _ _ hm).2 (.inl ⟨⟨_, rfl⟩, .inl ⟨_, he, rfl⟩⟩)

theorem kwrite_calm (fd : Int) (d : Bytes) (count : Nat) : Calm k (kwrite fd d count k).2 := by
  unfold kwrite
  cases ho : k.ofd fd with
  | none => exact .refl
  | some o =>
    dsimp only
    by_cases hr : o.wr = true
    · rw [if_pos hr]
      cases h1 : k.inodes[o.ino]? with
      | none => exact .refl
      | some b => exact calm_node (n' := writeInode b _ _) h1 rfl rfl rfl
    · rw [if_neg hr]; exact .refl

theorem ksync_calm (fd : Int) : Calm k (ksync fd k).2 := by
  unfold ksync Kernel.inodeOf
  cases ho : k.ofd fd with
  | none => exact .refl
  | some o =>
    simp only [Option.map_some]
    cases h1 : k.inodes[o.ino]? with
    | none => exact .refl
    | some b =>
      dsimp only
      by_cases hd : b.dir = true
      · rw [if_pos hd]; exact calm_same rfl rfl
      · rw [if_neg hd]; exact calm_node (n' := { b with old := [] }) h1 rfl rfl rfl

/-- A step that leaves the names. -/
theorem good_calm' {α : Type} {Q : Names → Names → α → Prop} {y : α × Kernel} (hs : Sound k) (h : Calm k y.2) (hq : Q (namesOf k) (namesOf k) y.1) :
    Good Q k y := by
  obtain ⟨r, k'⟩ := y
  exact good_calm hs h hq

theorem kind {p : Bytes} {i : Nat} (hs : Sound k) (hl : k.lookup p = some i) : namesOf k p = some ⟨i, ((k.inodes[i]?).map (·.dir)).getD false⟩ := by
  obtain ⟨n, hn⟩ := hs.node hl
  rw [namesOf_some hl hn, hn]
  rfl

theorem child_iff (hs : Sound k) (d : Bytes) : k.names.any (fun e => decide (parentDir e.1 = d)) = true ↔ (namesOf k).hasChild d := by
  rw [List.any_eq_true]
  constructor
  · rintro ⟨⟨p, i⟩, hm, hp⟩
    refine ⟨p, fun h => ?_, of_decide_eq_true hp⟩
    exact (aFind_mem k.names p).2 ⟨i, hm⟩ ((namesOf_none hs).1 h)
  · rintro ⟨p, h, hp⟩
    obtain ⟨i, hm⟩ := (aFind_mem k.names p).1 fun h' => h ((namesOf_none hs).2 h')
    exact ⟨_, hm, decide_eq_true hp⟩

theorem entries (hs : Sound k) (d : Bytes) :
    (∀ x ∈ dirEntries k d, x = [46] ∨ x = [46, 46] ∨ ∃ q, namesOf k q ≠ none ∧ parentDir q = d ∧ lastOf q = x) ∧
    ∀ q, namesOf k q ≠ none → parentDir q = d → lastOf q ∈ dirEntries k d := by
  constructor
  · intro x hx
    rcases List.mem_cons.1 hx with h | hx
    · exact .inl h
    · rcases List.mem_cons.1 hx with h | hx
      · exact .inr (.inl h)
      · obtain ⟨⟨q, i⟩, h1, rfl⟩ := List.mem_map.1 hx
        obtain ⟨h1, h2⟩ := List.mem_filter.1 h1
        refine .inr (.inr ⟨q, fun h => ?_, of_decide_eq_true h2, rfl⟩)
        exact (aFind_mem k.names q).2 ⟨i, h1⟩ ((namesOf_none hs).1 h)
  · intro q h hp
    obtain ⟨i, hm⟩ := (aFind_mem k.names q).1 fun h' => h ((namesOf_none hs).2 h')
    exact List.mem_cons_of_mem _ (List.mem_cons_of_mem _ (List.mem_map.2 ⟨(q, i), List.mem_filter.2 ⟨hm, decide_eq_true hp⟩, rfl⟩))

/-- A step, after what others did. -/
theorem exec_moves {cmd : Cmd} {sh sh' : Shared} {w w' : World} {r : cmd.Resp} (he : cmd.exec sh w = .done (r, sh') w')
    (hR : ∀ x ∈ w.choices, Leave R x) (hf : ¬ faulty → ∀ x ∈ w.choices, x.fail = none) (hs : Sound w.k) :
    (∃ m, (m = namesOf w.k ∨ R (namesOf w.k) m) ∧ Cmd.onNames strerror faulty cmd m (namesOf w'.k) r) ∧ Sound w'.k := by
  cases cmd with
  | «open» m p =>
    obtain ⟨he, -⟩ := keep_done he
    refine sys_good hR hf hs he fun x k hs hx => ?_
    cases h : x.fail with
    | some e =>
      have hfa := faulty_of hx h
      refine good_calm hs .refl ?_
      by_cases hm : m = .rdonly
      · subst hm
        exact ⟨rfl, .inr ⟨⟨_, rfl⟩, .inl hfa⟩⟩
      · show (if m = Mode.rdonly then _ else _)
        rw [if_neg hm]
        exact .inr ⟨⟨_, rfl⟩, rfl, .inl hfa⟩
    | none => exact kopen_good hs m (cstr p) rfl
  | opendir p =>
    obtain ⟨he, -⟩ := keep_done he
    refine sys_good hR hf hs he fun x k hs hx => ?_
    cases h : x.fail with
    | some e => exact good_calm hs .refl ⟨rfl, .inr ⟨⟨_, rfl⟩, .inl (faulty_of hx h)⟩⟩
    | none =>
      dsimp only
      cases hl : k.lookup (cstr p) with
      | none => exact good_calm hs .refl ⟨rfl, .inr ⟨⟨_, rfl⟩, .inr (.inr fun i => by rw [(namesOf_none hs).2 hl]; exact nofun)⟩⟩
      | some i =>
        have hk := kind hs hl
        dsimp only
        by_cases hd : ((k.inodes[i]?).map (·.dir)).getD false = true
        · rw [if_pos hd]
          rw [hd] at hk
          by_cases h0 : cstr p = []
          · have : kopen .rdonly (cstr p) k = (.error ENOENT, k) := by unfold kopen; rw [if_pos h0]
            simp only [this]
            exact good_calm hs .refl ⟨rfl, .inr ⟨⟨_, rfl⟩, .inr (.inl h0)⟩⟩
          · obtain ⟨n, hn⟩ := hs.node hl
            obtain ⟨fd, k', h1, h2⟩ := open_old (m := .rdonly) h0 hl hn (fun h => h.2 rfl)
            simp only [h1]
            exact good_calm hs h2 ⟨rfl, .inl ⟨fd, _, rfl, ⟨i, hk⟩, entries hs _⟩⟩
        · rw [if_neg hd]
          refine good_calm hs .refl ⟨rfl, .inr ⟨⟨_, rfl⟩, .inr (.inr fun j e => ?_)⟩⟩
          rw [hk] at e
          injection e with e
          injection e with _ e
          exact hd e
  | close fd =>
    obtain ⟨he, -⟩ := keep_done he
    refine sys_good hR hf hs he fun x k hs hx => ?_
    refine good_calm' hs ?_ rfl
    cases ho : k.ofd fd with
    | none => exact .refl
    | some o =>
      cases hf : x.fail with
      | some e => exact calm_same rfl rfl
      | none => exact calm_same rfl rfl
  | read fd n =>
    obtain ⟨he, -⟩ := keep_done he
    refine sys_good hR hf hs he fun x k hs hx => ?_
    refine good_calm' hs ?_ rfl
    cases hf : x.fail with
    | some e => exact .refl
    | none =>
      dsimp only [kread]
      cases ho : k.ofd fd with
      | none => exact .refl
      | some o =>
        dsimp only
        split
        · split
          · exact .refl
          · split
            · exact .refl
            · exact calm_same rfl rfl
        · exact .refl
  | pread fd n o =>
    obtain ⟨he, -⟩ := keep_done he
    refine sys_good hR hf hs he fun x k hs hx => ?_
    have : ∀ (y : Except Errno Bytes × Kernel), y.2 = k → Calm k y.2 := fun y hy => by rw [hy]; exact .refl
    refine good_calm' hs ?_ rfl
    apply this
    cases hf : x.fail with
    | some e => rfl
    | none =>
      dsimp only
      cases k.ofd fd with
      | none => rfl
      | some q =>
        dsimp only
        split
        · rfl
        · split
          · split
            · rfl
            · split <;> rfl
          · rfl
  | lseek fd o =>
    obtain ⟨he, -⟩ := keep_done he
    refine sys_good hR hf hs he fun x k hs hx => ?_
    refine good_calm' hs ?_ rfl
    cases hf : x.fail with
    | some e => exact .refl
    | none =>
      dsimp only
      cases ho : k.ofd fd with
      | none => exact .refl
      | some q =>
        dsimp only
        split
        · exact .refl
        · split
          · exact .refl
          · exact calm_same rfl rfl
  | write fd d =>
    obtain ⟨he, -⟩ := keep_done he
    refine sys_good hR hf hs he fun x k hs hx => ?_
    refine good_calm' hs ?_ rfl
    cases hf : x.fail with
    | some e => exact .refl
    | none => exact kwrite_calm fd d x.count
  | sync fd =>
    obtain ⟨he, -⟩ := keep_done he
    refine sys_good hR hf hs he fun x k hs hx => ?_
    refine good_calm' hs ?_ rfl
    cases hf : x.fail with
    | some e => exact .refl
    | none => exact ksync_calm fd
  | stat p =>
    obtain ⟨he, -⟩ := keep_done he
    refine sys_good hR hf hs he fun x k hs hx => ?_
    cases h : x.fail with
    | some e => exact good_calm hs .refl ⟨rfl, .inr ⟨⟨_, rfl⟩, .inl (faulty_of hx h)⟩⟩
    | none =>
      dsimp only
      cases hl : k.lookup (cstr p) with
      | none => exact good_calm hs .refl ⟨rfl, .inr ⟨⟨_, rfl⟩, .inr ((namesOf_none hs).2 hl)⟩⟩
      | some i => exact good_calm hs .refl ⟨rfl, .inl ⟨⟨_, rfl⟩, by rw [kind hs hl]; exact nofun⟩⟩
  | access p =>
    obtain ⟨he, -⟩ := keep_done he
    refine sys_good hR hf hs he fun x k hs hx => ?_
    cases h : x.fail with
    | some e => exact good_calm hs .refl ⟨rfl, .inr ⟨⟨_, rfl⟩, .inl (faulty_of hx h)⟩⟩
    | none =>
      dsimp only
      cases hl : k.lookup (cstr p) with
      | none => exact good_calm hs .refl ⟨rfl, .inr ⟨⟨_, rfl⟩, .inr ((namesOf_none hs).2 hl)⟩⟩
      | some i => exact good_calm hs .refl ⟨rfl, .inl ⟨rfl, by rw [kind hs hl]; exact nofun⟩⟩
  | unlink p =>
    obtain ⟨he, -⟩ := keep_done he
    refine sys_good hR hf hs he fun x k hs hx => ?_
    cases h : x.fail with
    | some e => exact good_calm hs .refl (.inr ⟨_, rfl, statusOf_error, rfl, .inl (faulty_of hx h)⟩)
    | none =>
      dsimp only
      cases hl : k.lookup (cstr p) with
      | none => exact good_calm hs .refl (.inr ⟨_, rfl, statusOf_error, rfl, .inr fun i => by rw [(namesOf_none hs).2 hl]; exact nofun⟩)
      | some i =>
        have hk := kind hs hl
        dsimp only
        by_cases hd : ((k.inodes[i]?).map (·.dir)).getD false = true
        · rw [if_pos hd]
          rw [hd] at hk
          refine good_calm hs .refl (.inr ⟨_, rfl, statusOf_error, rfl, .inr fun j e => ?_⟩)
          rw [hk] at e
          injection e with e
          injection e with _ e
          exact nomatch e
        · rw [if_neg hd]
          rw [Bool.eq_false_iff.2 hd] at hk
          exact ⟨.inl ⟨rfl, ⟨i, hk⟩, names_gone⟩, sound_gone hs⟩
  | mkdir p =>
    obtain ⟨he, -⟩ := keep_done he
    refine sys_good hR hf hs he fun x k hs hx => ?_
    cases h : x.fail with
    | some e => exact good_calm hs .refl (.inr ⟨_, rfl, statusOf_error, rfl, .inl (faulty_of hx h)⟩)
    | none =>
      dsimp only
      by_cases h0 : cstr p = []
      · rw [if_pos h0]
        exact good_calm hs .refl (.inr ⟨_, rfl, statusOf_error, rfl, .inr (.inl h0)⟩)
      · rw [if_neg h0]
        cases hl : k.lookup (cstr p) with
        | some i => exact good_calm hs .refl (.inr ⟨_, rfl, statusOf_error, rfl, .inr (.inr (by rw [kind hs hl]; exact nofun))⟩)
        | none =>
          obtain ⟨h1, h2⟩ := names_new (k' := { k.setName (cstr p) (some k.inodes.length) with inodes := k.inodes ++ [⟨true, [], []⟩] }) hs rfl rfl
          exact ⟨.inl ⟨rfl, h0, (namesOf_none hs).2 hl, _, fresh_len k, h1⟩, h2⟩
  | rmdir p =>
    obtain ⟨he, -⟩ := keep_done he
    refine sys_good hR hf hs he fun x k hs hx => ?_
    cases h : x.fail with
    | some e => exact good_calm hs .refl (.inr ⟨_, rfl, statusOf_error, rfl, .inl (faulty_of hx h)⟩)
    | none =>
      dsimp only
      cases hl : k.lookup (cstr p) with
      | none => exact good_calm hs .refl (.inr ⟨_, rfl, statusOf_error, rfl, .inr (.inl fun i => by rw [(namesOf_none hs).2 hl]; exact nofun)⟩)
      | some i =>
        have hk := kind hs hl
        dsimp only
        by_cases hd : ((k.inodes[i]?).map (·.dir)).getD false = true
        · rw [if_pos hd]
          rw [hd] at hk
          by_cases hc : k.names.any (fun e => decide (parentDir e.1 = cstr p)) = true
          · rw [if_pos hc]
            exact good_calm hs .refl (.inr ⟨_, rfl, statusOf_error, rfl, .inr (.inr ((child_iff hs _).1 hc))⟩)
          · rw [if_neg hc]
            exact ⟨.inl ⟨rfl, ⟨i, hk⟩, fun h => hc ((child_iff hs _).2 h), names_gone⟩, sound_gone hs⟩
        · rw [if_neg hd]
          refine good_calm hs .refl (.inr ⟨_, rfl, statusOf_error, rfl, .inr (.inl fun j e => ?_)⟩)
          rw [hk] at e
          injection e with e
          injection e with _ e
          exact hd e
  | rename a b =>
    obtain ⟨he, -⟩ := keep_done he
    refine sys_good hR hf hs he fun x k hs hx => ?_
    cases h : x.fail with
    | some e => exact good_calm hs .refl (.inr ⟨_, rfl, statusOf_error, rfl, .inl (faulty_of hx h)⟩)
    | none =>
      dsimp only
      cases hl : k.lookup (cstr a) with
      | none => exact good_calm hs .refl (.inr ⟨_, rfl, statusOf_error, rfl, .inr (.inr (.inl fun i => by rw [(namesOf_none hs).2 hl]; exact nofun))⟩)
      | some i =>
        have hk := kind hs hl
        obtain ⟨n, hn⟩ := hs.node hl
        dsimp only
        by_cases h0 : cstr b = []
        · rw [if_pos h0]
          exact good_calm hs .refl (.inr ⟨_, rfl, statusOf_error, rfl, .inr (.inl h0)⟩)
        · rw [if_neg h0]
          by_cases hd : ((k.inodes[i]?).map (·.dir)).getD false = true
          · rw [if_pos hd]
            rw [hd] at hk
            refine good_calm hs .refl (.inr ⟨_, rfl, statusOf_error, rfl, .inr (.inr (.inl fun j e => ?_))⟩)
            rw [hk] at e
            injection e with e
            injection e with _ e
            exact nomatch e
          · rw [if_neg hd]
            rw [Bool.eq_false_iff.2 hd] at hk
            have hnd : n.dir = false := by
              rw [hn] at hd
              exact Bool.eq_false_iff.2 hd
            have moved : Sound ((k.setName (cstr b) (some i)).setName (cstr a) none) ∧
                namesOf ((k.setName (cstr b) (some i)).setName (cstr a) none) = ((namesOf k).put (cstr b) (some ⟨i, false⟩)).put (cstr a) none := by
              refine ⟨sound_gone (sound_set hs (hs _ _ hl)), ?_⟩
              rw [names_gone, names_put hn, hnd]
            cases hj : k.lookup (cstr b) with
            | none =>
              refine ⟨.inl ⟨rfl, h0, i, hk, .inr ⟨fun e he => ?_, moved.2⟩⟩, moved.1⟩
              rw [(namesOf_none hs).2 hj] at he
              exact nomatch he
            | some j =>
              have hkj := kind hs hj
              dsimp only
              by_cases hij : i = j
              · subst hij
                rw [if_pos rfl]
                rw [Bool.eq_false_iff.2 hd] at hkj
                exact good_calm hs .refl (.inl ⟨rfl, h0, i, hk, .inl ⟨hkj, rfl⟩⟩)
              · rw [if_neg hij]
                by_cases hdj : ((k.inodes[j]?).map (·.dir)).getD false = true
                · rw [if_pos hdj]
                  rw [hdj] at hkj
                  exact good_calm hs .refl (.inr ⟨_, rfl, statusOf_error, rfl, .inr (.inr (.inr ⟨j, hkj⟩))⟩)
                · rw [if_neg hdj]
                  rw [Bool.eq_false_iff.2 hdj] at hkj
                  refine ⟨.inl ⟨rfl, h0, i, hk, .inr ⟨fun e he => ?_, moved.2⟩⟩, moved.1⟩
                  rw [hkj] at he
                  injection he with he
                  subst he
                  exact ⟨fun e => hij e.symm, rfl⟩
  | mmap fd n =>
    obtain ⟨he, -⟩ := keep_done he
    refine sys_good hR hf hs he fun x k hs hx => ?_
    refine good_calm' hs ?_ rfl
    cases hf : x.fail with
    | some e => exact .refl
    | none =>
      dsimp only
      split
      · exact .refl
      · cases k.inodeOf fd with
        | none => exact .refl
        | some i => exact calm_same rfl rfl
  | munmap m =>
    obtain ⟨he, -⟩ := keep_done he
    refine sys_good hR hf hs he fun x k hs hx => ?_
    refine good_calm' hs ?_ rfl
    cases hm : (k.maps[m]?).join with
    | none => exact .refl
    | some i => exact calm_same rfl rfl
  | other fd =>
    obtain ⟨he, -⟩ := keep_done he
    refine sys_good hR hf hs he fun x k hs hx => ?_
    cases h : x.fail with
    | some e => exact good_calm hs .refl ⟨rfl, fun _ => faulty_of hx h⟩
    | none => exact good_calm hs .refl ⟨rfl, fun ⟨e, he⟩ => nomatch he⟩
  | readdir fd l =>
    obtain ⟨he, -⟩ := keep_done he
    refine sys_good hR hf hs he fun x k hs hx => ?_
    cases h : x.fail with
    | some e => exact good_calm hs .refl ⟨rfl, .inr ⟨faulty_of hx h, rfl⟩⟩
    | none => exact good_calm hs .refl ⟨rfl, .inl rfl⟩
  | fetchSub l =>
    injection he with _ he
    subst he
    exact ⟨⟨_, .inl rfl, rfl⟩, hs⟩
  | fetchAdd l =>
    injection he with _ he
    subst he
    exact ⟨⟨_, .inl rfl, rfl⟩, hs⟩
  | insert n =>
    injection he with _ he
    subst he
    exact ⟨⟨_, .inl rfl, rfl⟩, hs⟩
  | remove n =>
    injection he with _ he
    subst he
    exact ⟨⟨_, .inl rfl, rfl⟩, hs⟩

end Conc
end Posix
end Lsmdb
