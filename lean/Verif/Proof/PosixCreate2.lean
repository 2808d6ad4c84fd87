import Verif.Proof.PosixCreate1

/-! A call that creates a file, step by step, while other threads do other things. -/

namespace Lsmdb
namespace Posix

open MemEnv (St lit)

namespace Conc

variable {name p base : Bytes} {k k' : Kernel}

/-- The contents after the open call. -/
def startOf (m : Mode) (s : Option (Nat × Inode)) : Bytes :=
  if m = .trunc then [] else match s with
    | some (_, n) => n.data
    | none => []

/-- What an open call that creates file `ino` leaves; `s` is what there was before. -/
structure Made (s : Option (Nat × Inode)) (m : Mode) (p : Bytes) (k k' : Kernel) (fd ino : Nat) (n' : Inode) : Prop where
  isNew : (∃ n, s = some (ino, n)) ∨ (s = none ∧ ino = k.inodes.length)
  names : ∀ q, k'.lookup q = some ino ↔ q = p
  node : k'.inodes[ino]? = some n'
  dir : n'.dir = false
  data : n'.data = startOf m s
  old : ∀ b, n'.AfterCrash b → b = startOf m s ∨ ∃ n, s = some (ino, n) ∧ n.AfterCrash b
  ofd : k'.ofd (fd : Int) = some (m.ofd ino)
  fds : ∀ (i : Nat) q, k'.ofd (i : Int) = some q → q.ino = ino → i = fd

theorem ofd_putFd_new {z : Ofd} (hk : k'.fds = Kernel.putFd k.fds (Kernel.freeFd k.fds) z) :
    k'.ofd (Kernel.freeFd k.fds : Nat) = some z := by
  unfold Kernel.ofd
  rw [if_neg (by omega), hk]
  have : ((Kernel.freeFd k.fds : Nat) : Int).toNat = Kernel.freeFd k.fds := by omega
  rw [this, putFd_get_same]
  rfl

theorem ofd_putFd_old {z : Ofd} (hk : k'.fds = Kernel.putFd k.fds (Kernel.freeFd k.fds) z) {i : Nat} (hi : i ≠ Kernel.freeFd k.fds) :
    k'.ofd (i : Int) = k.ofd (i : Int) := by
  unfold Kernel.ofd
  rw [if_neg (by omega), if_neg (by omega), hk]
  have : ((i : Nat) : Int).toNat = i := by omega
  rw [this, putFd_get_other _ _ _ hi]

/-- There was a file. -/
theorem kopen_present {m : Mode} (hm : m = .trunc ∨ m = .append) {ino : Nat} {n : Inode} (hn : ∀ q, k.lookup q = some ino ↔ q = p)
    (hi : k.inodes[ino]? = some n) (hd : n.dir = false) (hf : ∀ (i : Nat) q, k.ofd (i : Int) = some q → q.ino ≠ ino) :
    (∃ e, kopen m p k = (.error e, k)) ∨
      ∃ fd n' k', kopen m p k = (.ok (fd : Nat), k') ∧ Made (some (ino, n)) m p k k' fd ino n' := by
  have hlt : ino < k.inodes.length := (List.getElem?_eq_some_iff.1 hi).1
  unfold kopen
  by_cases h0 : p = []
  · rw [if_pos h0]; exact .inl ⟨_, rfl⟩
  · rw [if_neg h0]
    dsimp only
    rw [(hn p).2 rfl]
    dsimp only
    rw [hi]
    dsimp only
    rw [if_neg (by simp [hd])]
    right
    have key : ∀ {k' : Kernel} {n' : Inode}, k'.names = k.names → k'.inodes[ino]? = some n' → n'.dir = false → n'.data = startOf m (some (ino, n)) →
        (∀ b, n'.AfterCrash b → b = startOf m (some (ino, n)) ∨ n.AfterCrash b) →
        k'.fds = Kernel.putFd k.fds (Kernel.freeFd k.fds) (m.ofd ino) → Made (some (ino, n)) m p k k' (Kernel.freeFd k.fds) ino n' := by
      intro k' n' h1 h2 h3 h4 h5 h6
      have hl : ∀ q, k'.lookup q = k.lookup q := fun q => by unfold Kernel.lookup; rw [h1]
      refine ⟨.inl ⟨n, rfl⟩, fun q => by rw [hl]; exact hn q, h2, h3, h4, fun b hb => (h5 b hb).imp id fun h => ⟨n, rfl, h⟩, ofd_putFd_new h6,
        fun i q hq hi => ?_⟩
      by_cases h : i = Kernel.freeFd k.fds
      · exact h
      · rw [ofd_putFd_old h6 h] at hq
        exact (hf i q hq hi).elim
    rcases hm with rfl | rfl
    · refine ⟨_, truncInode n, _, rfl, key rfl ?_ hd rfl ?_ rfl⟩
      · simp only [↓reduceIte]
        rw [List.getElem?_set_self hlt]
      · intro b hb
        rcases hb with hb | hb
        · exact .inl hb
        · rcases List.mem_cons.1 hb with hb | hb
          · exact .inr (.inl hb)
          · exact .inr (.inr hb)
    · exact ⟨_, n, _, rfl, key rfl hi hd rfl (fun b hb => .inr hb) rfl⟩

/-- There was none. -/
theorem kopen_fresh {m : Mode} (hm : m = .trunc ∨ m = .append) (h : Absent k name) :
    (∃ e, kopen m (cstr name) k = (.error e, k)) ∨
      ∃ fd n' k', kopen m (cstr name) k = (.ok (fd : Nat), k') ∧ Made none m (cstr name) k k' fd k.inodes.length n' := by
  unfold kopen
  by_cases h0 : cstr name = []
  · rw [if_pos h0]; exact .inl ⟨_, rfl⟩
  · rw [if_neg h0]
    dsimp only
    rw [h.name]
    dsimp only
    rw [if_pos (by rcases hm with rfl | rfl <;> rfl)]
    right
    have hs : startOf m none = [] := by unfold startOf; split <;> rfl
    have key : ∀ {k' : Kernel} {n' : Inode}, k'.names = (k.setName (cstr name) (some k.inodes.length)).names → k'.inodes = k.inodes ++ [n'] →
        n' = ⟨false, [], []⟩ →
        k'.fds = Kernel.putFd k.fds (Kernel.freeFd k.fds) (m.ofd k.inodes.length) →
        Made none m (cstr name) k k' (Kernel.freeFd k.fds) k.inodes.length n' := by
      intro k' n' h1 h2 h3 h6
      have hl : ∀ q, k'.lookup q = (k.setName (cstr name) (some k.inodes.length)).lookup q := fun q => by unfold Kernel.lookup; rw [h1]
      subst h3
      refine ⟨.inr ⟨rfl, rfl⟩, fun q => ?_, by rw [h2]; simp, rfl, hs.symm, fun b hb => .inl ?_, ofd_putFd_new h6, fun i q hq hi => ?_⟩
      · rw [hl, lookup_setName]
        by_cases hq : q = cstr name
        · rw [if_pos hq]; exact ⟨fun _ => hq, fun _ => rfl⟩
        · rw [if_neg hq]
          refine ⟨fun e => ?_, fun e => (hq e).elim⟩
          have := h.names q _ e
          omega
      · rw [hs]
        rcases hb with hb | hb
        · exact hb
        · exact nomatch hb
      · by_cases h' : i = Kernel.freeFd k.fds
        · exact h'
        · rw [ofd_putFd_old h6 h'] at hq
          have := h.fds i q hq
          omega
    exact ⟨_, ⟨false, [], []⟩, _, rfl, key rfl rfl rfl rfl⟩

/-- What a system call gives. -/
theorem sys_done2 {α : Type} {call : α → List Call} {f : Choice → Kernel → α × Kernel} {w w' : World} {r : α} (h : sys call f w = .done r w') :
    ∃ x ∈ w.choices, f x (x.other w.k) = (r, w'.k) ∧ ∀ y ∈ w'.choices, y ∈ w.choices := by
  unfold sys at h
  cases hc : w.choices with
  | nil => rw [hc] at h; exact nomatch h
  | cons x xs =>
    rw [hc] at h
    injection h with h1 h2
    subst h2
    exact ⟨x, List.mem_cons_self, by rw [← h1], fun y hy => List.mem_cons_of_mem _ hy⟩

section
variable {ext extm : Nat → Prop} {L : Lim → Int} {c : Conf} {fo mo : Nat → Owner} {lo : Bytes → Owner} {gs : List Ghost}
variable {X : Nat → Prop} {s : Option (Nat × Inode)} {t0 : Nat} {m : Mode}

/-- There is no such file, and nobody is about to create it but threads in `X`. -/
structure Gone (name : Bytes) (X : Nat → Prop) (c : Conf) : Prop where
  absent : Absent c.w.k name
  objs : ∀ (h : Nat) o, c.objs[h]? = some (some o) → Fine (Cmd.elsewhere false (cstr name)) o
  progs : ∀ (t : Nat) home p, ¬ X t → c.th[t]? = some (.run home p) →
    Only (Cmd.elsewhere false (cstr name)) (FineEnd (Cmd.elsewhere false (cstr name))) p
  choices : ∀ x ∈ c.w.choices, KeepsAbsent name x ∧ ∀ ino, c.w.k.inodes.length ≤ ino → Respects name ino x

theorem Gone.call {strerror : Strerror} {full : Bool} {fuel t : Nat} {op : POp} (hH : Gone name X c) (he : ¬ X t → Elsewhere name op) :
    Gone name X (c.begin strerror full fuel t op) := by
  refine ⟨hH.absent, ?_, ?_, hH.choices⟩
  · intro h o ho
    unfold Conf.begin at ho
    simp only at ho
    split at ho
    · rcases get_set ho with ⟨_, ho⟩ | ⟨_, ho⟩
      · exact hH.objs h o ho
      · exact nomatch ho
    · exact hH.objs h o ho
  · intro u home p hX hu
    rcases get_set hu with ⟨_, hu⟩ | ⟨rfl, e⟩
    · exact hH.progs u home p hX hu
    · cases e
      refine only_body (lax false _) strerror full fuel (naming (.inl (he hX))) fun x hx => ?_
      unfold Conf.objOf at hx
      cases hh : handle op with
      | none => rw [hh] at hx; exact nomatch hx
      | some a =>
        rw [hh] at hx
        simp only [Option.bind_some] at hx
        cases h1 : c.objs[a]? with
        | none => rw [h1] at hx; exact nomatch hx
        | some y =>
          rw [h1] at hx
          simp only [Option.join_some] at hx
          subst hx
          exact hH.objs a x h1

theorem Gone.move (hH : Gone name X c) {t : Nat} {home : Home} {cmd : Cmd}
    {k : cmd.Resp → Prog Fin} {r : cmd.Resp} {sh : Shared} {w : World} (ht : c.th[t]? = some (.run home (.call cmd k)))
    (hx : cmd.exec c.sh c.w = .done (r, sh) w) (hX : ¬ X t) :
    Gone name X { c with w := w, sh := sh, th := c.th.set t (.run home (k r)) } := by
  have hP := hH.progs t home _ hX ht
  have hA := exec_absent hx hP.1 (fun x hm => (hH.choices x hm).1) hH.absent
  refine ⟨hA.1, hH.objs, ?_, fun x hm => ?_⟩
  · intro u home' p hX hu
    rcases get_set hu with ⟨_, hu⟩ | ⟨_, e⟩
    · exact hH.progs u home' p hX hu
    · cases e; exact hP.2 r
  · obtain ⟨h1, h2⟩ := hH.choices x (exec_choices hx x hm)
    exact ⟨h1, fun ino hi => h2 ino (Nat.le_trans hA.2 hi)⟩

theorem Gone.ret (hH : Gone name X c) {t : Nat} {home : Home} {a : Fin} (ht : c.th[t]? = some (.run home (.ret a)))
    (hP : X t → FineEnd (Cmd.elsewhere false (cstr name)) a) : Gone name X (c.finish t home a).1 := by
  have hP : FineEnd (Cmd.elsewhere false (cstr name)) a := by
    by_cases hX : X t
    · exact hP hX
    · exact hH.progs t home _ hX ht
  refine ⟨by rw [finish_w]; exact hH.absent, ?_, ?_, by rw [finish_w]; exact hH.choices⟩
  · intro h o ho
    cases a with
    | new y =>
      have ho : (c.objs ++ [some y])[h]? = some (some o) := ho
      rcases get_push ho with ho | ⟨_, e⟩
      · exact hH.objs h o ho
      · cases e; exact hP
    | back y r =>
      cases home with
      | own a =>
        have ho : (c.objs.set a y)[h]? = some (some o) := ho
        rcases get_set ho with ⟨_, ho⟩ | ⟨_, e⟩
        · exact hH.objs h o ho
        · subst e; exact hP
      | reads a => exact hH.objs h o ho
      | none => exact hH.objs h o ho
  · intro u home' p hX hu
    rw [finish_th] at hu
    rcases get_set hu with ⟨_, hu⟩ | ⟨_, e⟩
    · exact hH.progs u home' p hX hu
    · exact nomatch e

/-- Nobody uses the file: before the call. -/
inductive Pre (name : Bytes) (X : Nat → Prop) (c : Conf) (fo : Nat → Owner) : Option (Nat × Inode) → Prop
  | present {ino : Nat} {n : Inode} (held : Held false name ino X (fun _ => False) c fo) (node : c.w.k.inodes[ino]? = some n)
      (dir : n.dir = false) : Pre name X c fo (some (ino, n))
  | absent (gone : Gone name X c) : Pre name X c fo none

theorem Pre.call {strerror : Strerror} {full : Bool} {fuel t : Nat} {op : POp} (hH : Pre name X c fo s)
    {fo' : Nat → Owner} (hf : ∀ i, fo' i = ownAfter op t (fo i)) (he : ¬ X t → Elsewhere name op) :
    Pre name X (c.begin strerror full fuel t op) fo' s := by
  cases hH with
  | present held node dir =>
    refine .present ((held.call hf fun h => .inl (he h)).mono ?_) node dir
    rintro x - ⟨y, h, -⟩
    exact h
  | absent gone => exact .absent (gone.call he)

theorem Pre.exempt (hH : Pre name X c fo s) {Y : Nat → Prop} (hXY : ∀ t, X t → Y t) : Pre name Y c fo s := by
  cases hH with
  | present held node dir => exact .present (held.exempt hXY) node dir
  | absent gone => exact .absent ⟨gone.absent, gone.objs, fun t home p hY => gone.progs t home p fun hX => hY (hXY t hX), gone.choices⟩

theorem Pre.move (H : Inv ext extm L c fo mo lo gs) (hH : Pre name X c fo s) {t : Nat} {home : Home} {cmd : Cmd}
    {k : cmd.Resp → Prog Fin} {r : cmd.Resp} {sh : Shared} {w : World} (ht : c.th[t]? = some (.run home (.call cmd k)))
    (hx : cmd.exec c.sh c.w = .done (r, sh) w) (hX : ¬ X t) {fo' : Nat → Owner} (hf : ∀ i, fo i ≠ .free → cmd = .close (i : Int) ∨ fo' i = fo i) :
    Pre name X { c with w := w, sh := sh, th := c.th.set t (.run home (k r)) } fo' s := by
  cases hH with
  | present held node dir =>
    obtain ⟨h1, h2⟩ := held.move H ht hx hX hf
    refine .present h1 ?_ dir
    rcases h2 with h2 | h2
    · have h2 : w.k.inodes[_]? = c.w.k.inodes[_]? := h2
      rw [← node]; exact h2
    · exact h2.elim
  | absent gone => exact .absent (gone.move ht hx hX)

theorem Pre.ret (hH : Pre name X c fo s) {t : Nat} {home : Home} {a : Fin} (ht : c.th[t]? = some (.run home (.ret a)))
    {fo' : Nat → Owner} (hf1 : ∀ i, fo i ≠ .thr t → fo' i = fo i)
    (hf2 : ∀ i, fo i = .thr t → fo' i = .obj (place c home)) (hP : X t → FineEnd (Cmd.elsewhere false (cstr name)) a) :
    Pre name X (c.finish t home a).1 fo' s := by
  cases hH with
  | present held node dir =>
    refine .present ((held.ret ht hf1 hf2 hP).mono ?_) (by rw [finish_w]; exact node) dir
    rintro x - (⟨h, -⟩ | ⟨h, -⟩) <;> exact h
  | absent gone => exact .absent (gone.ret ht hP)

/-- What the open call leaves, in the machine. -/
structure Fresh (name : Bytes) (s : Option (Nat × Inode)) (m : Mode) (X : Nat → Prop) (A : Owner → Prop) (c : Conf) (fo : Nat → Owner)
    (ino : Nat) (n : Inode) (fd : Nat) : Prop where
  isOld : s = none ∨ ∃ n, s = some (ino, n)
  held : Held false name ino X A c fo
  node : c.w.k.inodes[ino]? = some n
  dir : n.dir = false
  data : n.data = startOf m s
  old : ∀ b, n.AfterCrash b → b = startOf m s ∨ ∃ n, s = some (ino, n) ∧ n.AfterCrash b
  ofd : c.w.k.ofd (fd : Int) = some (m.ofd ino)

/-- The call opens the file, or fails and leaves everything. -/
theorem Pre.open (H : Inv ext extm L c fo mo lo gs) (hm : m = .trunc ∨ m = .append) (hH : Pre name X c fo s) {t : Nat} {home : Home}
    {k : (Cmd.open m name).Resp → Prog Fin} {r : Except Errno Int} {sh : Shared} {w : World}
    (ht : c.th[t]? = some (.run home (.call (.open m name) k)))
    (hx : (Cmd.open m name).exec c.sh c.w = .done (r, sh) w) (hX : X t) {fo' : Nat → Owner} (hf : ∀ i, fo i ≠ .free → fo' i = fo i) :
    (∃ e, r = .error e ∧ Pre name X { c with w := w, sh := sh, th := c.th.set t (.run home (k r)) } fo' s) ∨
      ∃ fd ino n, r = .ok (fd : Nat) ∧ (fo' fd = .thr t →
        Fresh name s m X (· = .thr t) { c with w := w, sh := sh, th := c.th.set t (.run home (k r)) } fo' ino n fd) := by
  obtain ⟨he, -⟩ := keep_done hx
  obtain ⟨x, hxm, hfx, hch⟩ := sys_done2 he
  have progs : (∀ (t : Nat) home p, ¬ X t → c.th[t]? = some (.run home p) →
      Only (Cmd.elsewhere false (cstr name)) (FineEnd (Cmd.elsewhere false (cstr name))) p) →
      ∀ (u : Nat) home' p, ¬ X u → (c.th.set t (.run home (k r)))[u]? = some (.run home' p) →
      Only (Cmd.elsewhere false (cstr name)) (FineEnd (Cmd.elsewhere false (cstr name))) p := by
    intro hp u home' p hXu hu
    rcases get_set hu with ⟨_, hu⟩ | ⟨rfl, _⟩
    · exact hp u home' p hXu hu
    · exact (hXu hX).elim
  cases hH with
  | present held node dir =>
    rename_i ino n
    obtain ⟨hr, hrf, -⟩ := held.choices x hxm c.w.k
    obtain ⟨hr1, hr2⟩ := hr n node
    have hr2 := hr2 held.names
    have hfd : ∀ (i : Nat) q, (x.other c.w.k).ofd (i : Int) = some q → q.ino ≠ ino := by
      intro i q hq hi
      unfold Kernel.ofd at hq
      rw [hrf] at hq
      exact (held.fds i q hq ⟨hi, fun h => nomatch h⟩).2
    have failed : ∀ e, r = .error e → w.k = x.other c.w.k →
        Pre name X { c with w := w, sh := sh, th := c.th.set t (.run home (k r)) } fo' (some (ino, n)) := by
      intro e _ hk
      refine .present ⟨by simp only; rw [hk]; exact hr2, ⟨n, by simp only; rw [hk]; exact hr1⟩, ?_, held.objs, progs held.progs,
        fun y hy => held.choices y (hch y hy)⟩ (by simp only; rw [hk]; exact hr1) dir
      intro i q hq hg
      simp only at hq
      rw [hk] at hq
      exact (hfd i q hq hg.1).elim
    cases hfail : x.fail with
    | some e =>
      rw [hfail] at hfx
      injection hfx with h1 h2
      exact .inl ⟨e, h1.symm, failed e h1.symm h2.symm⟩
    | none =>
      rw [hfail] at hfx
      dsimp only at hfx
      rcases kopen_present hm hr2 hr1 dir hfd with ⟨e, h1⟩ | ⟨fd, n', k', h1, M⟩
      · rw [h1] at hfx
        injection hfx with h1 h2
        exact .inl ⟨e, h1.symm, failed e h1.symm h2.symm⟩
      · rw [h1] at hfx
        injection hfx with h3 h4
        subst h4
        refine .inr ⟨fd, ino, n', h3.symm, fun hfo => ⟨.inr ⟨n, rfl⟩, ⟨M.names, ⟨n', M.node⟩, fun i q hq hg => ?_, held.objs, progs held.progs,
          fun y hy => held.choices y (hch y hy)⟩, M.node, M.dir, M.data, M.old, M.ofd⟩⟩
        have := M.fds i q hq hg.1
        subst this
        rw [hfo]
        exact ⟨by simp, rfl⟩
  | absent gone =>
    obtain ⟨hr1, hr2⟩ := (gone.choices x hxm).1 c.w.k gone.absent
    have hch' : ∀ y ∈ w.choices, KeepsAbsent name y ∧ ∀ ino, (x.other c.w.k).inodes.length ≤ ino → Respects name ino y := fun y hy =>
      ⟨(gone.choices y (hch y hy)).1, fun ino hi => (gone.choices y (hch y hy)).2 ino (Nat.le_trans hr2 hi)⟩
    have failed : ∀ e, r = .error e → w.k = x.other c.w.k →
        Pre name X { c with w := w, sh := sh, th := c.th.set t (.run home (k r)) } fo' none := by
      intro e _ hk
      exact .absent ⟨by simp only; rw [hk]; exact hr1, gone.objs, progs gone.progs, by simp only; rw [hk]; exact hch'⟩
    cases hfail : x.fail with
    | some e =>
      rw [hfail] at hfx
      injection hfx with h1 h2
      exact .inl ⟨e, h1.symm, failed e h1.symm h2.symm⟩
    | none =>
      rw [hfail] at hfx
      dsimp only at hfx
      rcases kopen_fresh hm hr1 with ⟨e, h1⟩ | ⟨fd, n', k', h1, M⟩
      · rw [h1] at hfx
        injection hfx with h1 h2
        exact .inl ⟨e, h1.symm, failed e h1.symm h2.symm⟩
      · rw [h1] at hfx
        injection hfx with h3 h4
        subst h4
        refine .inr ⟨fd, _, n', h3.symm, fun hfo => ⟨.inl rfl, ⟨M.names, ⟨n', M.node⟩, fun i q hq hg => ?_, gone.objs, progs gone.progs,
          fun y hy => (hch' y hy).2 _ (Nat.le_refl _)⟩, M.node, M.dir, M.data, M.old, M.ofd⟩⟩
        have := M.fds i q hq hg.1
        subst this
        rw [hfo]
        exact ⟨by simp, rfl⟩

/-- Where a call that creates a file is. -/
inductive Creating (strerror : Strerror) (name : Bytes) (s : Option (Nat × Inode)) (m : Mode) (t0 : Nat) (c : Conf) (fo : Nat → Owner) : Prop
  | waiting (th : c.th[t0]? = some (.run .none (newWFile strerror m name))) (pre : Pre name (· = t0) c fo s)
  | opened (f : WFile) (ino : Nat) (n : Inode) (fd : Nat) (th : c.th[t0]? = some (.run .none (.ret (.new (.wr f)))))
      (new : WFile.new name (fd : Int) = .ok f) (own : fo fd = .thr t0) (fresh : Fresh name s m (· = t0) (· = .thr t0) c fo ino n fd)
  | failed (st : St) (th : c.th[t0]? = some (.run .none (.ret (.failed st)))) (pre : Pre name (· = t0) c fo s)
  | stuck (e : Fault) (th : c.th[t0]? = some (.run .none (.fault e)))

theorem wfile_new_fd {fd : Int} {f : WFile} (h : WFile.new name fd = .ok f) : f.fd = fd ∧ Dirname name = .ok f.dirname := by
  unfold WFile.new at h
  cases h1 : IsManifest name with
  | error e => rw [h1] at h; exact nomatch h
  | ok b =>
    rw [h1] at h
    cases h2 : Dirname name with
    | error e => rw [h2] at h; exact nomatch h
    | ok d =>
      rw [h2] at h
      injection h with h
      subst h
      exact ⟨rfl, rfl⟩

/-- The open call is made. -/
theorem Creating.go {strerror : Strerror} (H : Inv ext extm L c fo mo lo gs) (hm : m = .trunc ∨ m = .append)
    (th : c.th[t0]? = some (.run .none (newWFile strerror m name))) (pre : Pre name (· = t0) c fo s)
    {home : Home} {cmd : Cmd} {k : cmd.Resp → Prog Fin} {r : cmd.Resp} {sh : Shared} {w : World}
    (ht : c.th[t0]? = some (.run home (.call cmd k))) (hx : cmd.exec c.sh c.w = .done (r, sh) w) :
    ∃ fo' mo' lo' gs', Inv ext extm L { c with w := w, sh := sh, th := c.th.set t0 (.run home (k r)) } fo' mo' lo' gs' ∧
      Creating strerror name s m t0 { c with w := w, sh := sh, th := c.th.set t0 (.run home (k r)) } fo' := by
  have hlt : t0 < c.th.length := (List.getElem?_eq_some_iff.1 ht).1
  obtain ⟨fo', mo', lo', gs', H', hf⟩ := H.stepF ht hx
  refine ⟨fo', mo', lo', gs', H', ?_⟩
  rw [ht] at th
  injection th with th
  injection th with e1 e2
  subst e1
  have e2 : Prog.call cmd k = .call (.open m name) _ := e2
  injection e2 with e2 e3
  subst e2
  have hth : ∀ y, (c.th.set t0 y)[t0]? = some y := fun y => List.getElem?_set_self hlt
  have hf' : ∀ i, fo i ≠ .free → fo' i = fo i := fun i hi => (hf i hi).resolve_left fun h => nomatch h
  obtain ⟨g, hg⟩ := H'.ghost (hth _)
  have hrun := H'.run t0 .none _ g (hth _) hg
  rcases pre.open H hm ht hx rfl hf' with ⟨e, hr, hpre⟩ | ⟨fd, ino, n, hr, hfresh⟩
  · subst hr
    refine .failed (PosixError strerror name e) ?_ hpre
    rw [hth]
    cases e3
    rfl
  · subst hr
    cases e3
    cases hnew : WFile.new name (fd : Int) with
    | error e =>
      refine .stuck e ?_
      rw [hth]
      show some (Thread.run .none ((Prog.ofM (WFile.new name (fd : Int))).bind _)) = _
      rw [hnew]
      rfl
    | ok f =>
      have hk : ((Prog.ofM (WFile.new name (fd : Int))).bind fun f => Prog.ret (Fin.new (.wr f))) = .ret (.new (.wr f)) := by
        rw [hnew]; rfl
      have hown : fo' fd = .thr t0 := by
        refine (H'.F.thr t0 fd).2 ⟨g, hg, ?_⟩
        have hrun : ((Prog.ofM (WFile.new name (fd : Int))).bind fun f => Prog.ret (Fin.new (.wr f))).wp (Done .none) g := hrun
        rw [hk] at hrun
        have : Done .none (.new (.wr f)) g := hrun
        exact (this.2.1.F fd).2 (wfile_new_fd hnew).1
      refine .opened f ino n fd ?_ hnew hown (hfresh hown)
      rw [hth]
      show some (Thread.run .none ((Prog.ofM (WFile.new name (fd : Int))).bind fun f => Prog.ret (Fin.new (.wr f)))) = _
      rw [hk]

end

end Conc
end Posix
end Lsmdb
