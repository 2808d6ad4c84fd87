import Verif.Proof.PosixReads1

/-! The invariant: threads that read one random-access file. -/

namespace Lsmdb
namespace Posix

open MemEnv (St lit)

namespace Conc

open Prog

/-- What does not change: how the object reads the file. -/
def Shape (name D : Bytes) : Obj → Prop
  | .rand f => f.filename = name ∧ (f.has_permanent_fd = true ∧ 0 ≤ f.fd ∨ f.has_permanent_fd = false ∧ f.fd = -1)
  | .mmap f => f.length = D.length
  | _ => False

/-- What the object has of the file. -/
def Grip (k : Kernel) (ino : Nat) : Obj → Prop
  | .rand f => f.has_permanent_fd = true → ∃ q, k.ofd f.fd = some q ∧ q.ino = ino ∧ q.rd = true
  | .mmap f => k.maps[f.mmap_base]? = some (some (ino, f.length))
  | _ => False

section
variable (strerror : Strerror) (h ino : Nat) (name D : Bytes) (o : Obj)

/-- The object reads the file, or is gone. -/
structure Here (c : Conf) : Prop where
  reg : ∃ D', RegularFile c.w.k ino D' ∧ D <+: D'
  named : byName o = true → c.w.k.lookup (cstr name) = some ino
  obj : (c.objs[h]? = some (some o) ∧ Grip c.w.k ino o) ∨
    (c.objs[h]? = some none ∧ ∀ (t : Nat) p, c.th[t]? = some (.run (.own h) p) → Returns (fun a => ∃ r, a = Fin.back none r) p)

/-- The answer to a read. -/
def Answer (k : Kernel) (offset n : Nat) (r : PRes) : Prop :=
  (∀ f, o = .rand f → ∃ st d D', r = .data st d ∧ RegularFile k ino D' ∧ GoodRead D D' offset n st (d.getD [])) ∧
  ∀ f, o = .mmap f → r = .view (f.Read strerror offset n).1 (f.Read strerror offset n).2

/-- How far a read is. -/
inductive Phase (c : Conf) (t offset n : Nat) : Prop
  | perm (f : RandFile) (ho : o = .rand f) (hp : f.has_permanent_fd = true)
      (ht : c.th[t]? = some (.run (.reads h) (permProg strerror f offset n)))
  | opening (f : RandFile) (ho : o = .rand f) (hp : f.has_permanent_fd = false)
      (ht : c.th[t]? = some (.run (.reads h) (tempProg strerror f offset n)))
  | reading (f : RandFile) (ho : o = .rand f) (hp : f.has_permanent_fd = false) (i : Nat)
      (ht : c.th[t]? = some (.run (.reads h) (tempRead strerror f offset n (i : Int))))
      (hq : ∃ q, c.w.k.ofd (i : Int) = some q ∧ q.ino = ino ∧ q.rd = true)
  | closing (fd : Int) (s : St) (d : Option Bytes) (ht : c.th[t]? = some (.run (.reads h) (tempClose fd s d)))
      (ha : Answer strerror ino D o c.w.k offset n (.data s d))
  | over (r : PRes) (ht : c.th[t]? = some (.run (.reads h) (.ret (.ans r)))) (ha : Answer strerror ino D o c.w.k offset n r)

/-- The reads of thread `t`. -/
structure Reads (c : Conf) (t : Nat) (x : Option POp × List (POp × PRes)) : Prop where
  now : ∀ offset n, x.1 = some (.randRead h offset n) → offset < 2 ^ 64 → Phase strerror h ino D o c t offset n
  past : ∀ offset n r, (POp.randRead h offset n, r) ∈ x.2 → offset < 2 ^ 64 → Answer strerror ino D o c.w.k offset n r

end

variable {strerror : Strerror} {full : Bool} {h ino : Nat} {name D : Bytes} {o : Obj}

theorem RegularFile.grows {k k' : Kernel} {D1 : Bytes} (hr : RegularFile k ino D1) (hg : Growth (k.inodes[ino]?) (k'.inodes[ino]?)) :
    ∃ D2, RegularFile k' ino D2 ∧ D1 <+: D2 := by
  obtain ⟨n, h1, h2, h3⟩ := hr
  obtain ⟨n', g1, g2, g3⟩ := hg n h1
  exact ⟨n'.data, ⟨n', g1, g2.trans h2, rfl⟩, h3 ▸ g3⟩

theorem drop_prefix {a b : Bytes} (hp : a <+: b) (k : Nat) : a.drop k <+: b.drop k := by
  obtain ⟨t, rfl⟩ := hp
  rw [List.drop_append]
  exact List.prefix_append _ _

theorem GoodRead.grows {D1 D2 : Bytes} {offset n : Nat} {st : St} {d : Bytes} (hg : GoodRead D D1 offset n st d) (hp : D1 <+: D2) :
    GoodRead D D2 offset n st d :=
  ⟨fun he => (hg.bytes he).trans (drop_prefix hp offset), hg.most, hg.least, hg.failed⟩

theorem Answer.grows {k k' : Kernel} {offset n : Nat} {r : PRes} (ha : Answer strerror ino D o k offset n r)
    (hg : Growth (k.inodes[ino]?) (k'.inodes[ino]?)) : Answer strerror ino D o k' offset n r := by
  refine ⟨fun f hf => ?_, ha.2⟩
  obtain ⟨st, d, D1, h1, h2, h3⟩ := ha.1 f hf
  obtain ⟨D2, h4, h5⟩ := RegularFile.grows h2 hg
  exact ⟨st, d, D2, h1, h4, h3.grows h5⟩

section
variable {ext extm : Nat → Prop} {L : Lim → Int} {c c' : Conf} {fo mo : Nat → Owner} {lo : Bytes → Owner} {gs : List Ghost}

/-- A read that has opened the file owns the descriptor. -/
theorem Inv.temp (H : Inv ext extm L c fo mo lo gs) {t : Nat} {home : Home} {f : RandFile} {offset n i : Nat}
    (ht : c.th[t]? = some (.run home (tempRead strerror f offset n (i : Int)))) : fo i = .thr t := by
  obtain ⟨g, hg⟩ := H.ghost ht
  have hp := H.run t home _ g ht hg
  have h1 := hp.2 (.error EIO) (fun d hd => nomatch hd)
  rcases h1 with ⟨h1, -⟩ | ⟨j, h1, hj, -⟩
  · omega
  · have : j = i := by omega
    subst this
    exact (H.F.thr t j).2 ⟨g, hg, hj⟩

/-- The step of another thread. -/
theorem Phase.keep {t offset n : Nat} (P : Phase strerror h ino D o c t offset n) (hth : ∀ p, c.th[t]? = some (.run (.reads h) p) → c'.th[t]? = some (.run (.reads h) p))
    (hfd : ∀ (f : RandFile) (i : Nat), c.th[t]? = some (.run (.reads h) (tempRead strerror f offset n (i : Int))) → c'.w.k.ofd (i : Int) = c.w.k.ofd (i : Int))
    (hg : Growth (c.w.k.inodes[ino]?) (c'.w.k.inodes[ino]?)) : Phase strerror h ino D o c' t offset n := by
  cases P with
  | perm f ho hp ht => exact .perm f ho hp (hth _ ht)
  | opening f ho hp ht => exact .opening f ho hp (hth _ ht)
  | reading f ho hp i ht hq => exact .reading f ho hp i (hth _ ht) (by rw [hfd f i ht]; exact hq)
  | closing fd s d ht ha => exact .closing fd s d (hth _ ht) (ha.grows hg)
  | over r ht ha => exact .over r (hth _ ht) (ha.grows hg)

theorem Phase.home {t offset n : Nat} (P : Phase strerror h ino D o c t offset n) : ∃ p, c.th[t]? = some (.run (.reads h) p) := by
  cases P with
  | perm f ho hp ht => exact ⟨_, ht⟩
  | opening f ho hp ht => exact ⟨_, ht⟩
  | reading f ho hp i ht hq => exact ⟨_, ht⟩
  | closing fd s d ht ha => exact ⟨_, ht⟩
  | over r ht ha => exact ⟨_, ht⟩

theorem growth_refl (a : Option Inode) : Growth a a := fun n hn => ⟨n, hn, rfl, List.prefix_refl _⟩

/-- A call starts. -/
theorem Here.call (H : Inv ext extm L c fo mo lo gs) (hs : Shape name D o) (J : Here h ino name D o c) {t : Nat} {op : POp} {fuel : Nat}
    (ht : c.th[t]? = some .idle) (ha : c.Allowed op) : Here h ino name D o (c.begin strerror full fuel t op) := by
  refine ⟨J.reg, J.named, ?_⟩
  by_cases hh : handle op = some h
  · obtain ⟨o', ho'⟩ := there_of_allowed ha hh
    rcases J.obj with ⟨h1, h2⟩ | ⟨h1, -⟩
    · have e := get_some_eq ho' h1
      injection e with e
      subst e
      obtain ⟨_, ha'⟩ := ha
      cases op with
      | unlockFile a =>
        injection hh with hh; subst hh
        obtain ⟨fd, n, h3⟩ := ha'
        cases get_some_eq h3 h1
        exact hs.elim
      | seqRead a n =>
        injection hh with hh; subst hh
        obtain ⟨f, h3⟩ := ha'
        cases get_some_eq h3 h1
        exact hs.elim
      | seqSkip a n =>
        injection hh with hh; subst hh
        obtain ⟨f, h3⟩ := ha'
        cases get_some_eq h3 h1
        exact hs.elim
      | write a n =>
        injection hh with hh; subst hh
        obtain ⟨f, h3⟩ := ha'
        cases get_some_eq h3 h1
        exact hs.elim
      | delete a =>
        injection hh with hh; subst hh
        right
        refine ⟨set_get_self h1, fun u p hu => ?_⟩
        have hu : (c.th.set t (.run (.own a) (body strerror full fuel (.delete a) (c.objOf (.delete a)))))[u]? = some (.run (.own a) p) := hu
        rcases get_set hu with ⟨_, hu⟩ | ⟨rfl, e⟩
        · have := H.own _ _ _ hu
          rw [h1] at this; cases this
        · injection e with _ e
          rw [e, objOf_eq rfl h1]
          exact returns_delete fuel a _
      | randRead a b n =>
        injection hh with hh; subst hh
        exact .inl ⟨h1, h2⟩
      | _ => exact nomatch hh
    · rw [ho'] at h1; cases h1
  · rcases J.obj with ⟨h1, h2⟩ | ⟨h1, h2⟩
    · exact .inl ⟨(begin_objs hh).trans h1, h2⟩
    · refine .inr ⟨(begin_objs hh).trans h1, fun u p hu => ?_⟩
      have hu : (c.th.set t (.run (homeOf op) (body strerror full fuel op (c.objOf op))))[u]? = some (.run (.own h) p) := hu
      rcases get_set hu with ⟨_, hu⟩ | ⟨rfl, e⟩
      · exact h2 u p hu
      · injection e with e _
        exact (hh (homeOf_own e.symm)).elim

/-- A call returns. -/
theorem Here.ret (H : Inv ext extm L c fo mo lo gs) (J : Here h ino name D o c) {t : Nat} {home : Home} {a : Fin}
    (ht : c.th[t]? = some (.run home (.ret a))) : Here h ino name D o (c.finish t home a).1 := by
  have hw : (c.finish t home a).1.w = c.w := by cases a <;> rfl
  have hthr : (c.finish t home a).1.th = c.th.set t .idle := by cases a <;> rfl
  refine ⟨by rw [hw]; exact J.reg, by rw [hw]; exact J.named, ?_⟩
  rw [hw]
  have hobj : ∀ {z : Option Obj}, home ≠ .own h → c.objs[h]? = some z → (c.finish t home a).1.objs[h]? = some z := by
    intro z hn hz
    cases a with
    | new o => exact push_get hz
    | back o r =>
      cases home with
      | own a =>
        show (c.objs.set a o)[h]? = _
        rw [List.getElem?_set_ne]
        · exact hz
        · rintro rfl; exact hn rfl
      | none => exact hz
      | reads a => exact hz
  rcases J.obj with ⟨h1, h2⟩ | ⟨h1, h2⟩
  · refine .inl ⟨hobj ?_ h1, h2⟩
    rintro rfl
    have := H.own t h _ ht
    rw [h1] at this; cases this
  · refine .inr ⟨?_, fun u p hu => ?_⟩
    · by_cases hn : home = .own h
      · subst hn
        obtain ⟨r, rfl⟩ := h2 t _ ht
        exact set_get_self h1
      · exact hobj hn h1
    · rw [hthr] at hu
      rcases get_set hu with ⟨_, hu⟩ | ⟨rfl, e⟩
      · exact h2 u p hu
      · exact nomatch e

theorem Inv.unmaps (H : Inv ext extm L c fo mo lo gs) {t : Nat} {home : Home} {m : Nat} {k : (Cmd.munmap m).Resp → Prog Fin}
    (ht : c.th[t]? = some (.run home (.call (.munmap m) k))) : mo m = .thr t := by
  obtain ⟨g, hg⟩ := H.ghost ht
  have hp := H.run t home _ g ht hg
  exact (H.M.thr t m).2 ⟨g, hg, hp.1⟩

/-- The end of a descriptor that is in use, and not of thread `t`: not in this step. -/
theorem Inv.stays (H : Inv ext extm L c fo mo lo gs) {t : Nat} {home : Home} {cmd : Cmd} {k : cmd.Resp → Prog Fin} {r : cmd.Resp}
    {sh' : Shared} {w' : World} (ht : c.th[t]? = some (.run home (.call cmd k))) (he : cmd.exec c.sh c.w = .done (r, sh') w')
    {i : Nat} (hx : ∀ x ∈ c.w.choices, Private x) (hi : fo i ≠ .free) (hn : fo i ≠ .thr t) :
    w'.k.ofd (i : Int) = c.w.k.ofd (i : Int) := by
  refine (H.foreign (R := fun _ _ => True) (ino := 0) ht he (fun x hm y => ⟨fun _ _ => trivial, ?_⟩) hi hn).1
  unfold Kernel.ofd
  rw [(hx x hm y).1]

/-- A step inside a call. -/
theorem Here.move (H : Inv ext extm L c fo mo lo gs) (hs : Shape name D o) (J : Here h ino name D o c) (hx : ∀ x ∈ c.w.choices, Private x)
    {t : Nat} {home : Home} {cmd : Cmd} {kont : cmd.Resp → Prog Fin} {r : cmd.Resp} {sh : Shared} {w : World}
    (ht : c.th[t]? = some (.run home (.call cmd kont))) (he : cmd.exec c.sh c.w = .done (r, sh) w)
    (hg : Growth (c.w.k.inodes[ino]?) (w.k.inodes[ino]?))
    (hn : byName o = true → w.k.lookup (cstr name) = c.w.k.lookup (cstr name)) :
    Here h ino name D o { c with w := w, sh := sh, th := c.th.set t (.run home (kont r)) } := by
  refine ⟨?_, fun hb => (hn hb).trans (J.named hb), ?_⟩
  · obtain ⟨D1, h1, h2⟩ := J.reg
    obtain ⟨D2, h3, h4⟩ := RegularFile.grows h1 hg
    exact ⟨D2, h3, h2.trans h4⟩
  · rcases J.obj with ⟨h1, h2⟩ | ⟨h1, h2⟩
    · refine .inl ⟨h1, ?_⟩
      cases o with
      | rand f =>
        intro hp
        obtain ⟨q, h3, h4⟩ := h2 hp
        obtain ⟨-, ⟨-, h0⟩ | ⟨h0, -⟩⟩ := hs
        · have hi : (f.fd.toNat : Int) = f.fd := by omega
          have hown : fo f.fd.toNat = .obj h := (H.F.obj h _).2 ⟨_, h1, ?_⟩
          · have := H.stays ht he (i := f.fd.toNat) hx (by rw [hown]; simp) (by rw [hown]; simp)
            rw [hi] at this
            exact ⟨q, this.trans h3, h4⟩
          · show f.has_permanent_fd = true ∧ f.fd = _
            exact ⟨hp, hi.symm⟩
        · rw [h0] at hp; exact nomatch hp
      | mmap f =>
        refine exec_map ?_ (fun x hm k => (hx x hm k).2) h2 he
        rintro rfl
        have hown : mo f.mmap_base = .obj h := (H.M.obj h _).2 ⟨_, h1, rfl⟩
        rw [H.unmaps ht] at hown
        exact nomatch hown
      | _ => exact hs.elim
    · refine .inr ⟨h1, fun u p hu => ?_⟩
      rcases get_set hu with ⟨_, hu⟩ | ⟨rfl, e⟩
      · exact h2 u p hu
      · injection e with e1 e2
        subst e1 e2
        exact h2 u _ ht r

theorem good_failed {D' : Bytes} {offset n : Nat} (s : Bytes) (e : Errno) : GoodRead D D' offset n (PosixError strerror s e) [] :=
  ⟨fun h => (PosixError_ne_ok strerror s e h).elim, Nat.zero_le _, fun h => (PosixError_ne_ok strerror s e h).elim, fun _ => rfl⟩

theorem good_ok {D' : Bytes} {offset n : Nat} {d : Bytes} (hd : Excerpt D' offset n d) (hp : D <+: D') :
    GoodRead D D' offset n .ok d :=
  ⟨fun _ => hd.1, hd.2.1, fun _ h => (hd.2.2.1 h).imp id fun h => Nat.le_trans hp.length_le h, fun h => (h rfl).elim⟩

/-- A read starts. -/
theorem phase_start (hs : Shape name D o) {t fuel offset n : Nat} (ht : c.th[t]? = some .idle) (ho : c.objs[h]? = some (some o)) :
    Phase strerror h ino D o (c.begin strerror full fuel t (.randRead h offset n)) t offset n := by
  have hth : (c.begin strerror full fuel t (.randRead h offset n)).th[t]? =
      some (.run (.reads h) (body strerror full fuel (.randRead h offset n) (some o))) := by
    show (c.th.set t (.run (.reads h) (body strerror full fuel (.randRead h offset n) (c.objOf (.randRead h offset n)))))[t]? = _
    rw [set_get_self ht, objOf_eq rfl ho]
  cases o with
  | rand f =>
    obtain ⟨-, ⟨h1, h2⟩ | ⟨h1, h2⟩⟩ := hs
    · rw [body_perm h1 (by omega)] at hth
      exact .perm f rfl h1 hth
    · rw [body_temp h1 h2] at hth
      exact .opening f rfl h1 hth
  | mmap f => exact .over _ hth ⟨fun _ h => (nomatch h), fun f' h' => by cases h'; rfl⟩
  | _ => exact hs.elim

/-- A read goes on. -/
theorem Phase.move (H : Inv ext extm L c fo mo lo gs) (hs : Shape name D o) (J : Here h ino name D o c) (hx : ∀ x ∈ c.w.choices, Private x)
    {t : Nat} {home : Home} {cmd : Cmd} {kont : cmd.Resp → Prog Fin} {r : cmd.Resp} {sh : Shared} {w : World}
    (ht : c.th[t]? = some (.run home (.call cmd kont))) (he : cmd.exec c.sh c.w = .done (r, sh) w)
    (J' : Here h ino name D o { c with w := w, sh := sh, th := c.th.set t (.run home (kont r)) })
    (hg : Growth (c.w.k.inodes[ino]?) (w.k.inodes[ino]?))
    {offset n : Nat} (hoff : offset < 2 ^ 64) (P : Phase strerror h ino D o c t offset n) :
    Phase strerror h ino D o { c with w := w, sh := sh, th := c.th.set t (.run home (kont r)) } t offset n := by
  obtain ⟨D', hD', hpre⟩ := J'.reg
  have hthr : ∀ p, kont r = p → (c.th.set t (.run home (kont r)))[t]? = some (.run home p) := by
    intro p hp; rw [set_get_self ht, hp]
  cases P with
  | perm f ho hp ht' =>
    have e := get_some_eq ht' ht
    injection e with e1 e2
    subst e1
    injection e2 with e2 e3
    subst e2
    have e3 := eq_of_heq e3
    subst e3
    obtain ⟨g, hgs⟩ := H.ghost ht
    obtain ⟨o', h1, -⟩ := H.reads t h _ g ht hgs
    rcases J.obj with ⟨h2, h3⟩ | ⟨h2, -⟩
    · rw [ho] at h3
      obtain ⟨q, h4, h5, h6⟩ := h3 hp
      have he' := (keep_done he).1
      rcases pread_good (fun x hm => (hx x hm _).1) h4 h5 h6 hoff he' hD' with ⟨e, rfl⟩ | ⟨d, rfl, hd⟩
      · refine .over _ (hthr _ rfl) ⟨fun f' hf' => ⟨_, _, D', rfl, hD', good_failed _ _⟩, fun f' hf' => ?_⟩
        rw [ho] at hf'; exact nomatch hf'
      · refine .over (.data .ok (some d)) (hthr _ ?_) ⟨fun f' hf' => ⟨_, _, D', rfl, hD', good_ok hd hpre⟩, fun f' hf' => ?_⟩
        · exact if_pos hd.2.1
        · rw [ho] at hf'; exact nomatch hf'
    · rw [h1] at h2; cases h2
  | opening f ho hp ht' =>
    have e := get_some_eq ht' ht
    injection e with e1 e2
    subst e1
    injection e2 with e2 e3
    subst e2
    have e3 := eq_of_heq e3
    subst e3
    have he' := (keep_done he).1
    rcases open_good he' with ⟨e, rfl⟩ | ⟨i, ino', q, rfl, h1, h2, h3, h4⟩
    · refine .over (.data (PosixError strerror f.filename e) none) (hthr _ rfl)
        ⟨fun f' hf' => ⟨_, _, D', rfl, hD', good_failed _ _⟩, fun f' hf' => ?_⟩
      rw [ho] at hf'; exact nomatch hf'
    · refine .reading f ho hp i (hthr _ ?_) ⟨q, h2, ?_, h4⟩
      · simp only [tempOpened]
        exact if_neg (by omega)
      · have hb : byName o = true := by rw [ho]; simp [byName, hp]
        have hnm : f.filename = name := by rw [ho] at hs; exact hs.1
        have := J'.named hb
        rw [← hnm] at this
        have h1 : w.k.lookup (cstr f.filename) = some ino' := h1
        have this : w.k.lookup (cstr f.filename) = some ino := this
        rw [h1] at this
        injection this with this
        rw [h3, this]
  | reading f ho hp i ht' hq =>
    have e := get_some_eq ht' ht
    injection e with e1 e2
    subst e1
    injection e2 with e2 e3
    subst e2
    have e3 := eq_of_heq e3
    subst e3
    obtain ⟨q, h4, h5, h6⟩ := hq
    have he' := (keep_done he).1
    rcases pread_good (fun x hm => (hx x hm _).1) h4 h5 h6 hoff he' hD' with ⟨e, rfl⟩ | ⟨d, rfl, hd⟩
    · refine .closing _ _ _ (hthr _ rfl) ⟨fun f' hf' => ⟨_, _, D', rfl, hD', good_failed _ _⟩, fun f' hf' => ?_⟩
      rw [ho] at hf'; exact nomatch hf'
    · refine .closing (i : Int) .ok (some d) (hthr _ ?_) ⟨fun f' hf' => ⟨_, _, D', rfl, hD', good_ok hd hpre⟩, fun f' hf' => ?_⟩
      · exact if_pos hd.2.1
      · rw [ho] at hf'; exact nomatch hf'
  | closing fd s d ht' ha =>
    have e := get_some_eq ht' ht
    injection e with e1 e2
    subst e1
    injection e2 with e2 e3
    subst e2
    have e3 := eq_of_heq e3
    subst e3
    exact .over _ (hthr _ rfl) (ha.grows hg)
  | over r' ht' ha =>
    have e := get_some_eq ht' ht
    injection e with e1 e2
    exact nomatch e2

/-- Along the whole run. -/
theorem Reads.all {c0 : Conf} {es : List Ev} {f0 m0 : Nat → Owner} {l0 : Bytes → Owner} {g0 : List Ghost}
    (hr : StillRun strerror full o name ino c0 es c) (H0 : Inv ext extm L c0 f0 m0 l0 g0) (hs : Shape name D o)
    (J0 : Here h ino name D o c0) (hx : ∀ x ∈ c0.w.choices, Private x) :
    ∃ fo mo lo gs, Inv ext extm L c fo mo lo gs ∧ (∀ x ∈ c.w.choices, x ∈ c0.w.choices) ∧ Here h ino name D o c ∧
      ∀ t, Reads strerror h ino D o c t (es.foldl (exchange t) (none, [])) := by
  induction hr with
  | nil => exact ⟨_, _, _, _, H0, fun _ hx => hx, J0, fun t => ⟨fun _ _ h => (nomatch h), fun _ _ _ h => (nomatch h)⟩⟩
  | step hr h' hg hn ih =>
    obtain ⟨fo, mo, lo, gs, H, hch, J, T⟩ := ih
    rename_i c1 c2 es e
    cases h' with
    | call t op fuel ht ha =>
      obtain ⟨fo', mo', lo', gs', H', hf⟩ := H.beginF strerror full fuel ht ha
      refine ⟨fo', mo', lo', gs', H', hch, J.call H hs ht ha, fun u => ?_⟩
      rw [List.foldl_append]
      show Reads strerror h ino D o _ u (exchange u (es.foldl (exchange u) (none, [])) (.call t op))
      have T := T u
      generalize es.foldl (exchange u) (none, []) = x at T
      by_cases hu : t = u
      · subst hu
        have : exchange t x (.call t op) = (some op, x.2) := if_pos rfl
        rw [this]
        refine ⟨fun offset n hop hoff => ?_, T.past⟩
        injection hop with hop
        subst hop
        obtain ⟨o', ho'⟩ := there_of_allowed (h := h) ha rfl
        rcases J.obj with ⟨h1, h2⟩ | ⟨h1, -⟩
        · exact phase_start hs ht h1
        · rw [ho'] at h1; cases h1
      · have : exchange u x (.call t op) = x := if_neg hu
        rw [this]
        refine ⟨fun offset n hop hoff => (T.now offset n hop hoff).keep (fun p hp => ?_) (fun _ _ _ => rfl) (growth_refl _), T.past⟩
        show (c1.th.set t _)[u]? = _
        rw [List.getElem?_set_ne hu]; exact hp
    | move t home cmd k r sh w ht he =>
      obtain ⟨fo', mo', lo', gs', H', hf⟩ := H.stepF ht he
      have hx1 : ∀ x ∈ c1.w.choices, Private x := fun x hm => hx x (hch x hm)
      have J' := J.move H hs hx1 ht he hg hn
      refine ⟨fo', mo', lo', gs', H', fun x hx => hch x (exec_choices he x hx), J', fun u => ?_⟩
      rw [show es ++ (none : Option Ev).toList = es from List.append_nil _]
      have T := T u
      generalize es.foldl (exchange u) (none, []) = x at T
      refine ⟨fun offset n hop hoff => ?_, fun offset n r h1 h2 => (T.past offset n r h1 h2).grows hg⟩
      have P := T.now offset n hop hoff
      by_cases hu : t = u
      · subst hu
        exact P.move H hs J hx1 ht he J' hg hoff
      · refine P.keep (fun p hp => ?_) (fun f i hi => ?_) hg
        · show (c1.th.set t _)[u]? = _
          rw [List.getElem?_set_ne hu]; exact hp
        · have hown := H.temp hi
          refine H.stays ht he hx1 (by rw [hown]; simp) ?_
          rw [hown]; intro e; injection e with e; exact hu e.symm
    | ret t home a ht =>
      obtain ⟨fo', mo', lo', gs', H', hf⟩ := H.finishF ht
      have hw : (c1.finish t home a).1.w = c1.w := by cases a <;> rfl
      have hthr : (c1.finish t home a).1.th = c1.th.set t .idle := by cases a <;> rfl
      refine ⟨fo', mo', lo', gs', H', by rw [hw]; exact hch, J.ret H ht, fun u => ?_⟩
      rw [List.foldl_append]
      show Reads strerror h ino D o _ u (exchange u (es.foldl (exchange u) (none, [])) (.ret t (c1.finish t home a).2))
      have T := T u
      generalize es.foldl (exchange u) (none, []) = x at T
      by_cases hu : t = u
      · subst hu
        have : exchange t x (.ret t (c1.finish t home a).2) = (none, x.2 ++ (x.1.map fun op => (op, (c1.finish t home a).2)).toList) := if_pos rfl
        rw [this]
        refine ⟨fun _ _ h => (nomatch h), fun offset n r hm hoff => ?_⟩
        rw [hw]
        rcases List.mem_append.1 hm with hm | hm
        · exact T.past offset n r hm hoff
        · cases hx1 : x.1 with
          | none => rw [hx1] at hm; exact nomatch hm
          | some op =>
            rw [hx1] at hm
            have hm := List.mem_singleton.1 hm
            injection hm with h1 h2
            subst h1
            have P := T.now offset n hx1 hoff
            cases P with
            | over r' ht' ha =>
              have e := get_some_eq ht' ht
              injection e with e1 e2
              injection e2 with e2
              subst e1 e2
              rw [h2]; exact ha
            | perm f ho hp ht' => exact nomatch get_some_eq ht' ht
            | opening f ho hp ht' => exact nomatch get_some_eq ht' ht
            | reading f ho hp i ht' hq => exact nomatch get_some_eq ht' ht
            | closing fd s d ht' ha => exact nomatch get_some_eq ht' ht
      · have : exchange u x (.ret t (c1.finish t home a).2) = x := if_neg hu
        rw [this]
        refine ⟨fun offset n hop hoff => (T.now offset n hop hoff).keep (fun p hp => ?_) (fun _ _ _ => by rw [hw])
          (by rw [hw]; exact growth_refl _), by rw [hw]; exact T.past⟩
        rw [hthr, List.getElem?_set_ne hu]; exact hp

end

end Conc
end Posix
end Lsmdb
