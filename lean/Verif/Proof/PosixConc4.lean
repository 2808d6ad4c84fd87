import Verif.Proof.PosixConc3

/-! The invariant of the machine of threads, and its steps. -/

namespace Lsmdb
namespace Posix

open MemEnv (St lit)

namespace Conc

open Prog

/-- Everything accounted for, at any moment. -/
structure Inv (ext extm : Nat → Prop) (L : Lim → Int) (c : Conf) (fo mo : Nat → Owner) (lo : Bytes → Owner) (gs : List Ghost) :
    Prop where
  len : gs.length = c.th.length
  res : Res (fun i => fo i ≠ .free) (fun m => mo m ≠ .free) c.w
  locks : ∀ n, n ∈ c.sh.locks ↔ lo n ≠ .free
  F : Owns fo ext Obj.ownsFd Ghost.F c.objs gs
  M : Owns mo extm Obj.ownsMap Ghost.M c.objs gs
  N : Owns lo (fun _ => False) ownsName Ghost.N c.objs gs
  ok : ∀ (h : Nat) (o : Obj), c.objs[h]? = some (some o) → ObjOk o
  run : ∀ (t : Nat) home p g, c.th[t]? = some (.run home p) → gs[t]? = some g → p.wp (Done home) g
  idle : ∀ (t : Nat) g, c.th[t]? = some .idle → gs[t]? = some g → g.Empty
  own : ∀ (t h : Nat) p, c.th[t]? = some (.run (.own h) p) → c.objs[h]? = some none
  own_one : ∀ (t u h : Nat) p q, c.th[t]? = some (.run (.own h) p) → c.th[u]? = some (.run (.own h) q) → t = u
  reads : ∀ (t h : Nat) p g, c.th[t]? = some (.run (.reads h) p) → gs[t]? = some g →
    ∃ o, c.objs[h]? = some (some o) ∧ ((∃ f, o = .rand f) ∨ ∃ f, o = .mmap f) ∧ ∀ i ∈ g.B, o.ownsFd i
  noB : ∀ (t : Nat) home p g, c.th[t]? = some (.run home p) → (∀ h, home ≠ .reads h) → gs[t]? = some g → g.B = []
  lim : ∀ l, LimInv (L l) (c.sh.lim l) (cnt (pred l) c.objs) (fun g => g.grant l) (fun g => g.pend l) gs
  room : ∀ l, Room (L l) c.th.length

variable {ext extm : Nat → Prop} {L : Lim → Int} {c : Conf} {fo mo : Nat → Owner} {lo : Bytes → Owner} {gs : List Ghost}

/-- A thread in a call has a ghost. -/
theorem Inv.ghost (H : Inv ext extm L c fo mo lo gs) {t : Nat} {x : Thread} (h : c.th[t]? = some x) : ∃ g, gs[t]? = some g := by
  have hlt : t < gs.length := by
    rw [H.len]
    rcases Nat.lt_or_ge t c.th.length with h' | h'
    · exact h'
    · rw [List.getElem?_eq_none h'] at h; exact nomatch h
  exact ⟨gs[t], List.getElem?_eq_getElem hlt⟩

/-- A step inside a call. -/
theorem Inv.move (H : Inv ext extm L c fo mo lo gs) {t : Nat} {home : Home} {p p' : Prog Fin} {g g' : Ghost} {w' : World}
    {sh' : Shared} {fo' mo' : Nat → Owner} {lo' : Bytes → Owner}
    (ht : c.th[t]? = some (.run home p)) (hg : gs[t]? = some g)
    (hres : Res (fun i => fo' i ≠ .free) (fun m => mo' m ≠ .free) w') (hlocks : ∀ n, n ∈ sh'.locks ↔ lo' n ≠ .free)
    (hF : Owns fo' ext Obj.ownsFd Ghost.F c.objs (gs.set t g')) (hM : Owns mo' extm Obj.ownsMap Ghost.M c.objs (gs.set t g'))
    (hN : Owns lo' (fun _ => False) ownsName Ghost.N c.objs (gs.set t g')) (hp : p'.wp (Done home) g') (hB : g'.B = g.B)
    (hlim : ∀ l, LimInv (L l) (sh'.lim l) (cnt (pred l) c.objs) (fun g => g.grant l) (fun g => g.pend l) (gs.set t g')) :
    Inv ext extm L { c with w := w', sh := sh', th := c.th.set t (.run home p') } fo' mo' lo' (gs.set t g') := by
  refine ⟨?_, hres, hlocks, hF, hM, hN, H.ok, ?_, ?_, ?_, ?_, ?_, ?_, hlim, ?_⟩
  · simp only [List.length_set]; exact H.len
  · intro u home' q x hu hx
    rcases get_set hu with ⟨hne, hu⟩ | ⟨rfl, e⟩
    · rw [List.getElem?_set_ne (Ne.symm hne)] at hx; exact H.run u home' q x hu hx
    · cases e
      have hx' := get_some_eq hx (set_get_self hg); subst hx'
      exact hp
  · intro u x hu hx
    rcases get_set hu with ⟨hne, hu⟩ | ⟨rfl, e⟩
    · rw [List.getElem?_set_ne (Ne.symm hne)] at hx; exact H.idle u x hu hx
    · cases e
  · intro u h q hu
    rcases get_set hu with ⟨hne, hu⟩ | ⟨rfl, e⟩
    · exact H.own u h q hu
    · cases e; exact H.own _ h _ ht
  · intro u v h q q' hu hv
    rcases get_set hu with ⟨hne, hu1⟩ | ⟨rfl, e⟩ <;> rcases get_set hv with ⟨hne', hv1⟩ | ⟨rfl, e'⟩
    · exact H.own_one u v h q q' hu1 hv1
    · cases e'; exact H.own_one u _ h q _ hu1 ht
    · cases e; exact H.own_one _ v h _ q' ht hv1
    · rfl
  · intro u h q x hu hx
    rcases get_set hu with ⟨hne, hu⟩ | ⟨rfl, e⟩
    · rw [List.getElem?_set_ne (Ne.symm hne)] at hx; exact H.reads u h q x hu hx
    · cases e
      have hx' := get_some_eq hx (set_get_self hg); subst hx'
      rw [hB]
      exact H.reads _ h _ g ht hg
  · intro u home' q x hu hn hx
    rcases get_set hu with ⟨hne, hu⟩ | ⟨rfl, e⟩
    · rw [List.getElem?_set_ne (Ne.symm hne)] at hx; exact H.noB u home' q x hu hn hx
    · cases e
      have hx' := get_some_eq hx (set_get_self hg); subst hx'
      rw [hB]
      exact H.noB _ home _ g ht hn hg
  · intro l
    simp only [List.length_set]; exact H.room l

theorem LimInv.same {L v : Int} {u : Nat} {gr pe : Ghost → Nat} {gs : List Ghost} (H : LimInv L v u gr pe gs)
    {t : Nat} {g g' : Ghost} (hg : gs[t]? = some g) (h1 : gr g' = gr g) (h2 : pe g' = pe g) : LimInv L v u gr pe (gs.set t g') :=
  H.upd hg (by rw [h1, h2]; exact H.one g (List.mem_of_getElem? hg)) (by rw [h1, h2]; omega) (by rw [h1]; omega)

theorem keep_done {α : Type} {s sh : Shared} {x : P α} {w w' : World} {r : α} (h : keep s x w = .done (r, sh) w') :
    x w = .done r w' ∧ sh = s := by
  unfold keep at h
  cases hx : x w with
  | done a w1 => rw [hx] at h; injection h with h1 h2; injection h1 with h1 h3; subst h1; subst h2; exact ⟨rfl, h3.symm⟩
  | crash w1 => rw [hx] at h; exact nomatch h
  | fault f => rw [hx] at h; exact nomatch h

theorem sat_done {α : Type} {x : Out α} {Q : α → World → Prop} {R : World → Prop} {r : α} {w : World} (h : x.Sat Q R)
    (hx : x = .done r w) : Q r w := by rw [hx] at h; exact h

/-- A step that changes nobody's resources. -/
theorem Inv.quiet (H : Inv ext extm L c fo mo lo gs) {t : Nat} {home : Home} {p p' : Prog Fin} {g : Ghost} {w' : World}
    (ht : c.th[t]? = some (.run home p)) (hg : gs[t]? = some g)
    (hres : Res (fun i => fo i ≠ .free) (fun m => mo m ≠ .free) w') (hp : p'.wp (Done home) g) :
    Inv ext extm L { c with w := w', sh := c.sh, th := c.th.set t (.run home p') } fo mo lo (gs.set t g) :=
  H.move ht hg hres H.locks (H.F.same hg fun _ => Iff.rfl) (H.M.same hg fun _ => Iff.rfl) (H.N.same hg fun _ => Iff.rfl) hp rfl
    fun l => (H.lim l).same hg rfl rfl

/-- A descriptor is opened. -/
theorem Inv.opened (H : Inv ext extm L c fo mo lo gs) {t : Nat} {home : Home} {p p' : Prog Fin} {g : Ghost} {w' : World} {i : Nat}
    (ht : c.th[t]? = some (.run home p)) (hg : gs[t]? = some g) (hi : ¬ fo i ≠ .free)
    (hres : Res (fun j => fo j ≠ .free ∨ j = i) (fun m => mo m ≠ .free) w') (hp : p'.wp (Done home) (g.addF i)) :
    Inv ext extm L { c with w := w', sh := c.sh, th := c.th.set t (.run home p') } (updO fo i (.thr t)) mo lo
      (gs.set t (g.addF i)) :=
  H.move ht hg (hres.congr (fun j => (updO_free fo i t j).symm) fun _ => Iff.rfl) H.locks
    (H.F.gain hg (Decidable.not_not.1 hi) fun b => List.mem_cons) (H.M.same hg fun _ => Iff.rfl) (H.N.same hg fun _ => Iff.rfl) hp rfl
    fun l => (H.lim l).same hg rfl rfl

theorem fresh_F (H : Inv ext extm L c fo mo lo gs) {t i : Nat} {g : Ghost} (hg : gs[t]? = some g) (hi : ¬ fo i ≠ .free) :
    i ∉ g.F := by
  intro h
  have := (H.F.thr t i).2 ⟨g, hg, h⟩
  rw [this] at hi
  exact hi (by simp)

theorem fresh_M (H : Inv ext extm L c fo mo lo gs) {t i : Nat} {g : Ghost} (hg : gs[t]? = some g) (hi : ¬ mo i ≠ .free) :
    i ∉ g.M := by
  intro h
  have := (H.M.thr t i).2 ⟨g, hg, h⟩
  rw [this] at hi
  exact hi (by simp)

theorem fresh_N (H : Inv ext extm L c fo mo lo gs) {t : Nat} {n : Bytes} {g : Ghost} (hg : gs[t]? = some g) (hi : ¬ lo n ≠ .free) :
    n ∉ g.N := by
  intro h
  have := (H.N.thr t n).2 ⟨g, hg, h⟩
  rw [this] at hi
  exact hi (by simp)

theorem upL_ne (f : Lim → Nat) {l l' : Lim} (h : l' ≠ l) (v : Nat) : upL f l v l' = f l' := if_neg h

theorem lim_set (s : Shared) (l : Lim) (v : Int) : (s.setLim l v).lim l = v := by cases l <;> rfl

theorem lim_set_ne (s : Shared) {l l' : Lim} (h : l' ≠ l) (v : Int) : (s.setLim l v).lim l' = s.lim l' := by
  cases l <;> cases l' <;> first | rfl | exact absurd rfl h

theorem locks_set (s : Shared) (l : Lim) (v : Int) : (s.setLim l v).locks = s.locks := by cases l <;> rfl

/-- A limiter changes. -/
theorem Inv.limStep (H : Inv ext extm L c fo mo lo gs) {t : Nat} {home : Home} {p p' : Prog Fin} {g g' : Ghost} 
    (ht : c.th[t]? = some (.run home p)) (hg : gs[t]? = some g) (l : Lim) {v : Int}
    (hl : g'.grant l ≤ g.grant l ∨ (0 < c.sh.lim l ∧ g'.grant l = g.grant l + 1)) (hone : g'.grant l + g'.pend l ≤ 1)
    (hv : v - c.sh.lim l = ((g.grant l + g.pend l : Nat) : Int) - ((g'.grant l + g'.pend l : Nat) : Int))
    (hF : g'.F = g.F) (hM : g'.M = g.M) (hN : g'.N = g.N) (hB : g'.B = g.B)
    (hother : ∀ l', l' ≠ l → g'.grant l' = g.grant l' ∧ g'.pend l' = g.pend l') (hp : p'.wp (Done home) g') :
    Inv ext extm L { c with w := c.w, sh := c.sh.setLim l (wrap32 v), th := c.th.set t (.run home p') } fo mo lo (gs.set t g') := by
  have hnew := (H.lim l).upd (g' := g') (v' := v) (u' := cnt (pred l) c.objs) hg hone (by push_cast at hv ⊢; omega)
    (by rcases hl with h | ⟨h1, h2⟩
        · left; omega
        · right; exact ⟨h1, by omega⟩)
  have hint : IsInt v := hnew.isInt (by rw [List.length_set, H.len]; exact H.room l)
  refine H.move ht hg H.res (fun n => ?_) (H.F.same hg fun a => by rw [hF]) (H.M.same hg fun a => by rw [hM])
    (H.N.same hg fun a => by rw [hN]) hp hB fun l' => ?_
  · rw [locks_set]; exact H.locks n
  · by_cases he : l' = l
    · subst he
      rw [lim_set, wrap32_id hint]
      exact hnew
    · rw [lim_set_ne _ he]
      exact (H.lim l').same hg (hother l' he).1 (hother l' he).2

/-- Every step inside a call keeps the accounts; a descriptor changes hands only by `close`. -/
theorem Inv.stepF (H : Inv ext extm L c fo mo lo gs) {t : Nat} {home : Home} {cmd : Cmd} {k : cmd.Resp → Prog Fin} {r : cmd.Resp}
    {sh' : Shared} {w' : World} (ht : c.th[t]? = some (.run home (.call cmd k)))
    (he : cmd.exec c.sh c.w = .done (r, sh') w') :
    ∃ fo' mo' lo' gs', Inv ext extm L { c with w := w', sh := sh', th := c.th.set t (.run home (k r)) } fo' mo' lo' gs' ∧
      ∀ i, fo i ≠ .free → cmd = .close (i : Int) ∨ fo' i = fo i := by
  obtain ⟨g, hg⟩ := H.ghost ht
  have hp : cmd.spec (fun r g => (k r).wp (Done home) g) g := H.run t home _ g ht hg
  have hW := H.res
  cases cmd with
  | «open» m path =>
    obtain ⟨hx, rfl⟩ := keep_done he
    rcases sat_done (sysOpen_res hW m path) hx with ⟨e, rfl, h1⟩ | ⟨i, rfl, hi, h1⟩
    · exact ⟨_, _, _, _, H.quiet ht hg h1 (hp.1 e), fun _ _ => .inr rfl⟩
    · exact ⟨_, _, _, _, H.opened ht hg hi h1 (hp.2 i (fresh_F H hg hi)), fun j hj => .inr (if_neg (show ¬ j = i from fun e => hi (e ▸ hj)))⟩
  | opendir path =>
    obtain ⟨hx, rfl⟩ := keep_done he
    rcases sat_done (sysOpendir_res hW path) hx with ⟨e, rfl, h1⟩ | ⟨i, l, rfl, hi, h1⟩
    · exact ⟨_, _, _, _, H.quiet ht hg h1 (hp.1 e), fun _ _ => .inr rfl⟩
    · exact ⟨_, _, _, _, H.opened ht hg hi h1 (hp.2 i l (fresh_F H hg hi)), fun j hj => .inr (if_neg (show ¬ j = i from fun e => hi (e ▸ hj)))⟩
  | close fd =>
    obtain ⟨hx, rfl⟩ := keep_done he
    rcases hp with ⟨rfl, hp⟩ | ⟨i, rfl, hi, hp⟩
    · have h1 := sat_done (sysClose_neg_res hW) hx
      exact ⟨_, _, _, _, H.quiet ht hg h1 (hp r), fun _ _ => .inr rfl⟩
    · have hown : fo i ≠ .free := by
        rw [(H.F.thr t i).2 ⟨g, hg, hi⟩]; simp
      refine ⟨_, _, _, _, H.move (g' := g.delF i) (fo' := updO fo i .free) ht hg
        ((sat_done (sysClose_res hW i hown) hx).congr (fun j => (updO_lost fo i j).symm) fun _ => Iff.rfl)
        H.locks (H.F.lose hg hi fun b => mem_del) (H.M.same hg fun _ => Iff.rfl) (H.N.same hg fun _ => Iff.rfl) (hp r) rfl
        fun l => (H.lim l).same hg rfl rfl, fun j hj => ?_⟩
      by_cases hj' : j = i
      · exact .inl (by rw [hj'])
      · exact .inr (if_neg hj')
  | read fd n =>
    obtain ⟨hx, rfl⟩ := keep_done he
    exact ⟨_, _, _, _, H.quiet ht hg (sat_done (sysRead_res hW fd n) hx).1 (hp.2 r (sat_done (sysRead_len fd n c.w) hx)), fun _ _ => .inr rfl⟩
  | pread fd n off =>
    obtain ⟨hx, rfl⟩ := keep_done he
    have h1 := sat_done (sysPread_res hW fd n off) hx
    exact ⟨_, _, _, _, H.quiet ht hg h1 (hp.2 r (sat_done (sysPread_len fd n off c.w) hx)), fun _ _ => .inr rfl⟩
  | lseek fd off =>
    obtain ⟨hx, rfl⟩ := keep_done he
    have h1 := sat_done (sysLseek_res hW fd off) hx
    exact ⟨_, _, _, _, H.quiet ht hg h1 (hp.2 r), fun _ _ => .inr rfl⟩
  | write fd d =>
    obtain ⟨hx, rfl⟩ := keep_done he
    exact ⟨_, _, _, _, H.quiet ht hg (sat_done (sysWrite_res hW fd d) hx).1 (hp.2 r), fun _ _ => .inr rfl⟩
  | sync fd =>
    obtain ⟨hx, rfl⟩ := keep_done he
    have h1 := sat_done (sysSync_res hW fd) hx
    exact ⟨_, _, _, _, H.quiet ht hg h1 (hp.2 r), fun _ _ => .inr rfl⟩
  | other fd =>
    obtain ⟨hx, rfl⟩ := keep_done he
    have h1 := sat_done (sysOther_res hW) hx
    exact ⟨_, _, _, _, H.quiet ht hg h1 (hp.2 r), fun _ _ => .inr rfl⟩
  | readdir fd l =>
    obtain ⟨hx, rfl⟩ := keep_done he
    exact ⟨_, _, _, _, H.quiet ht hg (sat_done (sysReaddir_res hW l) hx).1 (hp.2 r), fun _ _ => .inr rfl⟩
  | stat p =>
    obtain ⟨hx, rfl⟩ := keep_done he
    have h1 := sat_done (sysStat_res hW p) hx
    exact ⟨_, _, _, _, H.quiet ht hg h1 (hp r), fun _ _ => .inr rfl⟩
  | access p =>
    obtain ⟨hx, rfl⟩ := keep_done he
    have h1 := sat_done (sysAccess_res hW p) hx
    exact ⟨_, _, _, _, H.quiet ht hg h1 (hp r), fun _ _ => .inr rfl⟩
  | unlink p =>
    obtain ⟨hx, rfl⟩ := keep_done he
    have h1 := sat_done (sysUnlink_res hW p) hx
    exact ⟨_, _, _, _, H.quiet ht hg h1 (hp r), fun _ _ => .inr rfl⟩
  | mkdir p =>
    obtain ⟨hx, rfl⟩ := keep_done he
    have h1 := sat_done (sysMkdir_res hW p) hx
    exact ⟨_, _, _, _, H.quiet ht hg h1 (hp r), fun _ _ => .inr rfl⟩
  | rmdir p =>
    obtain ⟨hx, rfl⟩ := keep_done he
    have h1 := sat_done (sysRmdir_res hW p) hx
    exact ⟨_, _, _, _, H.quiet ht hg h1 (hp r), fun _ _ => .inr rfl⟩
  | rename p q =>
    obtain ⟨hx, rfl⟩ := keep_done he
    have h1 := sat_done (sysRename_res hW p q) hx
    exact ⟨_, _, _, _, H.quiet ht hg h1 (hp r), fun _ _ => .inr rfl⟩
  | mmap fd n =>
    obtain ⟨hx, rfl⟩ := keep_done he
    rcases sat_done (sysMmap_res hW fd n) hx with ⟨e, rfl, h1⟩ | ⟨i, rfl, hi, h1⟩
    · exact ⟨_, _, _, _, H.quiet ht hg h1 (hp.2.1 e), fun _ _ => .inr rfl⟩
    · exact ⟨_, _, _, _, H.move (g' := g.addM i) (mo' := updO mo i (.thr t)) ht hg
        (h1.congr (fun _ => Iff.rfl) fun j => (updO_free mo i t j).symm) H.locks (H.F.same hg fun _ => Iff.rfl)
        (H.M.gain hg (Decidable.not_not.1 hi) fun b => List.mem_cons) (H.N.same hg fun _ => Iff.rfl)
        (hp.2.2 i (fresh_M H hg hi)) rfl fun l => (H.lim l).same hg rfl rfl, fun _ _ => .inr rfl⟩
  | munmap i =>
    obtain ⟨hx, rfl⟩ := keep_done he
    have hown : mo i ≠ .free := by
      rw [(H.M.thr t i).2 ⟨g, hg, hp.1⟩]; simp
    exact ⟨_, _, _, _, H.move (g' := g.delM i) (mo' := updO mo i .free) ht hg
        ((sat_done (sysMunmap_res hW i hown) hx).congr (fun _ => Iff.rfl) fun j => (updO_lost mo i j).symm)
        H.locks (H.F.same hg fun _ => Iff.rfl) (H.M.lose hg hp.1 fun b => mem_del) (H.N.same hg fun _ => Iff.rfl) (hp.2 r) rfl
        fun l => (H.lim l).same hg rfl rfl, fun _ _ => .inr rfl⟩
  | insert n =>
    have hx : Out.done ((lockInsert c.sh.locks n).1, { c.sh with locks := (lockInsert c.sh.locks n).2 }) c.w = .done (r, sh') w' := he
    injection hx with e1 e2
    injection e1 with e1 e3
    subst e2; subst e3; subst e1
    unfold lockInsert
    by_cases hn : n ∈ c.sh.locks
    · simp only [if_pos hn]
      exact ⟨_, _, _, _, H.quiet ht hg hW hp.2, fun _ _ => .inr rfl⟩
    · simp only [if_neg hn]
      have hfree : ¬ lo n ≠ .free := fun h => hn ((H.locks n).2 h)
      refine ⟨_, _, _, _, H.move (g' := g.addN n) (lo' := updO lo n (.thr t)) ht hg hW (fun m => ?_) (H.F.same hg fun _ => Iff.rfl)
        (H.M.same hg fun _ => Iff.rfl) (H.N.gain hg (Decidable.not_not.1 hfree) fun b => List.mem_cons)
        (hp.1 (fresh_N H hg hfree)) rfl fun l => ?_, fun _ _ => .inr rfl⟩
      · rw [updO_free, ← H.locks m]
        show m ∈ n :: c.sh.locks ↔ _
        rw [List.mem_cons]; exact or_comm
      · have := (H.lim l).same (g' := g.addN n) hg rfl rfl
        cases l <;> exact this
  | remove n =>
    have hx : Out.done ((), { c.sh with locks := lockRemove c.sh.locks n }) c.w = .done (r, sh') w' := he
    injection hx with e1 e2
    injection e1 with e1 e3
    subst e2; subst e3; subst e1
    refine ⟨_, _, _, _, H.move (g' := g.delN n) (lo' := updO lo n .free) ht hg hW (fun m => ?_) (H.F.same hg fun _ => Iff.rfl)
        (H.M.same hg fun _ => Iff.rfl) (H.N.lose hg hp.1 fun b => mem_del) hp.2 rfl fun l => ?_, fun _ _ => .inr rfl⟩
    · rw [updO_lost, ← H.locks m]
      exact mem_del
    · have := (H.lim l).same (g' := g.delN n) hg rfl rfl
      cases l <;> exact this
  | fetchSub l =>
    have hx : Out.done (c.sh.lim l, c.sh.setLim l (wrap32 (c.sh.lim l - 1))) c.w = .done (r, sh') w' := he
    injection hx with e1 e2
    injection e1 with e1 e3
    subst e2; subst e3; subst e1
    obtain ⟨⟨h0, h1⟩, hpos, hneg⟩ := hp
    by_cases hv : 0 < c.sh.lim l
    · have e1 : (g.addG l).grant l = g.grant l + 1 := upL_same _ _ _
      have e2 : (g.addG l).pend l = g.pend l := rfl
      exact ⟨_, _, _, _, H.limStep ht hg l (v := c.sh.lim l - 1) (g' := g.addG l) (Or.inr ⟨hv, e1⟩) (by omega)
        (by rw [e1, e2]; push_cast; omega) rfl rfl rfl rfl (fun l' hl => ⟨upL_ne _ hl _, rfl⟩) (hpos _ hv), fun _ _ => .inr rfl⟩
    · have e1 : (g.addP l).pend l = g.pend l + 1 := upL_same _ _ _
      have e2 : (g.addP l).grant l = g.grant l := rfl
      exact ⟨_, _, _, _, H.limStep ht hg l (v := c.sh.lim l - 1) (g' := g.addP l) (Or.inl (by omega)) (by omega)
        (by rw [e1, e2]; push_cast; omega) rfl rfl rfl rfl (fun l' hl => ⟨rfl, upL_ne _ hl _⟩) (hneg _ (by omega)), fun _ _ => .inr rfl⟩
  | fetchAdd l =>
    have hx : Out.done (c.sh.lim l, c.sh.setLim l (wrap32 (c.sh.lim l + 1))) c.w = .done (r, sh') w' := he
    injection hx with e1 e2
    injection e1 with e1 e3
    subst e2; subst e3; subst e1
    have hone : g.grant l + g.pend l ≤ 1 := (H.lim l).one g (List.mem_of_getElem? hg)
    rcases hp with ⟨h0, hp⟩ | ⟨h0, hp⟩
    · have e1 : (g.delP l).pend l = g.pend l - 1 := upL_same _ _ _
      have e2 : (g.delP l).grant l = g.grant l := rfl
      exact ⟨_, _, _, _, H.limStep ht hg l (v := c.sh.lim l + 1) (g' := g.delP l) (Or.inl (by omega)) (by omega)
        (by rw [e1, e2]; push_cast; omega) rfl rfl rfl rfl (fun l' hl => ⟨rfl, upL_ne _ hl _⟩) (hp _), fun _ _ => .inr rfl⟩
    · have e1 : (g.delG l).grant l = g.grant l - 1 := upL_same _ _ _
      have e2 : (g.delG l).pend l = g.pend l := rfl
      exact ⟨_, _, _, _, H.limStep ht hg l (v := c.sh.lim l + 1) (g' := g.delG l) (Or.inl (by omega)) (by omega)
        (by rw [e1, e2]; push_cast; omega) rfl rfl rfl rfl (fun l' hl => ⟨upL_ne _ hl _, rfl⟩) (hp _), fun _ _ => .inr rfl⟩

/-- Every step inside a call keeps the accounts. -/
theorem Inv.step (H : Inv ext extm L c fo mo lo gs) {t : Nat} {home : Home} {cmd : Cmd} {k : cmd.Resp → Prog Fin} {r : cmd.Resp}
    {sh' : Shared} {w' : World} (ht : c.th[t]? = some (.run home (.call cmd k)))
    (he : cmd.exec c.sh c.w = .done (r, sh') w') :
    ∃ fo' mo' lo' gs', Inv ext extm L { c with w := w', sh := sh', th := c.th.set t (.run home (k r)) } fo' mo' lo' gs' := by
  obtain ⟨fo', mo', lo', gs', H', _⟩ := H.stepF ht he
  exact ⟨fo', mo', lo', gs', H'⟩

end Conc
end Posix
end Lsmdb
