import Verif.Proof.PosixLoad1

/-! A call that opens a file for reading, step by step, while other threads do other things. -/

namespace Lsmdb
namespace Posix

open MemEnv (St lit)

namespace Conc

open Prog

variable {sq : Bool} {name D : Bytes} {ino t0 : Nat} {ext extm : Nat → Prop} {L : Lim → Int} {c c' : Conf} {fo mo : Nat → Owner} {lo : Bytes → Owner}
variable {gs : List Ghost} {strerror : Strerror} {full : Bool}

/-- What the call has of the file so far. -/
structure Got (k : Kernel) (ino : Nat) (D : Bytes) (F M : Option Nat) : Prop where
  fd : ∀ i, F = some i → ∃ q, k.ofd (i : Int) = some q ∧ q.ino = ino ∧ q.rd = true ∧ q.off = 0
  map : ∀ m, M = some m → k.maps[m]? = some (some (ino, D.length))

/-- A call that opens the file is running. -/
structure Loading (sq : Bool) (name : Bytes) (ino : Nat) (D : Bytes) (t0 : Nat) (c : Conf) (fo : Nat → Owner) : Prop where
  held : Held true name ino Nobody (OfObjs (fun _ => False) c) c fo
  file : RegularFile c.w.k ino D
  call : ∃ p, c.th[t0]? = some (.run .none p) ∧ (p ≠ .spin → ∃ F M, Leads sq name D.length p F M ∧ Got c.w.k ino D F M)

theorem SameData.regular' {k k' : Kernel} (h : SameData (k.inodes[ino]?) (k'.inodes[ino]?)) (hf : RegularFile k ino D) : RegularFile k' ino D := by
  obtain ⟨n, h1, h2, h3⟩ := hf
  obtain ⟨n', h4, h5, h6, -⟩ := h n h1
  exact ⟨n', h4, h5.trans h2, h6.trans h3⟩

/-- `open` shows what the name means, from the beginning. -/
theorem open_start {w w' : World} {r : Except Errno Int} (hx : sysOpen .rdonly name w = .done r w') (hn : w'.k.lookup (cstr name) = some ino) :
    (∃ e, r = .error e) ∨ ∃ i : Nat, r = .ok (i : Int) ∧ cstr name ≠ [] ∧ w'.k.ofd (i : Int) = some (Mode.rdonly.ofd ino) := by
  unfold sysOpen sys at hx
  cases hc : w.choices with
  | nil => rw [hc] at hx; exact nomatch hx
  | cons x xs =>
    rw [hc] at hx
    injection hx with h1 h2
    subst h1 h2
    generalize x.other w.k = k at hn
    cases hf : x.fail with
    | some e => exact .inl ⟨e, by simp only [hf]⟩
    | none =>
      simp only [hf, kopen] at hn ⊢
      by_cases h0 : cstr name = []
      · simp only [h0, if_true]; exact .inl ⟨_, rfl⟩
      · rw [if_neg h0] at hn ⊢
        cases hl : k.lookup (cstr name) with
        | none => simp only [Mode.creat, Bool.false_eq_true, if_false]; exact .inl ⟨_, rfl⟩
        | some i =>
          simp only [hl] at hn ⊢
          cases hq : k.inodes[i]? with
          | none => exact .inl ⟨_, rfl⟩
          | some q =>
            simp only [hq, ne_eq, not_true_eq_false, and_false, if_false, reduceCtorEq] at hn ⊢
            have hi : i = ino := by
              have : k.lookup (cstr name) = some ino := hn
              rw [hl] at this
              exact Option.some.inj this
            refine .inr ⟨_, rfl, h0, ?_⟩
            unfold Kernel.ofd
            rw [if_neg (by omega)]
            simp [putFd_get_same, hi]

theorem keeps_ofd {k k' : Kernel} (h : k'.fds = k.fds) (fd : Int) : k'.ofd fd = k.ofd fd := by
  unfold Kernel.ofd; rw [h]

/-- The call makes a step. -/
theorem Loading.own {cmd : Cmd} {k : cmd.Resp → Prog Fin} {r : cmd.Resp} {sh : Shared} {w : World} {F M : Option Nat}
    (hl : leads name D.length cmd (fun r F M => Leads sq name D.length (k r) F M) F M) (hG : Got c.w.k ino D F M)
    (hc : ∀ x ∈ c.w.choices, Respects name ino x) (hx : cmd.exec c.sh c.w = .done (r, sh) w)
    (hnm : OnlyName c.w.k name ino) (hreg : RegularFile c.w.k ino D) (hnm' : OnlyName w.k name ino) :
    ∃ F' M', Leads sq name D.length (k r) F' M' ∧ Got w.k ino D F' M' := by
  have maps : (∀ m, cmd ≠ .munmap m) → ∀ m, M = some m → w.k.maps[m]? = some (some (ino, D.length)) := fun hn m hm =>
    exec_map (hn m) (fun x hm k => (hc x hm k).2.2) (hG.map m hm) hx
  cases cmd with
  | «open» m p =>
    obtain ⟨⟨rfl, rfl, rfl⟩, he, ho⟩ := hl
    obtain ⟨hs, -⟩ := keep_done hx
    rcases open_start hs ((hnm' _).2 rfl) with ⟨e, rfl⟩ | ⟨i, rfl, h0, hi⟩
    · exact ⟨none, M, he e, nofun, maps nofun⟩
    · refine ⟨some i, M, ho i h0, fun j hj => ?_, maps nofun⟩
      cases hj
      exact ⟨_, hi, rfl, rfl, rfl⟩
  | close fd => exact ⟨none, M, hl r, nofun, maps nofun⟩
  | stat p =>
    obtain ⟨rfl, he, ho⟩ := hl
    obtain ⟨hs, -⟩ := keep_done hx
    obtain ⟨x, hxm, hf, -⟩ := sys_done2 hs
    obtain ⟨h1, h2, h3⟩ := hc x hxm c.w.k
    obtain ⟨n, hn, hd, hD⟩ := hreg
    obtain ⟨h4, h5⟩ := h1 n hn
    have hfds : w.k.fds = c.w.k.fds := by
      rw [← h2]
      cases hfail : x.fail with
      | some e => simp only [hfail] at hf; rw [← (Prod.mk.inj hf).2]
      | none =>
        simp only [hfail, (h5 hnm _).2 rfl] at hf
        rw [← (Prod.mk.inj hf).2]
    have hfd : ∀ i, F = some i → ∃ q, w.k.ofd (i : Int) = some q ∧ q.ino = ino ∧ q.rd = true ∧ q.off = 0 := by
      intro i hi
      rw [keeps_ofd hfds]
      exact hG.fd i hi
    cases r with
    | error e => exact ⟨F, M, he e, hfd, maps nofun⟩
    | ok n' =>
      have : n' = D.length := by
        cases hfail : x.fail with
        | some e => simp only [hfail] at hf; exact nomatch (Prod.mk.inj hf).1
        | none =>
          simp only [hfail, (h5 hnm _).2 rfl] at hf
          have := (Prod.mk.inj hf).1
          injection this with this
          rw [← this]
          unfold Kernel.data
          rw [h4]
          exact congrArg List.length hD
      subst this
      exact ⟨F, M, ho, hfd, maps nofun⟩
  | mmap fd n =>
    obtain ⟨⟨i, rfl, rfl, rfl⟩, he, ho⟩ := hl
    obtain ⟨hs, -⟩ := keep_done hx
    obtain ⟨x, hxm, hf, -⟩ := sys_done2 hs
    obtain ⟨h1, h2, h3⟩ := hc x hxm c.w.k
    obtain ⟨q, hq, hqi, hq2⟩ := hG.fd i rfl
    have hq' : (x.other c.w.k).ofd (i : Int) = some q := by rw [keeps_ofd h2]; exact hq
    have hio : (x.other c.w.k).inodeOf (i : Int) = some ino := by
      unfold Kernel.inodeOf
      rw [hq']
      exact congrArg some hqi
    have hboth : w.k.fds = c.w.k.fds ∧ ∀ m, r = .ok m → w.k.maps[m]? = some (some (ino, D.length)) := by
      cases hfail : x.fail with
      | some e =>
        simp only [hfail] at hf
        have := Prod.mk.inj hf
        exact ⟨by rw [← this.2]; exact h2, fun m hm => by rw [hm] at this; exact nomatch this.1⟩
      | none =>
        simp only [hfail] at hf
        by_cases h0 : D.length = 0
        · simp only [if_pos h0] at hf
          have := Prod.mk.inj hf
          exact ⟨by rw [← this.2]; exact h2, fun m hm => by rw [hm] at this; exact nomatch this.1⟩
        · simp only [if_neg h0, hio] at hf
          have := Prod.mk.inj hf
          refine ⟨by rw [← this.2]; exact h2, fun m hm => ?_⟩
          rw [hm] at this
          have h4 := this.1
          injection h4 with h4
          rw [← this.2, ← h4]
          simp
    have hfd : ∀ j, some i = some j → ∃ q, w.k.ofd (j : Int) = some q ∧ q.ino = ino ∧ q.rd = true ∧ q.off = 0 := by
      intro j hj
      cases hj
      rw [keeps_ofd hboth.1]
      exact hG.fd i rfl
    cases r with
    | error e => exact ⟨_, M, he e, hfd, maps nofun⟩
    | ok m => exact ⟨_, _, ho m, hfd, fun m' hm' => by cases hm'; exact hboth.2 m rfl⟩
  | fetchSub l =>
    injection hx with _ hx
    subst hx
    exact ⟨F, M, hl r, hG⟩
  | fetchAdd l =>
    injection hx with _ hx
    subst hx
    exact ⟨F, M, hl r, hG⟩
  | _ => exact hl.elim

/-- Any step while the call runs. -/
theorem Loading.step {e : Option Ev} (H : Inv ext extm L c fo mo lo gs) (hC : Loading sq name ino D t0 c fo) (hs : Step strerror full c e c')
    (hb : ∀ r, e ≠ some (.ret t0 r)) (he : ∀ t op, e = some (.call t op) → Elsewhere name op ∨ LooksOnly op) :
    ∃ fo' mo' lo' gs', Inv ext extm L c' fo' mo' lo' gs' ∧ Loading sq name ino D t0 c' fo' := by
  obtain ⟨fo', mo', lo', gs', H', hH', hsame⟩ := hC.held.step H hs fun t op h => (he t op h).imp id fun h => ⟨rfl, h⟩
  refine ⟨fo', mo', lo', gs', H', hH', ?_, ?_⟩
  · rcases hsame with h | ⟨_, h, _⟩
    · exact SameData.regular' h hC.file
    · exact h.elim
  · obtain ⟨p, hp, hlead⟩ := hC.call
    have hxs := hC.held.choices
    cases hs with
    | call t op fuel ht ha =>
      have hne : t0 ≠ t := by rintro rfl; rw [ht] at hp; exact nomatch hp
      exact ⟨p, by rw [begin_th_ne hne]; exact hp, hlead⟩
    | ret t home a ht =>
      have hne : t ≠ t0 := by rintro rfl; exact hb _ rfl
      exact ⟨p, by rw [finish_th, List.getElem?_set_ne hne]; exact hp, by rw [finish_w]; exact hlead⟩
    | move t home cmd k r sh w ht hx =>
      by_cases hne : t = t0
      · subst hne
        have e := get_some_eq ht hp
        injection e with e1 e2
        subst e1 e2
        refine ⟨k r, by simp only; rw [List.getElem?_set_self (List.getElem?_eq_some_iff.1 ht).1], fun _ => ?_⟩
        obtain ⟨F, M, hL, hG⟩ := hlead nofun
        exact Loading.own hL.2 hG hxs hx hC.held.names hC.file hH'.names
      · refine ⟨p, by simp only; rw [List.getElem?_set_ne hne]; exact hp, fun hsp => ?_⟩
        obtain ⟨F, M, hL, hG⟩ := hlead hsp
        obtain ⟨g, hg⟩ := H.ghost hp
        have hrun := H.run t0 .none p g hp hg
        refine ⟨F, M, hL, fun i hi => ?_, fun m hm => ?_⟩
        · have hown : fo i = .thr t0 := (H.F.thr t0 i).2 ⟨g, hg, hL.needF hi hrun hsp⟩
          have := H.stays ht hx (i := i) (fun x hxm k => (hxs x hxm k).2) (by rw [hown]; simp)
            (by rw [hown]; exact fun e => hne (Owner.thr.inj e).symm)
          simp only
          rw [this]
          exact hG.fd i hi
        · refine exec_map ?_ (fun x hxm k => (hxs x hxm k).2.2) (hG.map m hm) hx
          rintro rfl
          have hown : mo m = .thr t0 := (H.M.thr t0 m).2 ⟨g, hg, hL.needM hm hrun hsp⟩
          rw [H.unmaps ht] at hown
          exact hne (Owner.thr.inj hown)

/-- The call, up to any moment before it returns. -/
theorem Loading.all {c0 : Conf} {es : List Ev} (hr : Run strerror full c0 es c) (hb : NotBack t0 es)
    (he : ∀ t op, Ev.call t op ∈ es → Elsewhere name op ∨ LooksOnly op)
    (h : ∃ fo mo lo gs, Inv ext extm L c0 fo mo lo gs ∧ Loading sq name ino D t0 c0 fo) :
    ∃ fo mo lo gs, Inv ext extm L c fo mo lo gs ∧ Loading sq name ino D t0 c fo := by
  induction hr with
  | nil => exact h
  | step hr hs ih =>
    obtain ⟨fo, mo, lo, gs, H, hC⟩ := ih (fun r hm => hb r (List.mem_append_left _ hm)) (fun t op hm => he t op (List.mem_append_left _ hm))
    exact hC.step H hs (fun r e => hb r (List.mem_append_right _ (by rw [e]; exact List.mem_singleton_self _)))
      fun t op e => he t op (List.mem_append_right _ (by rw [e]; exact List.mem_singleton_self _))

/-- The file is kept: nobody writes to it. -/
def Steady (ext extm : Nat → Prop) (L : Lim → Int) (name : Bytes) (ino : Nat) (D : Bytes) (c : Conf) : Prop :=
  ∃ fo mo lo gs, Inv ext extm L c fo mo lo gs ∧ Held true name ino Nobody (OfObjs (fun _ => False) c) c fo ∧ RegularFile c.w.k ino D

theorem Steady.step {e : Option Ev} (hS : Steady ext extm L name ino D c) (hs : Step strerror full c e c')
    (he : ∀ t op, e = some (.call t op) → Elsewhere name op ∨ LooksOnly op) :
    Steady ext extm L name ino D c' ∧ SameData (c.w.k.inodes[ino]?) (c'.w.k.inodes[ino]?) := by
  obtain ⟨fo, mo, lo, gs, H, hH, hf⟩ := hS
  obtain ⟨fo', mo', lo', gs', H', hH', hsame⟩ := hH.step H hs fun t op h => (he t op h).imp id fun h => ⟨rfl, h⟩
  rcases hsame with h | ⟨_, h, _⟩
  · exact ⟨⟨fo', mo', lo', gs', H', hH', SameData.regular' h hf⟩, h⟩
  · exact h.elim

theorem Steady.all {c0 : Conf} {es : List Ev} (hr : Run strerror full c0 es c)
    (he : ∀ t op, Ev.call t op ∈ es → Elsewhere name op ∨ LooksOnly op) (h : Steady ext extm L name ino D c0) :
    Steady ext extm L name ino D c := by
  induction hr with
  | nil => exact h
  | step hr hs ih =>
    exact ((ih fun t op hm => he t op (List.mem_append_left _ hm)).step hs
      fun t op e => he t op (List.mem_append_right _ (by rw [e]; exact List.mem_singleton_self _))).1

/-- The call begins. -/
theorem Loading.start {op : POp} {e : Option Ev} (h : Steady ext extm L name ino D c) (hs : Step strerror full c e c')
    (hse : e = some (.call t0 op)) (hop : op = if sq = true then .newSequential name else .newRandomAccess name) :
    ∃ fo mo lo gs, Inv ext extm L c' fo mo lo gs ∧ Loading sq name ino D t0 c' fo := by
  obtain ⟨⟨fo, mo, lo, gs, H, hH, hf⟩, -⟩ := h.step hs fun t op' h => by
    rw [hse] at h
    cases h
    subst hop
    cases sq <;> exact .inr trivial
  refine ⟨fo, mo, lo, gs, H, hH, hf, ?_⟩
  cases hs with
  | move => exact nomatch hse
  | ret => exact nomatch hse
  | call t op' fuel ht ha =>
    cases hse
    have := begin_th (strerror := strerror) (full := full) (fuel := fuel) (op := op) ht
    subst hop
    cases sq with
    | true => exact ⟨_, this, fun _ => ⟨none, none, leads_seq strerror, nofun, nofun⟩⟩
    | false => exact ⟨_, this, fun _ => ⟨none, none, leads_random strerror, nofun, nofun⟩⟩

/-- The call returns. -/
theorem Loading.ret {e : Option Ev} {h : Nat} (H : Inv ext extm L c fo mo lo gs) (hC : Loading sq name ino D t0 c fo) (hs : Step strerror full c e c')
    (hse : e = some (.ret t0 (.opened .ok (some h)))) :
    Steady ext extm L name ino D c' ∧ ∃ o F M, c'.has h o ∧ LeadsTo sq name D.length F M o ∧ Got c'.w.k ino D F M := by
  have hS : Steady ext extm L name ino D c := ⟨fo, mo, lo, gs, H, hC.held, hC.file⟩
  refine ⟨(hS.step hs fun t op h => by rw [hse] at h; exact nomatch h).1, ?_⟩
  cases hs with
  | move => exact nomatch hse
  | call => exact nomatch hse
  | ret t home a ht =>
    injection hse with hse
    injection hse with h1 h2
    subst h1
    obtain ⟨p, hp, hl⟩ := hC.call
    have e := get_some_eq ht hp
    injection e with e1 e2
    subst e1 e2
    obtain ⟨F, M, hL, hG⟩ := hl nofun
    cases a with
    | new o =>
      have h2 : PRes.opened .ok (some c.objs.length) = .opened .ok (some h) := h2
      injection h2 with _ h2
      injection h2 with h2
      refine ⟨o, F, M, ?_, hL.2, by rw [finish_w]; exact hG⟩
      subst h2
      show (c.objs ++ [some o])[c.objs.length]? = _
      simp
    | back o r => exact (hL.2 _ _ h2).elim

end Conc
end Posix
end Lsmdb
