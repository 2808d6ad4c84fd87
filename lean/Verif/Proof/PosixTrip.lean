import Verif.Proof.PosixLoad2

/-! From a file that one object writes to a file that everybody reads; asking for the size. -/

namespace Lsmdb
namespace Posix

open MemEnv (St lit)

namespace Conc

open Prog

variable {name D : Bytes} {ino t0 : Nat} {ext extm : Nat → Prop} {L : Lim → Int} {c c' : Conf} {fo mo : Nat → Owner} {lo : Bytes → Owner}
variable {gs : List Ghost} {strerror : Strerror} {full : Bool}

theorem kwrite_dir {k : Kernel} {n : Inode} (hn : k.inodes[ino]? = some n) (fd : Int) (d : Bytes) (m : Nat) :
    ∃ n', (kwrite fd d m k).2.inodes[ino]? = some n' ∧ n'.dir = n.dir := by
  unfold kwrite
  cases ho : k.ofd fd with
  | none => exact ⟨n, hn, rfl⟩
  | some o =>
    dsimp only
    by_cases hw : o.wr = true
    · rw [if_pos hw]
      cases h1 : k.inodes[o.ino]? with
      | none => exact ⟨n, hn, rfl⟩
      | some b =>
        dsimp only
        by_cases he : o.ino = ino
        · rw [he, hn] at h1
          injection h1 with h1
          subst h1
          rw [he, List.getElem?_set_self (List.getElem?_eq_some_iff.1 hn).1]
          exact ⟨_, rfl, rfl⟩
        · rw [List.getElem?_set_ne he]
          exact ⟨n, hn, rfl⟩
    · rw [if_neg hw]
      exact ⟨n, hn, rfl⟩

theorem ksync_dir {k : Kernel} {n : Inode} (hn : k.inodes[ino]? = some n) (fd : Int) :
    ∃ n', (ksync fd k).2.inodes[ino]? = some n' ∧ n'.dir = n.dir := by
  unfold ksync Kernel.inodeOf
  cases ho : k.ofd fd with
  | none => exact ⟨n, hn, rfl⟩
  | some o =>
    simp only [Option.map_some]
    cases h1 : k.inodes[o.ino]? with
    | none => exact ⟨n, hn, rfl⟩
    | some b =>
      dsimp only
      by_cases hd : b.dir = true
      · rw [if_pos hd]
        exact ⟨n, hn, rfl⟩
      · rw [if_neg hd]
        dsimp only
        by_cases he : o.ino = ino
        · rw [he, hn] at h1
          injection h1 with h1
          subst h1
          rw [he, List.getElem?_set_self (List.getElem?_eq_some_iff.1 hn).1]
          exact ⟨_, rfl, rfl⟩
        · rw [List.getElem?_set_ne he]
          exact ⟨n, hn, rfl⟩

/-- A regular file stays one. -/
theorem exec_dir {cmd : Cmd} {sh sh' : Shared} {w w' : World} {r : cmd.Resp} (he : cmd.exec sh w = .done (r, sh') w')
    (hc : Cmd.elsewhere false (cstr name) cmd) (hx : ∀ x ∈ w.choices, Respects name ino x) (hn : OnlyName w.k name ino)
    {n : Inode} (hi : w.k.inodes[ino]? = some n) : ∃ n', w'.k.inodes[ino]? = some n' ∧ n'.dir = n.dir := by
  by_cases ha : Cmd.alters cmd = none
  · have h1 : Unmoved false (w.k.inodes[ino]?) (w'.k.inodes[ino]?) := (exec_apart he hc hx hn ⟨n, hi⟩).same fun fd q h => by
      rw [ha] at h; exact nomatch h
    have h1 : w'.k.inodes[ino]? = w.k.inodes[ino]? := h1
    exact ⟨n, h1.trans hi, rfl⟩
  · cases cmd with
    | write fd d =>
      obtain ⟨he, -⟩ := keep_done he
      obtain ⟨x, hm, hk⟩ := sys_done he
      have h1 := ((hx x hm w.k).1 n hi).1
      rw [hk]
      cases hf : x.fail with
      | some e => exact ⟨n, h1, rfl⟩
      | none => exact kwrite_dir h1 fd d x.count
    | sync fd =>
      obtain ⟨he, -⟩ := keep_done he
      obtain ⟨x, hm, hk⟩ := sys_done he
      have h1 := ((hx x hm w.k).1 n hi).1
      rw [hk]
      cases hf : x.fail with
      | some e => exact ⟨n, h1, rfl⟩
      | none => exact ksync_dir h1 fd
    | _ => exact (ha rfl).elim

theorem elsewhere_mono {cmd : Cmd} {p : Bytes} (h : Cmd.elsewhere false p cmd) : Cmd.elsewhere true p cmd := by
  cases cmd with
  | «open» m q => exact h.imp id fun h => nomatch h.1
  | opendir q => exact h.imp id fun h => nomatch h
  | _ => exact h

theorem fine_mono {P Q : Cmd → Prop} (h : ∀ x, P x → Q x) {o : Obj} (ho : Fine P o) : Fine Q o := by
  cases o with
  | rand f => exact fun hp => h _ (ho hp)
  | wr f => exact h _ ho
  | _ => trivial

theorem fineEnd_mono {P Q : Cmd → Prop} (h : ∀ x, P x → Q x) {a : Fin} (ha : FineEnd P a) : FineEnd Q a := by
  cases a with
  | new o => exact fine_mono h ha
  | back o r =>
    cases o with
    | none => trivial
    | some o => exact fine_mono h ha

theorem only_mono {α : Type} {P Q : Cmd → Prop} {A B : α → Prop} (h : ∀ x, P x → Q x) (hA : ∀ a, A a → B a) {p : Prog α}
    (hp : Only P A p) : Only Q B p := by
  induction p with
  | ret a => exact hA a hp
  | call c k ih => exact ⟨h _ hp.1, fun r => ih r (hp.2 r)⟩
  | fault => trivial
  | spin => trivial

/-- One object writes the file, and no call on it is running that has the descriptor: then nobody has, if the object has not. -/
theorem Held.released {h : Nat} {o : Obj} (H : Inv ext extm L c fo mo lo gs) (hH : Held false name ino Nobody (OfObjs (· = h) c) c fo)
    (ho : c.has h o) (hno : ∀ i, ¬ o.ownsFd i) (hf : RegularFile c.w.k ino D) : Steady ext extm L name ino D c := by
  refine ⟨fo, mo, lo, gs, H, ⟨hH.names, hH.node, fun i q hq hg => ?_, fun h o ho => fine_mono (fun _ => elsewhere_mono) (hH.objs h o ho),
    fun t home p hX ht => only_mono (fun _ => elsewhere_mono) (fun _ => fineEnd_mono fun _ => elsewhere_mono) (hH.progs t home p hX ht), hH.choices⟩, hf⟩
  obtain ⟨h1, h', rfl, h2 | ⟨t, p, -, ht⟩⟩ := hH.fds i q hq ⟨hg.1, nofun⟩
  · obtain ⟨o', ho', hi⟩ := (H.F.obj h' i).1 h2
    have e := get_some_eq ho' ho
    injection e with e
    subst e
    exact (hno i hi).elim
  · have e := get_some_eq (H.own t h' p ht) ho
    exact nomatch e

/-- A file that one object writes stays a regular file. -/
theorem Held.dir {h : Nat} {c0 : Conf} {es : List Ev} (hr : Run strerror full c0 es c)
    (he : ∀ t op, Ev.call t op ∈ es → Elsewhere name op)
    (H0 : ∃ fo mo lo gs, Inv ext extm L c0 fo mo lo gs ∧ Held false name ino Nobody (OfObjs (· = h) c0) c0 fo)
    (hd : ∃ n, c0.w.k.inodes[ino]? = some n ∧ n.dir = false) :
    (∃ fo mo lo gs, Inv ext extm L c fo mo lo gs ∧ Held false name ino Nobody (OfObjs (· = h) c) c fo) ∧
      ∃ n, c.w.k.inodes[ino]? = some n ∧ n.dir = false := by
  induction hr with
  | nil => exact ⟨H0, hd⟩
  | step hr hs ih =>
    obtain ⟨⟨fo, mo, lo, gs, H, hH⟩, n, hn, hnd⟩ := ih fun t op hm => he t op (List.mem_append_left _ hm)
    obtain ⟨fo', mo', lo', gs', H', hH', -⟩ := hH.step H hs fun t op e =>
      .inl (he t op (List.mem_append_right _ (by rw [e]; exact List.mem_singleton_self _)))
    refine ⟨⟨fo', mo', lo', gs', H', hH'⟩, ?_⟩
    cases hs with
    | call => exact ⟨n, hn, hnd⟩
    | ret t home a ht => rw [finish_w]; exact ⟨n, hn, hnd⟩
    | move t home cmd k r sh w ht hx =>
      obtain ⟨n', h1, h2⟩ := exec_dir hx (hH.progs t home _ (fun h => h) ht).1 hH.choices hH.names hn
      exact ⟨n', h1, h2.trans hnd⟩

/-! ## Asking for the size -/

/-- A call that asks for the size: it has not asked, or has the answer. -/
def Asking (name : Bytes) (len : Nat) (p : Prog Fin) : Prop :=
  (∃ k, p = .call (.stat name) k ∧ (∀ e, ∃ st, st ≠ .ok ∧ k (.error e) = .ret (.ans (.size st 0))) ∧ ∀ n, k (.ok n) = .ret (.ans (.size .ok n))) ∨
  ∃ st n, p = .ret (.ans (.size st n)) ∧ (st = .ok → n = len) ∧ (st ≠ .ok → n = 0)

theorem asking_body (strerror : Strerror) (full : Bool) (fuel : Nat) (o : Option Obj) :
    Asking name D.length (body strerror full fuel (.getFileSize name) o) := by
  refine .inl ⟨_, rfl, fun e => ⟨PosixError strerror name e, PosixError_ne_ok _ _ _, rfl⟩, fun n => rfl⟩

/-- What `stat` says of the file. -/
theorem stat_len {w w' : World} {sh sh' : Shared} {r : Except Errno Nat} (hx : (Cmd.stat name).exec sh w = .done (r, sh') w')
    (hc : ∀ x ∈ w.choices, Respects name ino x) (hn : OnlyName w.k name ino) (hf : RegularFile w.k ino D) : ∀ n, r = .ok n → n = D.length := by
  intro n' hr
  obtain ⟨hs, -⟩ := keep_done hx
  obtain ⟨x, hxm, hf', -⟩ := sys_done2 hs
  obtain ⟨h1, h2, h3⟩ := hc x hxm w.k
  obtain ⟨n, hn', hd, hD⟩ := hf
  obtain ⟨h4, h5⟩ := h1 n hn'
  rw [hr] at hf'
  cases hfail : x.fail with
  | some e => simp only [hfail] at hf'; exact nomatch (Prod.mk.inj hf').1
  | none =>
    simp only [hfail, (h5 hn _).2 rfl] at hf'
    have := (Prod.mk.inj hf').1
    injection this with this
    rw [← this]
    unfold Kernel.data
    rw [h4]
    exact congrArg List.length hD

theorem Steady.ask {e : Option Ev} (hS : Steady ext extm L name ino D c) (hs : Step strerror full c e c')
    (he : ∀ t op, e = some (.call t op) → Elsewhere name op ∨ LooksOnly op) (hb : ∀ r, e ≠ some (.ret t0 r))
    (hp : ∃ p, c.th[t0]? = some (.run .none p) ∧ Asking name D.length p) :
    Steady ext extm L name ino D c' ∧ ∃ p, c'.th[t0]? = some (.run .none p) ∧ Asking name D.length p := by
  refine ⟨(hS.step hs he).1, ?_⟩
  obtain ⟨fo, mo, lo, gs, H, hH, hf⟩ := hS
  obtain ⟨p, hp, hA⟩ := hp
  cases hs with
  | call t op fuel ht ha =>
    have hne : t0 ≠ t := by rintro rfl; rw [ht] at hp; exact nomatch hp
    exact ⟨p, by rw [begin_th_ne hne]; exact hp, hA⟩
  | ret t home a ht =>
    have hne : t ≠ t0 := by rintro rfl; exact hb _ rfl
    exact ⟨p, by rw [finish_th, List.getElem?_set_ne hne]; exact hp, hA⟩
  | move t home cmd k r sh w ht hx =>
    by_cases hne : t = t0
    · subst hne
      have e := get_some_eq ht hp
      injection e with e1 e2
      subst e1 e2
      refine ⟨k r, by simp only; rw [List.getElem?_set_self (List.getElem?_eq_some_iff.1 ht).1], ?_⟩
      rcases hA with ⟨k', e, h1, h2⟩ | ⟨st, n, e, -⟩
      · injection e with e1 e2
        subst e1
        cases e2
        have h3 := stat_len hx hH.choices hH.names hf
        revert r
        show ∀ r : Except Errno Nat, _
        intro r hx h3
        cases r with
        | error e =>
          obtain ⟨st, g1, g2⟩ := h1 e
          exact .inr ⟨st, 0, g2, fun e => (g1 e).elim, fun _ => rfl⟩
        | ok n => exact .inr ⟨.ok, n, h2 n, fun _ => h3 n rfl, fun e => (e rfl).elim⟩
      · exact nomatch e
    · exact ⟨p, by simp only; rw [List.getElem?_set_ne hne]; exact hp, hA⟩

end Conc
end Posix
end Lsmdb
