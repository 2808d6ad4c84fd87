import Verif.Proof.PosixFinal2
import Verif.Props.PosixPool

/-! A sync of a manifest that succeeds. -/

namespace Lsmdb
namespace Posix

open MemEnv (St lit)

namespace Conc

variable {P : Bytes → Prop} {v : Bytes → Option Nat} {d dd : Bytes} {di : Nat} {strerror : Strerror} {full : Bool} {c c' : Conf} {t h : Nat}

/-- For now the names mean `v`, and `d` is a directory; others leave that so. -/
structure Stable (P : Bytes → Prop) (v : Bytes → Option Nat) (d : Bytes) (di : Nat) (c : Conf) : Prop where
  names : ∀ p, P p → c.w.k.lookup p = v p
  dir : c.w.k.lookup d = some di ∧ ∃ n, c.w.k.inodes[di]? = some n ∧ n.dir = true
  others : ∀ x ∈ c.w.choices, LeavesNames (fun p => p = d ∨ P p) x

/-- A crash cannot give the names another meaning. -/
def Clean (P : Bytes → Prop) (v : Bytes → Option Nat) (k : Kernel) : Prop := ∀ p u, P p → (p, u) ∈ k.pend → u = v p

theorem Clean.step {e : Option Ev} (hS : Stable P v d di c) (h : Clean P v c.w.k) (hs : Step strerror full c e c') : Clean P v c'.w.k := by
  cases hs with
  | call => exact h
  | ret => rw [finish_w]; exact h
  | move t home cmd k r sh w ht hx =>
    intro p u hp hm
    rcases exec_touch (Q := fun _ => False) hx (by cases cmd <;> first | trivial | exact fun h => h | exact .inr fun h => h | exact ⟨fun h => h, fun h => h⟩)
      with hk | ⟨x, hxm, hT⟩
    · have hm : (p, u) ∈ w.k.pend := hm
      rw [hk] at hm
      exact h p u hp hm
    · have hx' := hS.others x hxm
      rcases hT.pend p u hm with hm | hm
      · exact h p u hp (hx'.pend _ p u (.inr hp) hm)
      · rw [hm, hx'.names _ p (.inr hp)]
        exact hS.names p hp

/-- The call will not return OK. -/
def Bad (p : Prog Fin) : Prop := Only (fun _ => True) (fun a => ∃ o st, a = .back o (.status st) ∧ st ≠ .ok) p

/-- What Sync does once it knows how the sync of the directory ended. -/
def afterDir (strerror : Strerror) (full : Bool) (fuel : Nat) (f : WFile) (status : St) : Prog Fin := do
  let (s, f) ← (if status ≠ .ok then return (status, f)
    else do
      let (status, f) ← FlushBuffer strerror fuel f
      if status ≠ .ok then return (status, f)
      else do
        let status ← SyncFd strerror full f.fd f.filename
        return (status, f))
  return .back (some (.wr f)) (.status s)

theorem afterDir_bad {fuel : Nat} {f : WFile} {s : St} (hs : s ≠ .ok) : Bad (afterDir strerror full fuel f s) := by
  unfold afterDir
  rw [if_pos hs]
  exact ⟨_, _, rfl, hs⟩

/-- The directory is open. -/
def dirOpen (strerror : Strerror) (full : Bool) (fuel : Nat) (f : WFile) (fd : Int) : Prog Fin := do
  let status ← SyncFd strerror full fd f.dirname
  let _ ← Cmd.go (.close fd)
  afterDir strerror full fuel f status

/-- About to sync the directory, for the first or the last time. -/
def AtSync (i : Nat) (p : Prog Fin) : Prop :=
  ∃ k, p = .call (.sync (i : Int)) k ∧ ∀ e, Bad (k (.error e)) ∨
    ∃ k', k (.error e) = .call (.sync (i : Int)) k' ∧ ∀ e', Bad (k' (.error e'))

theorem dirOpen_sync {fuel : Nat} {f : WFile} {i : Nat} : AtSync i (dirOpen strerror full fuel f i) := by
  have hb : ∀ e, Bad (do let _ ← Cmd.go (.close (i : Int)); afterDir strerror full fuel f (PosixError strerror f.dirname e)) := fun e =>
    ⟨trivial, fun _ => afterDir_bad (PosixError_ne_ok strerror f.dirname e)⟩
  cases full with
  | true => exact ⟨_, rfl, fun e => .inr ⟨_, rfl, fun e' => hb e'⟩⟩
  | false => exact ⟨_, rfl, fun e => .inl (hb e)⟩

theorem bind_assoc {α β γ : Type} (p : Prog α) (f : α → Prog β) (g : β → Prog γ) : (p.bind f).bind g = p.bind fun a => (f a).bind g := by
  induction p with
  | ret a => rfl
  | call cmd k ih => exact congrArg (Prog.call cmd) (funext fun r => ih r)
  | fault e => rfl
  | spin => rfl

/-- The call that syncs the manifest. -/
def Syncing (strerror : Strerror) (full : Bool) (h : Nat) (dd : Bytes) (P : Bytes → Prop) (v : Bytes → Option Nat) (di : Nat) (p : Prog Fin)
    (c : Conf) : Prop :=
  (∃ fuel f, p = body strerror full fuel (.write h .sync) (some (.wr f)) ∧ labelOf (.wr f) = some (dd, true)) ∨
  (∃ i q, AtSync i p ∧ c.w.k.ofd (i : Int) = some q ∧ q.ino = di) ∨ Bad p ∨ Clean P v c.w.k

theorem body_sync {fuel : Nat} {f : WFile} (hm : f.is_manifest = true) : body strerror full fuel (.write h .sync) (some (.wr f)) =
    .call (.open .rdonly f.dirname) fun r => match (r : Except Errno Int) with
      | .error e => afterDir strerror full fuel f (PosixError strerror f.dirname e)
      | .ok fd => dirOpen strerror full fuel f fd := by
  obtain ⟨a, b, e, g, m, n⟩ := f
  dsimp only at hm
  subst hm
  refine congrArg (Prog.call _) (funext fun r => ?_)
  revert r
  show ∀ r : Except Errno Int, _
  intro r
  cases r with
  | error e => rfl
  | ok fd =>
    show Prog.bind (Prog.bind (Prog.bind (SyncFd strerror full fd n) _) _) _ = Prog.bind (SyncFd strerror full fd n) _
    rw [bind_assoc, bind_assoc]
    rfl

/-- The sync of the directory. -/
theorem sync_done {i : Nat} {w w' : World} {r : Except Errno Unit} {q : Ofd} (hx : sysSync (i : Int) w = .done r w')
    (ho : ∀ x ∈ w.choices, LeavesNames (fun p => p = d ∨ P p) x) (hn : ∀ p, P p → w.k.lookup p = v p ∧ parentDir p = d)
    (hd : w.k.lookup d = some di ∧ ∃ n, w.k.inodes[di]? = some n ∧ n.dir = true) (hq : w.k.ofd (i : Int) = some q) (hi : q.ino = di) :
    (∃ e, r = .error e) ∧ w'.k.ofd (i : Int) = some q ∨ Clean P v w'.k := by
  obtain ⟨x, hm, hf, -⟩ := sys_done2 hx
  have hx := ho x hm
  have hq' : (x.other w.k).ofd (i : Int) = some q := by
    unfold Kernel.ofd at hq ⊢
    rw [(hx.fds w.k).1]
    exact hq
  obtain ⟨hd1, n, hd2, hd3⟩ := hd
  obtain ⟨n', h1, h2⟩ := hx.dirs _ _ n hd2 hd3
  cases hfail : x.fail with
  | some e =>
    simp only [hfail] at hf
    obtain ⟨e1, e2⟩ := Prod.mk.inj hf
    exact .inl ⟨⟨e, e1.symm⟩, by rw [← e2]; exact hq'⟩
  | none =>
    subst hi
    simp only [hfail, ksync, Kernel.inodeOf, hq', Option.map_some, h1, h2, if_true] at hf
    right
    obtain ⟨-, e2⟩ := Prod.mk.inj hf
    intro p u hp hpm
    rw [← e2] at hpm
    have := (List.mem_filter.1 hpm).2
    rw [decide_eq_true_eq, (hn p hp).2, hx.names _ d (.inl rfl)] at this
    exact (this hd1).elim

theorem syncing_along {w : World} {L1 L2 : Int} {m : Nat} (hs : Setting w L1 L2 m) {I : Conf → Prop} (hI : ∀ c, I c → Stable P v d di c)
    (hre : ∀ c, I c → ∃ es, Run strerror full (Conf.init w L1 L2 m) es c) (hP : ∀ p, P p → parentDir p = d) (hdd : cstr dd = d) :
    Along strerror full I t (.own h) (Syncing strerror full h dd P v di) := by
  refine ⟨?_, ?_⟩
  · rintro c c' e p hIc hp ht hstep hsame
    rcases hp with h1 | ⟨i, q, h1, h2, h3⟩ | h1 | h1
    · exact .inl h1
    · refine .inr (.inl ⟨i, q, h1, ?_, h3⟩)
      cases hstep with
      | call => exact h2
      | ret => rw [finish_w]; exact h2
      | move u home cmd k r sh w' hu hx =>
        obtain ⟨es, hr⟩ := hre c hIc
        obtain ⟨fo, mo, lo, gs, H⟩ := hs.inv hr
        obtain ⟨g, hg⟩ := H.ghost ht
        have hrun := H.run t (.own h) p g ht hg
        have hF : i ∈ g.F := by
          obtain ⟨k, rfl, -⟩ := h1
          obtain ⟨hok, -⟩ := hrun
          rcases hok with hlt | ⟨j, e, hj⟩
          · omega
          · rw [Int.ofNat.inj e]; exact hj
        have hown : fo i = .thr t := (H.F.thr t i).2 ⟨g, hg, hF⟩
        by_cases hne : u = t
        · subst hne
          exfalso
          have e1 := get_some_eq hu ht
          have e2 : c.th[u]? = some (.run home (k r)) := by
            rw [← hsame]
            simp only
            rw [List.getElem?_set_self (List.getElem?_eq_some_iff.1 hu).1]
          have e3 := get_some_eq hu e2
          injection e3 with _ e3
          exact prog_ne _ _ r rfl e3.symm
        · have := H.stays hu hx (i := i) (fun x hxm k => ((hI c hIc).others x hxm).fds k) (by rw [hown]; simp)
            (by rw [hown]; exact fun e => hne (Owner.thr.inj e).symm)
          simp only
          rw [this]
          exact h2
    · exact .inr (.inr (.inl h1))
    · exact .inr (.inr (.inr (h1.step (hI c hIc) hstep)))
  · rintro c cmd k r sh w' hIc hp ht hx
    have hS := hI c hIc
    rcases hp with ⟨fuel, f, h1, h2⟩ | ⟨i, q, ⟨k1, h1, hk⟩, h2, h3⟩ | h1 | h1
    · have h2 : some (f.dirname, f.is_manifest) = _ := h2
      obtain ⟨e1, e2⟩ := Prod.mk.inj (Option.some.inj h2)
      rw [body_sync e2] at h1
      injection h1 with h1 h1'
      subst h1
      cases h1'
      obtain ⟨hsy, -⟩ := keep_done hx
      rcases open_found hsy with ⟨e, rfl⟩ | ⟨i, ino, rfl, h3, -, h4⟩
      · exact .inr (.inr (.inl (afterDir_bad (PosixError_ne_ok strerror _ e))))
      · refine .inr (.inl ⟨i, _, dirOpen_sync, h4, ?_⟩)
        show ino = di
        rw [e1, hdd] at h3
        rcases exec_touch (Q := fun p => p = d ∨ P p) hx (.inl rfl) with hk | ⟨x, hm, hT⟩
        · rw [hk, hS.dir.1] at h3
          exact (Option.some.inj h3).symm
        · rw [hT.names d (.inl rfl), (hS.others x hm).names _ d (.inl rfl), hS.dir.1] at h3
          exact (Option.some.inj h3).symm
    · injection h1 with h1 h1'
      subst h1
      cases h1'
      obtain ⟨hsy, -⟩ := keep_done hx
      rcases sync_done hsy hS.others (fun p hp => ⟨hS.names p hp, hP p hp⟩) hS.dir h2 h3 with ⟨⟨e, rfl⟩, ho⟩ | hc
      · rcases hk e with hb | ⟨k', hk', hb⟩
        · exact .inr (.inr (.inl hb))
        · exact .inr (.inl ⟨i, q, ⟨k', hk', fun e' => .inl (hb e')⟩, ho, h3⟩)
      · exact .inr (.inr (.inr hc))
    · exact .inr (.inr (.inl (h1.2 r)))
    · exact .inr (.inr (.inr (h1.step (strerror := strerror) (full := full) hS (Step.move c t (.own h) cmd k r sh w' ht hx))))

/-- A sync of a manifest returns OK: the names in its directory are final. -/
theorem synced_final {w : World} {L1 L2 : Int} {m : Nat} (hs : Setting w L1 L2 m) {I : Conf → Prop} {R : POp → Prop} (hI : ∀ c, I c → Stable P v d di c)
    (hre : ∀ c, I c → ∃ es, Run strerror full (Conf.init w L1 L2 m) es c) (hl : ∀ c, I c → Labelled h (some (dd, true)) c)
    (hP : ∀ p, P p → parentDir p = d) (hdd : cstr dd = d)
    (hIs : ∀ {c c' : Conf} {e : Option Ev}, I c → Step strerror full c e c' → (∀ t op, e = some (.call t op) → R op) → I c')
    (hR : R (.write h .sync)) {c0 c1 : Conf} {ds : List Ev} (h0 : I c0) (hc : CallIn strerror full t (.write h .sync) (.status .ok) c0 ds c1)
    (he : ∀ t op, Ev.call t op ∈ ds → R op) : I c1 ∧ Clean P v c1.w.k := by
  obtain ⟨c3, a, hI3, ht, hPh, hI1, e1, e2⟩ := (syncing_along hs hI hre hP hdd).call (op := .write h .sync) hc hIs h0 he hR (fun {c} fuel hIc ha => by
    obtain ⟨-, f, hf⟩ := ha
    refine .inl ⟨fuel, f, ?_, (hl c hIc).obj _ hf⟩
    have : c.objOf (.write h .sync) = some (.wr f) := by
      show (c.objs[h]?).join = _
      rw [hf]
      rfl
    rw [this])
  refine ⟨hI1, ?_⟩
  rcases hPh with ⟨fuel, f, h1, h2⟩ | ⟨i, q, ⟨k, h1, -⟩, -⟩ | ⟨o, st, h1, h2⟩ | h1
  · have h2 : some (f.dirname, f.is_manifest) = _ := h2
    rw [body_sync (Prod.mk.inj (Option.some.inj h2)).2] at h1
    exact nomatch h1
  · exact nomatch h1
  · subst h1
    have e2 : PRes.status .ok = .status st := e2
    injection e2 with e2
    exact (h2 e2.symm).elim
  · rw [e1, finish_w]
    exact h1

theorem Clean.final {k : Kernel} (h : Clean P v k) (hn : ∀ p, P p → k.lookup p = v p) {p : Bytes} (hp : P p) {u : Option Nat}
    (hu : k.NameAfterCrash p u) : u = v p := by
  rcases hu with hu | hu
  · rw [hu]; exact hn p hp
  · exact h p u hp hu

/-! ## Opening a manifest -/

/-- The call that opens a file for writing. -/
def Opening (strerror : Strerror) (name : Bytes) (l : Option (Bytes × Bool)) (p : Prog Fin) : Prop :=
  (∃ m, p = newWFile strerror m name) ∨ (∃ st, p = .ret (.failed st)) ∨ (∃ f, p = .ret (.new (.wr f)) ∧ labelOf (.wr f) = l) ∨ ∃ e, p = .fault e

theorem opening_along {name : Bytes} {dir : Bytes} {b : Bool} (hd : Dirname name = .ok dir) (hm : IsManifest name = .ok b) :
    Along strerror full (fun _ => True) t .none fun p _ => Opening strerror name (some (dir, b)) p := by
  refine ⟨fun _ hp _ _ _ => hp, ?_⟩
  rintro c cmd k r sh w' - hp ht hx
  rcases hp with ⟨m, h⟩ | ⟨st, h⟩ | ⟨f, h, -⟩ | ⟨e, h⟩
  · injection h with h1 h2
    subst h1
    cases h2
    revert r
    show ∀ r : Except Errno Int, _
    intro r hx
    cases r with
    | error e => exact .inr (.inl ⟨_, rfl⟩)
    | ok fd =>
      refine .inr (.inr (.inl ⟨⟨fun _ => none, 0, fd, b, name, dir⟩, ?_, rfl⟩))
      show Prog.bind (Prog.ofM (WFile.new name fd)) _ = _
      have : WFile.new name fd = .ok ⟨fun _ => none, 0, fd, b, name, dir⟩ := by
        unfold WFile.new
        rw [hd, hm]
        rfl
      rw [this]
      rfl
  · exact nomatch h
  · exact nomatch h
  · exact nomatch h

/-- An object that has just been opened. -/
theorem opened_label {w : World} {L1 L2 : Int} {m : Nat} (hs : Setting w L1 L2 m) {es0 : List Ev} {c0 c1 : Conf}
    (h0 : Run strerror full (Conf.init w L1 L2 m) es0 c0) {name dir : Bytes} {b : Bool} (hd : Dirname name = .ok dir) (hm : IsManifest name = .ok b)
    {op : POp} (hop : Opens name op) {ds : List Ev} (hc : CallIn strerror full t op (.opened .ok (some h)) c0 ds c1) :
    Labelled h (some (dir, b)) c1 := by
  have hh : homeOf op = .none := by rcases hop with rfl | rfl <;> rfl
  obtain ⟨esc, hrc, -⟩ := hc.events
  obtain ⟨c3, a, -, ht, hPh, -, e1, e2⟩ := Along.call (R := fun _ => True) (by rw [hh]; exact opening_along (t := t) (full := full) hd hm) hc
    (fun _ _ _ => trivial) trivial (fun _ _ _ => trivial) trivial (fun fuel _ _ => by
      rcases hop with rfl | rfl
      · exact .inl ⟨.trunc, rfl⟩
      · exact .inl ⟨.append, rfl⟩)
  rcases hPh with ⟨m, h1⟩ | ⟨st, h1⟩ | ⟨f, h1, h2⟩ | ⟨e, h1⟩
  · exact nomatch h1
  · cases h1
    exact nomatch e2
  · cases h1
    have e2 : PRes.opened .ok (some h) = .opened .ok (some c3.objs.length) := e2
    injection e2 with _ e2
    injection e2 with e2
    subst e2
    have ho : c1.objs[c3.objs.length]? = some (some (.wr f)) := by
      rw [e1]
      show (c3.objs ++ [_])[c3.objs.length]? = _
      simp
    refine ⟨fun o hq => ?_, fun u p hu => ?_, (List.getElem?_eq_some_iff.1 ho).1⟩
    · rw [ho] at hq
      cases hq
      exact h2
    · obtain ⟨fo, mo, lo, gs, H⟩ := hs.inv (run_append h0 hrc)
      have := H.own u _ p hu
      rw [ho] at this
      exact nomatch this
  · exact nomatch h1

end Conc
end Posix
end Lsmdb
