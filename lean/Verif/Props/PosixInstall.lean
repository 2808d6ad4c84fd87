import Verif.Proof.PosixInstall2
import Verif.Props.PosixPool

/-!
# Replacing a file in a program with many threads, and crashes (C101)
-/

namespace Lsmdb
namespace Posix
namespace Conc

open MemEnv (St lit)
open Iface (CrashReads)

variable {strerror : Strerror} {full : Bool} {t t' h h' : Nat} {name : Bytes}
variable {N : Bytes → Prop} {S : Nat → Option Bytes} {T : Bytes → Prop} {tmp target : Bytes} {old new : Nat} {D0 D left : Bytes}

theorem Pool.firm {c : Conf} (hx : Pool N S c) (hT : ∀ p, T p → N p ∧ c.w.k.lookup p ≠ none) (hd : OnDisk S c.w.k) (hn : NamesAfter N T S c.w.k)
    (ho : ∀ x ∈ c.w.choices, ∀ k, NamesOf N S k → FilesOf S k → ∀ p, T p → k.lookup p ≠ none → (x.other k).lookup p ≠ none)
    (hl : ∀ x ∈ c.w.choices, LeavesAfter N T S x) : Firm N N T S c := by
  have hp := hx.peace hT ho
  exact ⟨fun _ h => h, hp, ⟨hd, pends_of hn⟩, fun x hm => ⟨hp.choices x hm, hl x hm⟩⟩

/-- C101: files that are on disk are renamed over each other, removed and read by many threads (as in C99).  Whenever the machine stops: each
of the names is then the name of one of the files, with all of its contents, or of nothing. -/
theorem C101_pool {c0 : Conf} (hx : Pool N S c0) (hd : OnDisk S c0.w.k) (hn : NamesAfter N (fun _ => False) S c0.w.k)
    (hl : ∀ x ∈ c0.w.choices, LeavesAfter N (fun _ => False) S x) {es : List Ev} {c : Conf} (hr : Run strerror full c0 es c) (he : Orderly N es)
    (hN : N (cstr name)) {b : Option Bytes} (hb : CrashReads c.w.k name b) : b = none ∨ ∃ i D, b = some D ∧ S i = some D := by
  have hf := Firm.all hr he.obeys (hx.firm (fun _ h => h.elim) hd hn (fun _ _ _ _ _ _ h => h.elim) hl)
  exact (hf.reads hN hb).imp (fun h => h.1) id

/-- C101: and a name that exists, and that nobody takes away, is the name of one of the files. -/
theorem C101_pool_stays {c0 : Conf} (hx : Pool N S c0) (hd : OnDisk S c0.w.k) (hn : NamesAfter N (· = cstr name) S c0.w.k)
    (hl : ∀ x ∈ c0.w.choices, LeavesAfter N (· = cstr name) S x) {es : List Ev} {c : Conf} (hr : Run strerror full c0 es c) (he : Orderly N es)
    (hN : N (cstr name)) (hex : c0.w.k.lookup (cstr name) ≠ none) (hst : Stays N S name c0 es) {b : Option Bytes} (hb : CrashReads c.w.k name b) :
    ∃ i D, b = some D ∧ S i = some D := by
  have hf := Firm.all hr (hst.obeys he) (hx.firm (by rintro p rfl; exact ⟨hN, hex⟩) hd hn (by
    rintro x hm k h1 h2 p rfl h3
    exact hst.others x hm k h1 h2 h3) hl)
  rcases hf.reads hN hb with h | h
  · exact (h.2 rfl).elim
  · exact h

/-! ## Replacing a file -/

theorem One.eq {i : Nat} {E : Bytes} (h : One old D0 i = some E) : i = old ∧ E = D0 := by
  unfold One at h
  split at h
  · injection h with h
    exact ⟨by assumption, h.symm⟩
  · exact nomatch h

/-- The target at the beginning. -/
theorem Installing.firm {c : Conf} (hx : Installing c tmp target old D0 left) :
    Firm (· = cstr target) (· = cstr target) (· = cstr target) (One old D0) c := by
  have hself : One old D0 old = some D0 := by unfold One; rw [if_pos rfl]
  refine ⟨fun _ h => h, ⟨⟨?_, ?_, ?_, ?_⟩, fun t home p ht => (hx.file.quiet t ⟨home, p, ht⟩).elim, fun x hm => (hx.others x hm).spares1.1⟩,
    ⟨?_, ?_⟩, fun x hm => (hx.others x hm).spares1⟩
  · intro p i hp
    constructor
    · rintro rfl
      have := (hx.file.names (cstr target)).2 rfl
      rw [this] at hp
      injection hp with hp
      subst hp
      exact ⟨D0, hself⟩
    · rintro ⟨E, hE⟩
      obtain ⟨rfl, -⟩ := One.eq hE
      exact (hx.file.names p).1 hp
  · intro i E hE
    obtain ⟨rfl, rfl⟩ := One.eq hE
    exact hx.file.file
  · rintro i q hq ⟨E, hE⟩
    obtain ⟨e, -⟩ := One.eq hE
    have := ofd_nat hq
    rw [← this] at hq
    exact hx.file.fds _ q hq e
  · rintro p rfl
    exact ⟨rfl, by rw [(hx.file.names (cstr target)).2 rfl]; exact nofun⟩
  · intro i E hE b hb
    obtain ⟨rfl, rfl⟩ := One.eq hE
    exact hx.disk b hb
  · rintro p v rfl hv
    exact .inr ⟨old, D0, hx.name v (.inr hv), hself⟩

theorem obeys_target {op : POp} (h : Elsewhere target op ∨ LooksOnly op) : Obeys (· = cstr target) (· = cstr target) op := by
  have key : Elsewhere target op → Obeys (· = cstr target) (· = cstr target) op := by
    intro h
    cases op with
    | newWritable n => exact ⟨(h n (by simp [pathsIn])).1, fun _ _ => trivial⟩
    | newAppendable n => exact ⟨(h n (by simp [pathsIn])).1, fun _ _ => trivial⟩
    | newLogger n => exact ⟨(h n (by simp [pathsIn])).1, fun _ _ => trivial⟩
    | lockFile n => exact ⟨(h n (by simp [pathsIn])).1, fun _ _ => trivial⟩
    | createDir n => exact ⟨(h n (by simp [pathsIn])).1, fun _ _ => trivial⟩
    | removeFile n => exact ⟨trivial, fun a ha e => (h n (by simp [pathsIn])).1 (e.trans ha)⟩
    | renameFile a b =>
      have ha := (h a (by simp [pathsIn])).1
      have hb := (h b (by simp [pathsIn])).1
      exact ⟨⟨fun e => (ha e).elim, fun e => (hb e).elim⟩, fun n hn e => ha (e.trans hn)⟩
    | _ => exact ⟨trivial, fun _ _ => trivial⟩
  rcases h with h | h
  · exact key h
  · cases op <;> first | exact ⟨trivial, fun _ _ => trivial⟩ | exact h.elim

/-- C101: a file that nobody writes is on disk, with its name.  Many threads do whatever they want elsewhere - among other things they write
what is to replace it - and read it.  Whenever the machine stops, it reads as before. -/
theorem C101_before {c0 : Conf} (hx : Installing c0 tmp target old D0 left) {es : List Ev} {c : Conf} (hr : Run strerror full c0 es c)
    (he : ∀ t op, Ev.call t op ∈ es → Elsewhere target op ∨ LooksOnly op) {b : Option Bytes} (hb : CrashReads c.w.k target b) : b = some D0 := by
  have hf := Firm.all hr (fun t op hm => obeys_target (he t op hm)) hx.firm
  rcases hf.reads rfl hb with h | ⟨i, E, h1, h2⟩
  · exact (h.2 rfl).elim
  · rw [h1, (One.eq h2).2]

/-- A file that is synced and then closed, without an error: a crash leaves just what was appended. -/
theorem synced_closed {f f1 : WFile} {ino : Nat} {base : Bytes} {w w1 : World} {ops : List WOp} {ss : List St} (ho : Opened name f ino base w)
    (hv : ValidOps ops) (hc : WOp.close ∉ ops) (hr : f.run strerror full (ops ++ [.sync, .close]) w = .done (ss, f1) w1) (hok : AllOk ss) :
    ∀ b, CouldBe w1.k ino b → b = base ++ appended ops := by
  obtain ⟨ss0, ts, fb, wb, hr1, hr2, rfl⟩ := run_split (a := ops ++ [.sync]) (b := [.close]) (by simpa using hr)
  obtain ⟨ss1, us, fa, wa, h1, h2, rfl⟩ := run_split hr1
  obtain ⟨s, h2s, rfl⟩ := run_single h2
  obtain ⟨s', h3, rfl⟩ := run_single hr2
  obtain ⟨p, b, e1, e2, e3, e4⟩ := ho.run strerror full hv hc h1 (fun s hs => hok s (by simp [hs]))
  have hs : s = .ok := hok s (by simp)
  have hvs : ∀ o, o = WOp.sync ∨ o = WOp.close → ValidOps [o] := by
    rintro o (rfl | rfl) d hd <;> (rw [List.mem_singleton] at hd; exact nomatch hd)
  obtain ⟨q, b', a1, a2, a3, a4, a5, a6, a7, a8⟩ := (step_open strerror full .sync (hvs _ (.inl rfl)) e3 e2).done h2s
  have hb' : b' = [] := a6 hs (.inr (.inl rfl))
  have := a5 hs
  rw [show opBytes _ = [] from rfl, hb', List.append_nil, List.append_nil] at this
  subst this
  have hD : base ++ p ++ q = base ++ appended ops := by rw [List.append_assoc, e1]
  have hin := a7 hs rfl
  have hfa := (a4 (by simp)).1
  rw [hD] at hin hfa
  have hopen : FileAt ino fb.fd (base ++ appended ops) (fun _ => False) wb := by
    obtain ⟨ha, o, n, b1, b2, b3, b4, b5, b6, b7, _⟩ := hfa
    obtain ⟨_, n', c1, c2, c3, c4⟩ := hin
    exact ⟨ha, o, n', b1, b2, b3, b4, c1, c2, c3, c4⟩
  rw [hb'] at a2
  obtain ⟨p2, b2, g1, -, g2, -⟩ := (step_open strerror full .close (hvs _ (.inr rfl)) hopen a2).done h3
  have hp2 : p2 = [] := by
    rw [show opBytes _ = [] from rfl, List.append_nil] at g1
    exact List.prefix_nil.1 g1
  subst hp2
  intro x hx
  rcases g2.ino.couldBe hx with e | e | e
  · rw [e, List.append_nil]
  · exact e.elim
  · rw [List.append_nil] at e
    exact (e.1.eq_of_length_le e.2.length_le).symm

theorem run_choices {c c' : Conf} {es : List Ev} (hr : Run strerror full c es c') : ∀ x ∈ c'.w.choices, x ∈ c.w.choices := by
  induction hr with
  | nil => exact fun _ h => h
  | step hr hs ih =>
    cases hs with
    | call => exact ih
    | ret => rw [finish_w]; exact ih
    | move t home cmd k r sh w ht hx => exact fun x hm => ih x (exec_choices hx x hm)

/-- A new file has been written, synced and closed. -/
theorem Ready.written {w : World} {L1 L2 : Int} {n : Nat} (hs : Setting w L1 L2 n) {es0 : List Ev} {c0 : Conf}
    (h0 : Run strerror full (Conf.init w L1 L2 n) es0 c0) (hx : Ready c0 tmp left) {ds : List Ev} {c1 : Conf}
    (hc : CallIn strerror full t (.newWritable tmp) (.opened .ok (some h)) c0 ds c1) {es : List Ev} {c : Conf} (hr : Run strerror full c1 es c)
    (he : ∀ u op, Ev.call u op ∈ ds ++ es → Elsewhere tmp op) {ws : List WOp}
    (hw : callsOn h es = (ws ++ [WOp.sync, WOp.close]).map (.write h)) (hcl : WOp.close ∉ ws)
    (hall : (answersOn h es).length = ws.length + 2) (hok : ∀ r ∈ answersOn h es, r = .status .ok) :
    ∃ es1 ext extm L ino, Run strerror full (Conf.init w L1 L2 n) es1 c ∧ RegularFile c.w.k ino (appended ws) ∧
      Steady ext extm L tmp ino (appended ws) c ∧ ∀ b, CouldBe c.w.k ino b → b = appended ws := by
  obtain ⟨es1, ext, extm, L, f, ino, h1, h2, h3, h4, -, -⟩ := created hs h0 hx .writable hc fun u op hm => he u op (List.mem_append_left _ hm)
  have he2 : ∀ u op, Ev.call u op ∈ es → Elsewhere tmp op := fun u op hm => he u op (List.mem_append_right _ hm)
  obtain ⟨h6, -⟩ := careful_of_held h2 hr he2
  have hw' : callsOn h es = ((ws ++ [WOp.sync]) ++ [WOp.close]).map (.write h) := by rw [hw]; simp
  have hcont := C93_flushed hs h1 h3 h4 h6 hw' (by simpa using hcl) (.inr (.inr rfl)) (by simpa using hall) hok
  have happ : appended (ws ++ [WOp.sync]) = appended ws := by simp [appended_append, appended]
  rw [happ, List.nil_append] at hcont
  obtain ⟨⟨fo, mo, lo, gs, H, hH⟩, nd, hnd, hdir⟩ := Held.dir hr he2 h2 (by
    obtain ⟨o, n, -, -, -, -, g1, g2, -⟩ := h4.file
    exact ⟨n, g1, g2⟩)
  have hreg : RegularFile c.w.k ino (appended ws) := by
    refine ⟨nd, hnd, hdir, ?_⟩
    unfold Contents at hcont
    rw [hnd] at hcont
    exact Option.some.inj hcont
  have hrun := run_append h1 hr
  refine ⟨_, ext, extm, L, ino, hrun, hreg, ?_⟩
  obtain ⟨cs, hopen, g | g⟩ := C93_writable hs h1 h3 h4 h6 hw' (by simpa using hcl)
  · obtain ⟨ss, f', w', hrun, hans, hhas, hino⟩ := g
    constructor
    · obtain ⟨ss1, ts, f1, w1, -, g2, -⟩ := run_split hrun
      obtain ⟨s, g3, -⟩ := run_single g2
      have hfd := close_fd g3
      refine hH.released H hhas (fun i hi => ?_) hreg
      have hi : f'.fd = i := hi
      omega
    · have hv : ValidOps ws := fun d hd => valid_calls h6 h d (by rw [hw, List.map_append]; exact List.mem_append_left _ (List.mem_map_of_mem hd))
      intro b hb
      rw [couldBe_of hino] at hb
      exact synced_closed hopen hv hcl (by simpa using hrun) (allOk_of hans hok) b hb
  · obtain ⟨ops, op, ss, f1, w1, w', e, hrun, hans, -, -⟩ := g
    obtain ⟨rfl, -⟩ := List.append_inj' e rfl
    rw [hans, List.length_map, run_length hrun] at hall
    simp at hall

/-- The temporary file has been written, synced and closed: everything that is known then. -/
theorem Installing.written {w : World} {L1 L2 : Int} {n : Nat} (hs : Setting w L1 L2 n) {es0 : List Ev} {c0 : Conf}
    (h0 : Run strerror full (Conf.init w L1 L2 n) es0 c0) (hx : Installing c0 tmp target old D0 left) {ds : List Ev} {c1 : Conf}
    (hc : CallIn strerror full t (.newWritable tmp) (.opened .ok (some h)) c0 ds c1) {es : List Ev} {c : Conf} (hr : Run strerror full c1 es c)
    (he : Aside tmp target (ds ++ es)) {ws : List WOp}
    (hw : callsOn h es = (ws ++ [WOp.sync, WOp.close]).map (.write h)) (hcl : WOp.close ∉ ws)
    (hall : (answersOn h es).length = ws.length + 2) (hok : ∀ r ∈ answersOn h es, r = .status .ok) :
    ∃ es1 new, Run strerror full (Conf.init w L1 L2 n) es1 c ∧ old ≠ new ∧ Before tmp target old new c.w.k ∧
      (∀ x ∈ c.w.choices, Bystander tmp target x) ∧
      Firm (Two tmp target) (· = cstr target) (· = cstr target) (OldNew old new D0 (appended ws)) c := by
  obtain ⟨es1, ext, extm, L, ino, hrun, hreg, ⟨fo, mo, lo, gs, H, hH, -⟩, hdisk⟩ := hx.ready.written hs h0 hc hr (fun u op hm => (he u op hm).1) hw hcl hall hok
  -- the target
  obtain ⟨esc, hrc, hec⟩ := hc.events
  have hoth : ∀ x ∈ c.w.choices, Bystander tmp target x := fun x hm => hx.others x (run_choices hrc x (run_choices hr x hm))
  have hF := Firm.all hr (fun u op hm => obeys_target (he u op (List.mem_append_right _ hm)).2)
    (Firm.all hrc (fun u op hm => by
      rcases hec u op hm with rfl | hm
      · exact ⟨hx.differ, fun _ _ => trivial⟩
      · exact obeys_target (he u op (List.mem_append_left _ hm)).2) hx.firm)
  have hself : One old D0 old = some D0 := by unfold One; rw [if_pos rfl]
  have htar : c.w.k.lookup (cstr target) = some old := by
    obtain ⟨-, hl⟩ := hF.peace.lasts.found _ rfl
    cases hl' : c.w.k.lookup (cstr target) with
    | none => exact (hl hl').elim
    | some i =>
      obtain ⟨E, hE⟩ := (hF.peace.lasts.names _ _ hl').1 rfl
      rw [(One.eq hE).1]
  have hon : old ≠ ino := by
    rintro rfl
    exact hx.differ ((hH.names _).1 htar).symm
  have hold : OldNew old ino D0 (appended ws) old = some D0 := by unfold OldNew; rw [if_pos rfl]
  have hnew : OldNew old ino D0 (appended ws) ino = some (appended ws) := by unfold OldNew; rw [if_neg (Ne.symm hon), if_pos rfl]
  have hcases : ∀ {i E}, OldNew old ino D0 (appended ws) i = some E → (i = old ∧ E = D0) ∨ (i = ino ∧ E = appended ws) := by
    intro i E hE
    unfold OldNew at hE
    split at hE
    · injection hE with hE; exact .inl ⟨by assumption, hE.symm⟩
    · split at hE
      · injection hE with hE; exact .inr ⟨by assumption, hE.symm⟩
      · exact nomatch hE
  refine ⟨_, ino, hrun, hon, ?_, hoth, ⟨fun _ h => .inr h, ⟨⟨?_, ?_, ?_, ?_⟩, ?_, fun x hm => (hoth x hm).spares⟩, ⟨?_, ?_⟩, fun x hm => (hoth x hm).mindful⟩⟩
  · intro i hi
    rw [(hH.names _).2 rfl] at hi
    injection hi with hi
    exact ⟨hi.symm, htar⟩
  · intro p i hp
    constructor
    · rintro (rfl | rfl)
      · rw [(hH.names _).2 rfl] at hp
        injection hp with hp
        subst hp
        exact ⟨_, hnew⟩
      · rw [htar] at hp
        injection hp with hp
        subst hp
        exact ⟨_, hold⟩
    · rintro ⟨E, hE⟩
      rcases hcases hE with ⟨rfl, -⟩ | ⟨rfl, -⟩
      · exact .inr ((hF.peace.lasts.names p _ hp).2 ⟨D0, hself⟩)
      · exact .inl ((hH.names p).1 hp)
  · intro i E hE
    rcases hcases hE with ⟨rfl, rfl⟩ | ⟨rfl, rfl⟩
    · exact hF.peace.lasts.files _ _ hself
    · exact hreg
  · rintro i q hq ⟨E, hE⟩
    rcases hcases hE with ⟨e, -⟩ | ⟨e, -⟩
    · exact hF.peace.lasts.fds i q hq ⟨D0, by rw [e]; exact hself⟩
    · cases hwr : q.wr with
      | false => rfl
      | true =>
        have := ofd_nat hq
        rw [← this] at hq
        obtain ⟨-, h', hno, -⟩ := hH.fds _ q hq ⟨e, fun _ => hwr⟩
        exact hno.elim
  · rintro p rfl
    exact ⟨.inr rfl, by rw [htar]; exact nofun⟩
  · intro u home p hu
    exact only_mono (fun _ h => pooled_two h.1 h.2) (fun a h => by
      cases a with
      | new o => exact pooled_fine o
      | back o r =>
        cases o with
        | none => trivial
        | some o => exact pooled_fine o) (only_and (hH.progs u home p (fun h => h) hu) (hF.peace.progs u home p hu))
  · intro i E hE b hb
    rcases hcases hE with ⟨rfl, rfl⟩ | ⟨rfl, rfl⟩
    · exact hF.hard.disk _ _ hself b hb
    · exact hdisk b hb
  · rintro p v rfl hv
    rcases hF.hard.pend _ v rfl hv with h | ⟨i, E, e1, e2⟩
    · exact (h.2 rfl).elim
    · exact .inr ⟨i, D0, e1, by rw [(One.eq e2).1]; exact hold⟩

theorem Afterwards.obeys {es : List Ev} (he : Afterwards tmp target es) : ∀ t op, Ev.call t op ∈ es → Obeys (Two tmp target) (· = cstr target) op := by
  intro t op hm
  obtain ⟨h1, h2⟩ := he t op hm
  refine ⟨h1, fun n hn => ?_⟩
  cases op with
  | removeFile a => exact fun e => h2 (e.trans hn)
  | renameFile a b => exact fun e => h2 (e.trans hn)
  | _ => trivial

theorem oldNew_cases {i : Nat} {E : Bytes} (hE : OldNew old new D0 D i = some E) : E = D0 ∨ E = D := by
  unfold OldNew at hE
  split at hE
  · injection hE with hE; exact .inl hE.symm
  · split at hE
    · injection hE with hE; exact .inr hE.symm
    · exact nomatch hE

/-- C101: the usual way to replace a file, in a program with many threads.  The target is a file that nobody writes, on disk, with its name.
A thread creates the temporary file, which nobody uses; threads append to it, sync it and close it; every call on it returns OK, while the
others read the target and do whatever they want elsewhere.  From then on threads rename the temporary file to the target (or rename it
elsewhere within the rules, or remove it), read both, and do whatever they want elsewhere; in any interleaving, whatever fails.  Whenever the
machine stops, the target then has the old contents or the new contents: it is never missing, and never something else. -/
theorem C101_crash {w : World} {L1 L2 : Int} {n : Nat} (hs : Setting w L1 L2 n) {es0 : List Ev} {c0 : Conf}
    (h0 : Run strerror full (Conf.init w L1 L2 n) es0 c0) (hx : Installing c0 tmp target old D0 left) {ds : List Ev} {c1 : Conf}
    (hc : CallIn strerror full t (.newWritable tmp) (.opened .ok (some h)) c0 ds c1) {es : List Ev} {c : Conf} (hr : Run strerror full c1 es c)
    (he : Aside tmp target (ds ++ es)) {ws : List WOp}
    (hw : callsOn h es = (ws ++ [WOp.sync, WOp.close]).map (.write h)) (hcl : WOp.close ∉ ws)
    (hall : (answersOn h es).length = ws.length + 2) (hok : ∀ r ∈ answersOn h es, r = .status .ok)
    {es' : List Ev} {c' : Conf} (hr' : Run strerror full c es' c') (he' : Afterwards tmp target es') {b : Option Bytes}
    (hb : CrashReads c'.w.k target b) : b = some D0 ∨ b = some (appended ws) := by
  obtain ⟨es1, new, h1, -, -, -, hF⟩ := hx.written hs h0 hc hr he hw hcl hall hok
  rcases (Firm.all hr' he'.obeys hF).reads rfl hb with h | ⟨i, E, e1, e2⟩
  · exact (h.2 rfl).elim
  · rw [e1]
    exact (oldNew_cases e2).imp (congrArg some) (congrArg some)

/-- C101: and as long as the machine does not stop: a thread that opens the target as a sequential file, before, during or after the rename,
reads the old contents or the new contents, from the beginning to the end. -/
theorem C101_reads {w : World} {L1 L2 : Int} {n : Nat} (hs : Setting w L1 L2 n) {es0 : List Ev} {c0 : Conf}
    (h0 : Run strerror full (Conf.init w L1 L2 n) es0 c0) (hx : Installing c0 tmp target old D0 left) {ds : List Ev} {c1 : Conf}
    (hc : CallIn strerror full t (.newWritable tmp) (.opened .ok (some h)) c0 ds c1) {es : List Ev} {c : Conf} (hr : Run strerror full c1 es c)
    (he : Aside tmp target (ds ++ es)) {ws : List WOp}
    (hw : callsOn h es = (ws ++ [WOp.sync, WOp.close]).map (.write h)) (hcl : WOp.close ∉ ws)
    (hall : (answersOn h es).length = ws.length + 2) (hok : ∀ r ∈ answersOn h es, r = .status .ok)
    {ds' es' : List Ev} {c2 c3 : Conf} (hc' : CallIn strerror full t' (.newSequential target) (.opened .ok (some h')) c ds' c2)
    (hr' : Run strerror full c2 es' c3) (he' : Afterwards tmp target (ds' ++ es')) {ops : List SOp} (hq : callsOn h' es' = ops.map (callOf h'))
    (hn : ∀ n, SOp.skip n ∈ ops → n < 2 ^ 63) :
    ∃ D f, (D = D0 ∨ D = appended ws) ∧ c2.has h' (.seq f) ∧ (c3.has h' (.seq f) →
      ∃ as q, answersOn h' es' = List.zipWith answerOf ops as ∧ Walk D D 0 ops as q) := by
  obtain ⟨es1, new, h1, -, -, -, hF⟩ := hx.written hs h0 hc hr he hw hcl hall hok
  obtain ⟨i, D, f, h2, h3⟩ := seq_reads hs ⟨hF.peace, _, h1⟩ (.inr rfl) hc' hr' he'.obeys hq hn
  exact ⟨D, f, oldNew_cases h2, h3⟩

/-! ## The rename -/

/-- The call that renames: it has not yet, or has failed, or the new file is in place. -/
def Renaming (strerror : Strerror) (tmp target : Bytes) (new : Nat) (D : Bytes) (p : Prog Fin) (c : Conf) : Prop :=
  (∃ fuel, p = body strerror false fuel (.renameFile tmp target) none) ∨ (∃ st, st ≠ .ok ∧ p = .ret (.ans (.status st))) ∨
    (p = .ret (.ans (.status .ok)) ∧ Lasts (Two tmp target) (One new D) (· = cstr target) c.w.k)

/-- Everything about the files while the rename is going on. -/
def Around (strerror : Strerror) (full : Bool) (tmp target : Bytes) (old new : Nat) (D0 D : Bytes) (w : World) (L1 L2 : Int) (m : Nat) (c : Conf) : Prop :=
  Reached strerror full (Two tmp target) (OldNew old new D0 D) (· = cstr target) w L1 L2 m c ∧ Before tmp target old new c.w.k ∧
    (∀ x ∈ c.w.choices, Bystander tmp target x) ∧ old ≠ new ∧ cstr tmp ≠ cstr target

theorem Around.step {w : World} {L1 L2 : Int} {m : Nat} {c c' : Conf} {e : Option Ev}
    (hI : Around strerror full tmp target old new D0 D w L1 L2 m c) (hs : Step strerror full c e c')
    (he : ∀ t op, e = some (.call t op) → Obeys (Two tmp target) (· = cstr target) op) : Around strerror full tmp target old new D0 D w L1 L2 m c' := by
  obtain ⟨h1, h2, h3, h4, h5⟩ := hI
  exact ⟨h1.step hs he, h2.step h5 h4 h1.1 h3 hs, fun x hm => h3 x (run_choices ((Run.nil _).step hs) x hm), h4, h5⟩

theorem rename_along {w : World} {L1 L2 : Int} {m : Nat} :
    Along strerror full (Around strerror full tmp target old new D0 D w L1 L2 m) t .none (Renaming strerror tmp target new D) := by
  refine ⟨?_, ?_⟩
  · rintro c c' e p ⟨⟨hP, -⟩, -, hby, -⟩ hp ht hstep hsame
    rcases hp with h | h | ⟨h1, h2⟩
    · exact .inl h
    · exact .inr (.inl h)
    · refine .inr (.inr ⟨h1, ?_⟩)
      cases hstep with
      | call => exact h2
      | ret => rw [finish_w]; exact h2
      | move u home cmd k r sh w' hu hx => exact exec_lasts hx (hP.progs u home _ hu).1 (fun x hm => (hby x hm).spares) h2
  · rintro c cmd k r sh w' ⟨⟨hP, -⟩, hB, hby, hon, hne⟩ hp ht hx
    rcases hp with ⟨fuel, h⟩ | ⟨st, -, h⟩ | ⟨h, -⟩
    · have hL := exec_lasts hx (hP.progs t .none _ ht).1 hP.choices hP.lasts
      injection h with h1 h2
      subst h1
      cases h2
      obtain ⟨hsy, -⟩ := keep_done hx
      revert r
      show ∀ r : Except Errno Unit, _
      intro r hx hsy
      cases r with
      | error e => exact .inr (.inl ⟨_, PosixError_ne_ok strerror tmp e, rfl⟩)
      | ok u =>
        obtain ⟨g1, g2⟩ := rename_done hsy hon hne hby hB
        exact .inr (.inr ⟨rfl, hL.after hon g1 g2⟩)
    · exact nomatch h
    · exact nomatch h

/-- What is known when the rename has returned OK. -/
theorem Installing.renamed {w : World} {L1 L2 : Int} {n : Nat} (hs : Setting w L1 L2 n) {es0 : List Ev} {c0 : Conf}
    (h0 : Run strerror full (Conf.init w L1 L2 n) es0 c0) (hx : Installing c0 tmp target old D0 left) {ds : List Ev} {c1 : Conf}
    (hc : CallIn strerror full t (.newWritable tmp) (.opened .ok (some h)) c0 ds c1) {es : List Ev} {c : Conf} (hr : Run strerror full c1 es c)
    (he : Aside tmp target (ds ++ es)) {ws : List WOp}
    (hw : callsOn h es = (ws ++ [WOp.sync, WOp.close]).map (.write h)) (hcl : WOp.close ∉ ws)
    (hall : (answersOn h es).length = ws.length + 2) (hok : ∀ r ∈ answersOn h es, r = .status .ok)
    {ds' : List Ev} {c2 : Conf} (hc' : CallIn strerror full t' (.renameFile tmp target) (.status .ok) c ds' c2) (he' : Afterwards tmp target ds') :
    ∃ new, Reached strerror full (Two tmp target) (One new (appended ws)) (· = cstr target) w L1 L2 n c2 ∧ OnDisk (One new (appended ws)) c2.w.k := by
  obtain ⟨es1, new, h1, hon, hB, hby, hF⟩ := hx.written hs h0 hc hr he hw hcl hall hok
  obtain ⟨c3, a, -, -, hP, hI, e1, e2⟩ := rename_along.call (op := .renameFile tmp target) hc' (fun hI hs he => Around.step hI hs he)
    (⟨⟨hF.peace, _, h1⟩, hB, hby, hon, hx.differ⟩ : Around strerror full tmp target old new D0 (appended ws) w L1 L2 n c) he'.obeys
    ⟨⟨fun _ => .inr rfl, fun _ => .inl rfl⟩, fun a ha e => hx.differ (e.trans ha)⟩ (fun fuel _ _ => .inl ⟨fuel, rfl⟩)
  rcases hP with ⟨fuel, h⟩ | ⟨st, hst, h⟩ | ⟨h, hL⟩
  · exact nomatch h
  · cases h
    have e2 : PRes.status .ok = .status st := e2
    injection e2 with e2
    exact (hst e2.symm).elim
  · obtain ⟨⟨hP2, hr2⟩, -, hby2, -⟩ := hI
    obtain ⟨esc, hrc, hec⟩ := hc'.events
    have hF2 := Firm.all hrc (fun u op hm => by
      rcases hec u op hm with rfl | hm
      · exact ⟨⟨fun _ => .inr rfl, fun _ => .inl rfl⟩, fun a ha e => hx.differ (e.trans ha)⟩
      · exact he'.obeys u op hm) hF
    refine ⟨new, ⟨⟨?_, hP2.progs, fun x hm => (hby2 x hm).spares⟩, hr2⟩, fun i E hE b hb => ?_⟩
    · rw [e1, finish_w]
      exact hL
    · obtain ⟨rfl, rfl⟩ := One.eq hE
      exact hF2.hard.disk i _ (by unfold OldNew; rw [if_neg (Ne.symm hon), if_pos rfl]) b hb

/-- C101: once a RenameFile of the temporary file to the target has returned OK, every thread that opens the target as a sequential file
reads the new contents. -/
theorem C101_installed {w : World} {L1 L2 : Int} {n : Nat} (hs : Setting w L1 L2 n) {es0 : List Ev} {c0 : Conf}
    (h0 : Run strerror full (Conf.init w L1 L2 n) es0 c0) (hx : Installing c0 tmp target old D0 left) {ds : List Ev} {c1 : Conf}
    (hc : CallIn strerror full t (.newWritable tmp) (.opened .ok (some h)) c0 ds c1) {es : List Ev} {c : Conf} (hr : Run strerror full c1 es c)
    (he : Aside tmp target (ds ++ es)) {ws : List WOp}
    (hw : callsOn h es = (ws ++ [WOp.sync, WOp.close]).map (.write h)) (hcl : WOp.close ∉ ws)
    (hall : (answersOn h es).length = ws.length + 2) (hok : ∀ r ∈ answersOn h es, r = .status .ok)
    {ds' : List Ev} {c2 : Conf} (hc' : CallIn strerror full t' (.renameFile tmp target) (.status .ok) c ds' c2) (he' : Afterwards tmp target ds')
    {t'' : Nat} {ds'' es' : List Ev} {c3 c4 : Conf} (hc'' : CallIn strerror full t'' (.newSequential target) (.opened .ok (some h')) c2 ds'' c3)
    (hr' : Run strerror full c3 es' c4) (he'' : Afterwards tmp target (ds'' ++ es')) {ops : List SOp} (hq : callsOn h' es' = ops.map (callOf h'))
    (hn : ∀ n, SOp.skip n ∈ ops → n < 2 ^ 63) :
    ∃ f, c3.has h' (.seq f) ∧ (c4.has h' (.seq f) →
      ∃ as q, answersOn h' es' = List.zipWith answerOf ops as ∧ Walk (appended ws) (appended ws) 0 ops as q) := by
  obtain ⟨new, hI, -⟩ := hx.renamed hs h0 hc hr he hw hcl hall hok hc' he'
  obtain ⟨i, D, f, h2, h3⟩ := seq_reads hs hI (.inr rfl) hc'' hr' he''.obeys hq hn
  obtain ⟨-, rfl⟩ := One.eq h2
  exact ⟨f, h3⟩

/-- C101: and every thread that asks for its size gets the size of the new contents, or an error. -/
theorem C101_size {w : World} {L1 L2 : Int} {n : Nat} (hs : Setting w L1 L2 n) {es0 : List Ev} {c0 : Conf}
    (h0 : Run strerror full (Conf.init w L1 L2 n) es0 c0) (hx : Installing c0 tmp target old D0 left) {ds : List Ev} {c1 : Conf}
    (hc : CallIn strerror full t (.newWritable tmp) (.opened .ok (some h)) c0 ds c1) {es : List Ev} {c : Conf} (hr : Run strerror full c1 es c)
    (he : Aside tmp target (ds ++ es)) {ws : List WOp}
    (hw : callsOn h es = (ws ++ [WOp.sync, WOp.close]).map (.write h)) (hcl : WOp.close ∉ ws)
    (hall : (answersOn h es).length = ws.length + 2) (hok : ∀ r ∈ answersOn h es, r = .status .ok)
    {ds' : List Ev} {c2 : Conf} (hc' : CallIn strerror full t' (.renameFile tmp target) (.status .ok) c ds' c2) (he' : Afterwards tmp target ds')
    {t'' : Nat} {r : PRes} {ds'' : List Ev} {c3 : Conf} (hc'' : CallIn strerror full t'' (.getFileSize target) r c2 ds'' c3)
    (he'' : Afterwards tmp target ds'') : ∃ st n, r = .size st n ∧ (st = .ok → n = (appended ws).length) ∧ (st ≠ .ok → n = 0) := by
  obtain ⟨new, hI, -⟩ := hx.renamed hs h0 hc hr he hw hcl hall hok hc' he'
  obtain ⟨st, n, h2, h3, h4⟩ := size_read hI (.inr rfl) hc'' he''.obeys
  refine ⟨st, n, h2, fun e => ?_, h4⟩
  obtain ⟨i, D, h5, h6⟩ := h3 e
  rw [h6, (One.eq h5).2]

/-! ## Concrete runs -/

theorem calm_bystander : Bystander tmp target calm :=
  ⟨fun _ _ _ h => h, fun _ _ _ => rfl, fun _ p _ h1 h2 h => .inl ⟨p, h1, h2, h⟩, fun _ _ h => h, fun _ => ⟨rfl, rfl⟩⟩

/-- "/db/t" is to replace "/db/C". -/
theorem startInstalling : Installing poolStart (lit "/db/t") (lit "/db/C") 2 [1, 2, 3] [] := by
  refine ⟨by decide, ⟨quiet_of (by decide +kernel), .absent (absent_of_B (by decide +kernel)) fun x hx => ?_, (fun h o ho => nomatch ho), fun d hd => ?_⟩,
    ⟨quiet_of (by decide +kernel), onlyName_of_B (by decide +kernel), ⟨⟨false, [1, 2, 3], []⟩, by rfl, rfl, rfl⟩, fun i q hq hi => ?_, fun x hx => ?_⟩,
    ?_, ?_, fun x hx => ?_⟩
  · rw [List.eq_of_mem_replicate hx]
    exact ⟨calm_keepsAbsent, fun _ _ => calm_respects⟩
  · have : Dirname (lit "/db/t") = .ok (lit "/db") := by rfl
    rw [this] at hd
    cases hd
    decide
  · have := fds_of_B (p := fun _ _ => false) (by decide +kernel) i q hq hi
    exact nomatch this
  · rw [List.eq_of_mem_replicate hx]
    exact calm_respects
  · rintro v (h | h)
    · exact h
    · exact nomatch h
  · rintro b ⟨n, h1, h2⟩
    cases h1
    rcases h2 with h | h
    · exact h
    · exact nomatch h
  · rw [List.eq_of_mem_replicate hx]
    exact calm_bystander

/-- Thread 1 creates "/db/t" while thread 0 opens "/db/C". -/
def instCreate : Option (List Ev × PRes × Conf) :=
  playCallIn (fun _ => []) false 9 [.call 0 (.newSequential (lit "/db/C"))] 1 (.newWritable (lit "/db/t")) [.move 1, .move 0] poolStart

/-- Thread 1 appends to it, thread 2 syncs and closes it, while thread 0 writes another file. -/
def instWrite (c : Conf) : Option (List Ev × Conf) :=
  play (fun _ => []) false 9 [.call 1 (.write 0 (.append (Slice.ofBytes [4, 5]))), .ret 0, .ret 1, .call 0 (.newWritable (lit "/db/x")),
    .call 1 (.write 0 (.append (Slice.ofBytes [6]))), .ret 1, .call 2 (.write 0 .sync), .move 2, .move 0, .move 2, .ret 2,
    .call 1 (.write 0 .close), .move 1, .ret 1] c

/-- Thread 0, still in its call, returns; thread 2 renames while thread 0 opens "/db/C". -/
def instRename (c : Conf) : Option (List Ev × PRes × Conf) :=
  playCallIn (fun _ => []) false 9 [.ret 0, .call 0 (.newSequential (lit "/db/C")), .move 0] 2 (.renameFile (lit "/db/t") (lit "/db/C")) [.move 2, .ret 0] c

def instOps : List WOp := [.append (Slice.ofBytes [4, 5]), .append (Slice.ofBytes [6])]

theorem aside_of_B {es : List Ev} (h1 : callsB false tmp es = true) (h2 : callsB true target es = true) : Aside tmp target es := fun t op hm =>
  ⟨(calls_of_B h1 t op hm).elim id fun h => (nomatch h.1), (calls_of_B h2 t op hm).imp id fun h => h.2⟩

def instNames (p : Bytes) : Bool := p == lit "/db/t" || p == lit "/db/C"

theorem afterwards_of_B {es : List Ev} (h1 : orderlyB instNames es = true) (h2 : notAwayB (lit "/db/C") es = true) :
    Afterwards (lit "/db/t") (lit "/db/C") es := fun t op hm => by
  have h : (fun p => instNames p = true) = fun p => p = cstr (lit "/db/t") ∨ p = cstr (lit "/db/C") := by
    funext p
    simp only [instNames, Bool.or_eq_true, beq_iff_eq]
    rfl
  have h3 := orderly_of_B h1 t op hm
  rw [h] at h3
  exact ⟨h3, notAway_of_B h2 t op hm⟩

/-- All that is to be seen of this. -/
example : (instCreate.bind fun x => (instWrite x.2.2).bind fun y => (instRename y.2).map fun z =>
    (x.2.1, answersOn 0 y.1, z.2.1)) = some (.opened .ok (some 0), [.status .ok, .status .ok, .status .ok, .status .ok], .status .ok) := by rfl

/-- The first two parts satisfy the hypotheses. -/
theorem inst : ∃ ds es c1 c, instCreate = some (ds, .opened .ok (some 0), c1) ∧ instWrite c1 = some (es, c) ∧
    Aside (lit "/db/t") (lit "/db/C") (ds ++ es) ∧ callsOn 0 es = (instOps ++ [WOp.sync, WOp.close]).map (.write 0) ∧
    answersOn 0 es = [.status .ok, .status .ok, .status .ok, .status .ok] := by
  have hex : (instCreate.bind fun x => (instWrite x.2.2).map fun y =>
      (x.2.1, callsB false (lit "/db/t") (x.1 ++ y.1), callsB true (lit "/db/C") (x.1 ++ y.1), callsOn 0 y.1, answersOn 0 y.1)) =
      some (.opened .ok (some 0), true, true, (instOps ++ [WOp.sync, WOp.close]).map (.write 0),
        [.status .ok, .status .ok, .status .ok, .status .ok]) := by rfl
  cases hp : instCreate with
  | none => rw [hp] at hex; exact nomatch hex
  | some x =>
    obtain ⟨ds, r, c1⟩ := x
    rw [hp] at hex
    simp only [Option.bind_some] at hex
    cases hp1 : instWrite c1 with
    | none => rw [hp1] at hex; exact nomatch hex
    | some y =>
      obtain ⟨es, c⟩ := y
      rw [hp1] at hex
      injection hex with hex
      injection hex with hr hex
      injection hex with hB hex
      injection hex with hB' hex
      injection hex with hw ha
      dsimp only at hr hB hB' hw ha
      subst hr
      exact ⟨ds, es, c1, c, rfl, hp1, aside_of_B hB hB', hw, ha⟩

/-- While "/db/t" is written, a crash leaves "/db/C" as it was. -/
example : ∃ es c1, Run (fun _ => []) false poolStart es c1 ∧ CrashReads c1.w.k (lit "/db/C") (some [1, 2, 3]) ∧
    ∀ b, CrashReads c1.w.k (lit "/db/C") b → b = some [1, 2, 3] := by
  have hex : ((play (fun _ => []) false 9 [.call 1 (.newWritable (lit "/db/t")), .call 0 (.newSequential (lit "/db/C")), .move 1, .ret 1,
      .call 2 (.write 0 (.append (Slice.ofBytes [4, 5]))), .move 0, .ret 2, .call 2 (.write 0 .flush), .move 2] poolStart).map fun x =>
        (callsB true (lit "/db/C") x.1, x.2.w.k.lookup (lit "/db/C"), x.2.w.k.inodes[2]?)) =
      some (true, some 2, some ⟨false, [1, 2, 3], []⟩) := by rfl
  generalize hp : play (fun _ => []) false 9 _ poolStart = y at hex
  cases y with
  | none => exact nomatch hex
  | some y =>
    obtain ⟨es, c⟩ := y
    injection hex with hex
    injection hex with hB hex
    injection hex with hl hi
    dsimp only at hB hl hi
    have hr := play_run _ _ _ _ hp
    exact ⟨es, c, hr, ⟨2, .inl hl.symm, _, hi, .inl rfl⟩, fun b hb =>
      C101_before startInstalling hr (fun t op hm => (calls_of_B hB t op hm).imp id fun h => h.2) hb⟩

/-- After the rename, a crash may leave the old file as well as the new one. -/
example : ∃ es c, Run (fun _ => []) false poolStart es c ∧ CrashReads c.w.k (lit "/db/C") (some [1, 2, 3]) ∧
    CrashReads c.w.k (lit "/db/C") (some [4, 5, 6]) ∧ ∀ b, CrashReads c.w.k (lit "/db/C") b → b = some [1, 2, 3] ∨ b = some [4, 5, 6] := by
  obtain ⟨ds, es, c1, c, h1, h2, he, hw, ha⟩ := inst
  have hex : (instCreate.bind fun x => (instWrite x.2.2).bind fun y =>
      (play (fun _ => []) false 9 [.ret 0, .call 0 (.newSequential (lit "/db/C")), .call 2 (.renameFile (lit "/db/t") (lit "/db/C")), .move 2, .move 0]
        y.2).map fun z => (orderlyB instNames z.1, notAwayB (lit "/db/C") z.1, z.2.w.k.lookup (lit "/db/C"), z.2.w.k.inodes[2]?,
          z.2.w.k.inodes[4]?, decide ((lit "/db/C", some 2) ∈ z.2.w.k.pend))) =
      some (true, true, some 4, some ⟨false, [1, 2, 3], []⟩, some ⟨false, [4, 5, 6], []⟩, true) := by rfl
  rw [h1] at hex
  simp only [Option.bind_some, h2] at hex
  generalize hp : play (fun _ => []) false 9 _ c = z at hex
  cases z with
  | none => exact nomatch hex
  | some z =>
    obtain ⟨es', c'⟩ := z
    injection hex with hex
    injection hex with hO hex
    injection hex with hN hex
    injection hex with hl hex
    injection hex with hi hex
    injection hex with hi' hd
    dsimp only at hO hN hl hi hi' hd
    have hr := play_run _ _ _ _ hp
    obtain ⟨esc, hrc, -⟩ := (playCallIn_call h1).events
    refine ⟨_, c', run_append (run_append hrc (play_run _ _ _ _ h2)) hr, ⟨2, .inr (of_decide_eq_true hd), _, hi, .inl rfl⟩, ⟨4, .inl hl.symm, _, hi', .inl rfl⟩, fun b hb => ?_⟩
    exact C101_crash poolSetting (.nil _) startInstalling (playCallIn_call h1) (play_run _ _ _ _ h2) he hw (by simp [instOps]) (by rw [ha]; rfl)
      (by rw [ha]; simp) hr (afterwards_of_B hO hN) hb

/-- Thread 0 opens "/db/C" while thread 2 renames. -/
example : ∃ c2 c3 ds' es' h, CallIn (fun _ => []) false 0 (.newSequential (lit "/db/C")) (.opened .ok (some h))
      (((instCreate.bind fun x => instWrite x.2.2).map (·.2)).getD poolStart) ds' c2 ∧ Run (fun _ => []) false c2 es' c3 ∧
    answersOn h es' = [.data .ok (some [4]), .data .ok (some [5, 6])] ∧ ∃ D, (D = [1, 2, 3] ∨ D = appended instOps) ∧
    ∃ as q, answersOn h es' = List.zipWith answerOf [SOp.read 1, .read 5] as ∧ Walk D D 0 [.read 1, .read 5] as q := by
  obtain ⟨ds, es, c1, c, h1, h2, he, hw, ha⟩ := inst
  have hex : (instCreate.bind fun x => (instWrite x.2.2).bind fun y =>
      (playCallIn (fun _ => []) false 9 [.ret 0, .call 2 (.renameFile (lit "/db/t") (lit "/db/C"))] 0 (.newSequential (lit "/db/C")) [.move 2, .move 0] y.2).bind fun z =>
      (play (fun _ => []) false 9 [.call 1 (.seqRead 3 1), .move 1, .ret 2, .ret 1, .call 2 (.seqRead 3 5), .move 2, .ret 2] z.2.2).map fun v =>
      (z.2.1, orderlyB instNames (z.1 ++ v.1), notAwayB (lit "/db/C") (z.1 ++ v.1), callsOn 3 v.1, answersOn 3 v.1, z.2.2.objs[3]?, v.2.objs[3]?)) =
      some (.opened .ok (some 3), true, true, [SOp.read 1, .read 5].map (callOf 3),
        [.data .ok (some [4]), .data .ok (some [5, 6])], some (some (.seq ⟨0, lit "/db/C"⟩)), some (some (.seq ⟨0, lit "/db/C"⟩))) := by rfl
  rw [h1]
  simp only [Option.bind_some, h2, Option.map_some, Option.getD_some]
  rw [h1] at hex
  simp only [Option.bind_some, h2] at hex
  generalize hp : playCallIn (fun _ => []) false 9 _ _ _ _ c = z at hex
  cases z with
  | none => exact nomatch hex
  | some z =>
    obtain ⟨ds', r, c2⟩ := z
    simp only [Option.bind_some] at hex
    generalize hp1 : play (fun _ => []) false 9 _ c2 = v at hex
    cases v with
    | none => exact nomatch hex
    | some v =>
      obtain ⟨es', c3⟩ := v
      injection hex with hex
      injection hex with hr hex
      injection hex with hO hex
      injection hex with hN hex
      injection hex with hw' hex
      injection hex with ha' hex
      injection hex with ho1 ho
      dsimp only at hr hO hN hw' ha' ho1 ho
      subst hr
      obtain ⟨D, f, g0, g1, g2⟩ := C101_reads poolSetting (.nil _) startInstalling (playCallIn_call h1) (play_run _ _ _ _ h2) he hw (by simp [instOps]) (by rw [ha]; rfl)
        (by rw [ha]; simp) (playCallIn_call hp) (play_run _ _ _ _ hp1) (afterwards_of_B hO hN) hw' (by simp)
      rw [show c2.objs[3]? = _ from g1] at ho1
      cases ho1
      exact ⟨c2, c3, ds', es', 3, playCallIn_call hp, play_run _ _ _ _ hp1, ha', D, g0, g2 ho⟩

/-- Thread 1 opens "/db/C" when the rename has returned, and asks for its size. -/
example : ∃ c c2 c3 c4 c5 ds' ds1 ds2 es' h, CallIn (fun _ => []) false 2 (.renameFile (lit "/db/t") (lit "/db/C")) (.status .ok) c ds' c2 ∧
    CallIn (fun _ => []) false 1 (.newSequential (lit "/db/C")) (.opened .ok (some h)) c2 ds1 c3 ∧ Run (fun _ => []) false c3 es' c4 ∧
    answersOn h es' = [.data .ok (some [4]), .data .ok (some [5, 6])] ∧
    (∃ as q, answersOn h es' = List.zipWith answerOf [SOp.read 1, .read 5] as ∧ Walk (appended instOps) (appended instOps) 0 [.read 1, .read 5] as q) ∧
    CallIn (fun _ => []) false 1 (.getFileSize (lit "/db/C")) (.size .ok 3) c2 ds2 c5 ∧ 3 = (appended instOps).length := by
  obtain ⟨ds, es, c1, c, h1, h2, he, hw, ha⟩ := inst
  have hex : (instCreate.bind fun x => (instWrite x.2.2).bind fun y => (instRename y.2).bind fun u =>
      (playCallIn (fun _ => []) false 9 [.call 2 (.removeFile (lit "/db/t"))] 1 (.newSequential (lit "/db/C")) [.move 2, .move 1] u.2.2).bind fun z =>
      (play (fun _ => []) false 9 [.call 1 (.seqRead 4 1), .move 1, .ret 2, .ret 1, .call 2 (.seqRead 4 5), .move 2, .ret 2] z.2.2).bind fun v =>
      (playCallIn (fun _ => []) false 9 [.call 2 (.removeFile (lit "/db/t"))] 1 (.getFileSize (lit "/db/C")) [.move 2, .move 1] u.2.2).map fun s =>
      (u.2.1, orderlyB instNames (z.1 ++ v.1), notAwayB (lit "/db/C") (z.1 ++ v.1), orderlyB instNames s.1, notAwayB (lit "/db/C") s.1,
        orderlyB instNames u.1, notAwayB (lit "/db/C") u.1, (z.2.1, callsOn 4 v.1, answersOn 4 v.1, z.2.2.objs[4]?, v.2.objs[4]?), s.2.1)) =
      some (.status .ok, true, true, true, true, true, true, (.opened .ok (some 4), [SOp.read 1, .read 5].map (callOf 4),
        [.data .ok (some [4]), .data .ok (some [5, 6])], some (some (.seq ⟨3, lit "/db/C"⟩)), some (some (.seq ⟨3, lit "/db/C"⟩))), .size .ok 3) := by rfl
  rw [h1] at hex
  simp only [Option.bind_some, h2] at hex
  cases hp0 : instRename c with
  | none => rw [hp0] at hex; exact nomatch hex
  | some u =>
  obtain ⟨ds', r0, c2⟩ := u
  rw [hp0] at hex
  simp only [Option.bind_some] at hex
  generalize hp : playCallIn (fun _ => []) false 9 _ _ (.newSequential _) _ c2 = z at hex
  generalize hp2 : playCallIn (fun _ => []) false 9 _ _ (.getFileSize _) _ c2 = s at hex
  cases z with
  | none => exact nomatch hex
  | some z =>
  obtain ⟨ds1, r, c3⟩ := z
  simp only [Option.bind_some] at hex
  generalize hp1 : play (fun _ => []) false 9 _ c3 = v at hex
  cases v with
  | none => exact nomatch hex
  | some v =>
  obtain ⟨es', c4⟩ := v
  simp only [Option.bind_some] at hex
  cases s with
  | none => exact nomatch hex
  | some s =>
  obtain ⟨ds2, r2, c5⟩ := s
  injection hex with hex
  injection hex with hr0 hex
  injection hex with hO hex
  injection hex with hN hex
  injection hex with hO2 hex
  injection hex with hN2 hex
  injection hex with hO0 hex
  injection hex with hN0 hex
  injection hex with hex hr2
  injection hex with hr hex
  injection hex with hw' hex
  injection hex with ha' hex
  injection hex with ho1 ho
  dsimp only at hr0 hO hN hO2 hN2 hO0 hN0 hr2 hr hw' ha' ho1 ho
  subst hr0 hr hr2
  have g0 := afterwards_of_B hO0 hN0
  obtain ⟨f, g1, g2⟩ := C101_installed poolSetting (.nil _) startInstalling (playCallIn_call h1) (play_run _ _ _ _ h2) he hw (by simp [instOps]) (by rw [ha]; rfl)
    (by rw [ha]; simp) (playCallIn_call hp0) g0 (playCallIn_call hp) (play_run _ _ _ _ hp1) (afterwards_of_B hO hN) hw' (by simp)
  obtain ⟨st, n, g3, g4, -⟩ := C101_size poolSetting (.nil _) startInstalling (playCallIn_call h1) (play_run _ _ _ _ h2) he hw (by simp [instOps]) (by rw [ha]; rfl)
    (by rw [ha]; simp) (playCallIn_call hp0) g0 (playCallIn_call hp2) (afterwards_of_B hO2 hN2)
  cases g3
  rw [show c3.objs[4]? = _ from g1] at ho1
  cases ho1
  exact ⟨c, c2, c3, c4, c5, ds', ds1, ds2, es', 4, playCallIn_call hp0, playCallIn_call hp, play_run _ _ _ _ hp1, ha', g2 ho, playCallIn_call hp2, g4 rfl⟩

theorem poolOnDisk : OnDisk poolFiles poolStart.w.k := by
  intro i D hi b hb
  match i with
  | 2 =>
    obtain ⟨n, h1, h2⟩ := hb
    cases h1
    cases hi
    exact h2.elim id fun h => nomatch h
  | 3 =>
    obtain ⟨n, h1, h2⟩ := hb
    cases h1
    cases hi
    exact h2.elim id fun h => nomatch h
  | 0 => exact nomatch hi
  | 1 => exact nomatch hi
  | i + 4 => exact nomatch hi

theorem poolNamesAfter : NamesAfter (fun p => poolNames p = true) (· = cstr (lit "/db/C")) poolFiles poolStart.w.k := by
  intro p v hp hv
  have hp : p = lit "/db/C" ∨ p = lit "/db/n" := by simpa [poolNames] using hp
  rcases hv with rfl | h
  · rcases hp with rfl | rfl
    · exact .inr ⟨2, _, by rfl, rfl⟩
    · exact .inr ⟨3, _, by rfl, rfl⟩
  · exact nomatch h

theorem calm_leavesAfter : LeavesAfter N T S calm := fun _ _ _ h => h

/-- Thread 1 renames "/db/n" over "/db/C" while thread 0 removes "/db/n": then "/db/n" may be there or not, "/db/C" is one of the two files. -/
example : ∃ es c, Run (fun _ => []) false poolStart es c ∧ CrashReads c.w.k (lit "/db/n") none ∧ CrashReads c.w.k (lit "/db/n") (some [7, 8]) ∧
    (∀ b, CrashReads c.w.k (lit "/db/n") b → b = none ∨ ∃ i D, b = some D ∧ poolFiles i = some D) ∧
    (∀ b, CrashReads c.w.k (lit "/db/C") b → ∃ i D, b = some D ∧ poolFiles i = some D) := by
  have hex : ((play (fun _ => []) false 9 [.call 1 (.renameFile (lit "/db/n") (lit "/db/C")), .call 0 (.removeFile (lit "/db/n")), .move 1, .move 0,
      .ret 1] poolStart).map fun x =>
        (orderlyB poolNames x.1, notAwayB (lit "/db/C") x.1, x.2.w.k.lookup (lit "/db/n"), decide ((lit "/db/n", some 3) ∈ x.2.w.k.pend), x.2.w.k.inodes[3]?)) =
      some (true, true, none, true, some ⟨false, [7, 8], []⟩) := by rfl
  generalize hp : play (fun _ => []) false 9 _ poolStart = y at hex
  cases y with
  | none => exact nomatch hex
  | some y =>
    obtain ⟨es, c⟩ := y
    injection hex with hex
    injection hex with hO hex
    injection hex with hN hex
    injection hex with hl hex
    injection hex with hd hi
    dsimp only at hO hN hl hd hi
    have hr := play_run _ _ _ _ hp
    refine ⟨es, c, hr, .inl hl.symm, ⟨3, .inr (of_decide_eq_true hd), _, hi, .inl rfl⟩, fun b hb => ?_, fun b hb => ?_⟩
    · exact C101_pool poolPool poolOnDisk (fun p v hp hv => (poolNamesAfter p v hp hv).imp (fun h => ⟨h.1, fun h => h⟩) id) (fun x hx => by
        rw [List.eq_of_mem_replicate hx]
        exact calm_leavesAfter) hr (orderly_of_B hO) (by rfl) hb
    · exact C101_pool_stays poolPool poolOnDisk poolNamesAfter (fun x hx => by
        rw [List.eq_of_mem_replicate hx]
        exact calm_leavesAfter) hr (orderly_of_B hO) (by rfl) (by decide +kernel) (poolStays hN) hb

end Conc
end Posix
end Lsmdb
