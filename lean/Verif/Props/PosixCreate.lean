import Verif.Proof.PosixCreate3
import Verif.Props.PosixApart

/-!
# Creating a file in a program with many threads (C96)
-/

namespace Lsmdb
namespace Posix
namespace Conc

open MemEnv (St lit)

variable {strerror : Strerror} {full : Bool} {h ino t : Nat} {name D base : Bytes} {op : POp}

/-- While object `h` has the file in its hands. -/
theorem careful_of_held {ext extm : Nat → Prop} {L : Lim → Int} {c0 c : Conf} {es : List Ev}
    (H0 : ∃ fo mo lo gs, Inv ext extm L c0 fo mo lo gs ∧ Held false name ino Nobody (OfObjs (· = h) c0) c0 fo)
    (hr : Run strerror full c0 es c) (he : ∀ t op, Ev.call t op ∈ es → Elsewhere name op) :
    CarefulRun strerror full (fun a b => b = a) h ino c0 es c ∧ OnlyName c.w.k name ino := by
  refine ⟨?_, ?_⟩
  · induction hr with
    | nil => exact .nil _
    | step hr hstep ih =>
      have he1 := fun t op hm => he t op (List.mem_append_left _ hm)
      obtain ⟨fo, mo, lo, gs, H1, h1⟩ := held_all hr H0 fun t op hm => .inl (he1 t op hm)
      refine .step (ih he1) hstep ?_
      obtain ⟨-, -, -, -, -, -, h2⟩ := h1.step H1 hstep fun t op e => .inl (he t op (List.mem_append_right _ (by rw [e]; exact List.mem_singleton_self _)))
      rcases h2 with h2 | ⟨h', rfl, t, p, h3, h4⟩
      · exact .inl h2
      · exact .inr ⟨t, p, h3, h4⟩
  · obtain ⟨fo, mo, lo, gs, H1, h1⟩ := held_all hr H0 fun t op hm => .inl (he t op hm)
    exact h1.names

/-- What there is before: nothing, or the file. -/
theorem Ready.pre {w : World} {L1 L2 : Int} {n : Nat} (hs : Setting w L1 L2 n) {es0 : List Ev} {c0 : Conf}
    (h0 : Run strerror full (Conf.init w L1 L2 n) es0 c0) (hx : Ready c0 name D) :
    ∃ ext extm L fo mo lo gs s, Inv ext extm L c0 fo mo lo gs ∧ Pre name Nobody c0 fo s ∧
      (∀ m, startOf m s = if m = .trunc then [] else D) ∧
      (∀ ino n, s = some (ino, n) → c0.w.k.lookup (cstr name) = some ino ∧ c0.w.k.inodes[ino]? = some n) ∧
      (∀ a, c0.w.k.lookup (cstr name) = some a → ∃ n, s = some (a, n)) := by
  obtain ⟨fo, mo, lo, gs, H⟩ := hs.inv h0
  obtain ⟨hq, hf, ho, hd⟩ := hx
  cases hf with
  | present ino D names file fds others =>
    obtain ⟨nd, h1, h2, h3⟩ := file
    refine ⟨_, _, _, fo, mo, lo, gs, some (ino, nd), H, .present ⟨names, ⟨nd, h1⟩, fun i q hq hg => (fds i q hq hg.1).elim,
      fun h' o' ho' => fine (.inr (ho h' o' ho')), fun t home p _ ht => (hq t ⟨home, p, ht⟩).elim, others⟩ h1 h2, ?_, ?_, ?_⟩
    · intro m
      unfold startOf
      subst h3
      rfl
    · intro i n e
      cases e
      exact ⟨(names _).2 rfl, h1⟩
    · intro a ha
      rw [(names _).2 rfl] at ha
      cases ha
      exact ⟨nd, rfl⟩
  | absent gone others =>
    refine ⟨_, _, _, fo, mo, lo, gs, none, H, .absent ⟨gone, fun h' o' ho' => fine (.inr (ho h' o' ho')),
      fun t home p _ ht => (hq t ⟨home, p, ht⟩).elim, others⟩, ?_, fun _ _ e => (nomatch e), fun a ha => ?_⟩
    · intro m
      unfold startOf
      split <;> rfl
    · rw [gone.name] at ha
      exact nomatch ha

/-- The call that creates a file: everything that is known when it has returned. -/
theorem created {w : World} {L1 L2 : Int} {n : Nat} (hs : Setting w L1 L2 n) {es0 : List Ev} {c0 : Conf}
    (h0 : Run strerror full (Conf.init w L1 L2 n) es0 c0) (hx : Ready c0 name D) (hop : Creates name D op base) {ds : List Ev} {c1 : Conf}
    (hc : CallIn strerror full t op (.opened .ok (some h)) c0 ds c1) (hd : ∀ u op, Ev.call u op ∈ ds → Elsewhere name op) :
    ∃ es1 ext extm L f ino, Run strerror full (Conf.init w L1 L2 n) es1 c1 ∧
      (∃ fo mo lo gs, Inv ext extm L c1 fo mo lo gs ∧ Held false name ino Nobody (OfObjs (· = h) c1) c1 fo) ∧
      c1.has h (.wr f) ∧ Opened name f ino base c1.w ∧
      (∀ a, c0.w.k.lookup (cstr name) = some a → a = ino) ∧
      (∀ b, CouldBe c1.w.k ino b → b = base ∨ (c0.w.k.lookup (cstr name) = some ino ∧ CouldBe c0.w.k ino b)) := by
  obtain ⟨ext, extm, L, fo, mo, lo, gs, s, H, hP, hst, hs1, hs2⟩ := hx.pre hs h0
  cases hc with
  | mk before call meanwhile busy ret =>
    rename_i c1' c2 c3 a b
    have hm : ∃ m : Mode, (m = .trunc ∨ m = .append) ∧ ((m = .trunc ∧ op = .newWritable name) ∨ (m = .append ∧ op = .newAppendable name)) ∧
        startOf m s = base := by
      cases hop with
      | writable => exact ⟨.trunc, .inl rfl, .inl ⟨rfl, rfl⟩, by rw [hst]; rfl⟩
      | appendable => exact ⟨.append, .inr rfl, .inr ⟨rfl, rfl⟩, by rw [hst]; rfl⟩
    obtain ⟨m, hm1, hm2, hm3⟩ := hm
    have P1 := Pre.all before (fun t op hm => hd t op (List.mem_append_left _ hm)) ⟨fo, mo, lo, gs, H, hP⟩
    have P2 := Creating.start (m := m) P1 call rfl hm2
    obtain ⟨fo3, mo3, lo3, gs3, H3, P3⟩ := Creating.all meanwhile hm1 busy (fun t op hm => hd t op (List.mem_append_right _ hm)) P2
    obtain ⟨fo4, mo4, lo4, gs4, f, ino, n, H4, h1, h2, h3, F⟩ := P3.ret H3 ret rfl hx.dir
    have hi : (f.fd.toNat : Int) = f.fd := by omega
    refine ⟨_, ext, extm, L, f, ino, .step (run_append (.step (run_append h0 before) call) meanwhile) ret, ⟨fo4, mo4, lo4, gs4, H4, F.held⟩, h1, ?_, ?_, ?_⟩
    · refine ⟨h2, ⟨m.ofd ino, n, by rw [← hi]; exact F.ofd, ?_, ?_, ?_, F.node, F.dir, F.data.trans hm3⟩, ?_⟩
      · cases m <;> rfl
      · rcases hm1 with rfl | rfl <;> rfl
      · rcases hm1 with rfl | rfl
        · right
          rw [← hm3]
          rfl
        · exact .inl rfl
      · intro x hxm k
        obtain ⟨r1, r2, -⟩ := F.held.choices x hxm k
        refine ⟨fun n hn => (r1 n hn).1, ?_⟩
        unfold Kernel.ofd
        rw [r2]
    · intro a ha
      obtain ⟨na, hsa⟩ := hs2 a ha
      rcases F.isOld with e | ⟨n', e⟩
      · rw [hsa] at e; exact nomatch e
      · rw [hsa] at e
        cases e
        rfl
    · rintro b ⟨n', hn', hb⟩
      rw [F.node] at hn'
      cases hn'
      rcases F.old b hb with e | ⟨n', e1, e2⟩
      · exact .inl (e.trans hm3)
      · obtain ⟨g1, g2⟩ := hs1 _ _ e1
        exact .inr ⟨g1, n', g2, e2⟩

/-- C96: from a moment at which nobody uses a file (or there is none), the threads do what they want except to name it; one thread
creates it or opens it for appending, while the others go on; the call returns OK.  Then the client has an object for a file of that
name, empty or as it was; as long as no thread makes another call that names the file, it has that name and no other, and only calls
on the object change it. -/
theorem C96_opened {w : World} {L1 L2 : Int} {n : Nat} (hs : Setting w L1 L2 n) {es0 : List Ev} {c0 : Conf}
    (h0 : Run strerror full (Conf.init w L1 L2 n) es0 c0) (hx : Ready c0 name D) (hop : Creates name D op base) {ds : List Ev} {c1 : Conf}
    (hc : CallIn strerror full t op (.opened .ok (some h)) c0 ds c1) {es : List Ev} {c : Conf} (hr : Run strerror full c1 es c)
    (he : ∀ u op, Ev.call u op ∈ ds ++ es → Elsewhere name op) :
    ∃ f ino, c1.has h (.wr f) ∧ Opened name f ino base c1.w ∧ (∀ a, c0.w.k.lookup (cstr name) = some a → a = ino) ∧
      CarefulRun strerror full (fun a b => b = a) h ino c1 es c ∧ OnlyName c.w.k name ino := by
  obtain ⟨es1, ext, extm, L, f, ino, h1, h2, h3, h4, h5, -⟩ := created hs h0 hx hop hc fun u op hm => he u op (List.mem_append_left _ hm)
  exact ⟨f, ino, h3, h4, h5, careful_of_held h2 hr fun u op hm => he u op (List.mem_append_right _ hm)⟩

/-- C96: so after a Flush, Sync or Close that returned OK the file of that name holds what it held before (if it was opened for
appending) and then everything that was appended through the object, by whatever threads, in the order of the calls. -/
theorem C96_flushed {w : World} {L1 L2 : Int} {n : Nat} (hs : Setting w L1 L2 n) {es0 : List Ev} {c0 : Conf}
    (h0 : Run strerror full (Conf.init w L1 L2 n) es0 c0) (hx : Ready c0 name D) (hop : Creates name D op base) {ds : List Ev} {c1 : Conf}
    (hc : CallIn strerror full t op (.opened .ok (some h)) c0 ds c1) {es : List Ev} {c : Conf} (hr : Run strerror full c1 es c)
    (he : ∀ u op, Ev.call u op ∈ ds ++ es → Elsewhere name op) {ws : List WOp} {last : WOp}
    (hw : callsOn h es = (ws ++ [last]).map (.write h)) (hcl : WOp.close ∉ ws) (hl : last = .flush ∨ last = .sync ∨ last = .close)
    (hall : (answersOn h es).length = ws.length + 1) (hok : ∀ r ∈ answersOn h es, r = .status .ok) :
    ∃ ino, c.w.k.lookup (cstr name) = some ino ∧ Contents c.w.k ino = some (base ++ appended ws) := by
  obtain ⟨es1, ext, extm, L, f, ino, h1, h2, h3, h4, h5, -⟩ := created hs h0 hx hop hc fun u op hm => he u op (List.mem_append_left _ hm)
  obtain ⟨h6, h7⟩ := careful_of_held h2 hr fun u op hm => he u op (List.mem_append_right _ hm)
  exact ⟨ino, (h7 _).2 rfl, C93_flushed hs h1 h3 h4 h6 hw hcl hl hall hok⟩

/-- C96: at any moment, as long as no call on the object has failed, a machine that stops leaves in the file what it could have left
before the call, or what the object started with followed by some of the stream, from its beginning. -/
theorem C96_crash {w : World} {L1 L2 : Int} {n : Nat} (hs : Setting w L1 L2 n) {es0 : List Ev} {c0 : Conf}
    (h0 : Run strerror full (Conf.init w L1 L2 n) es0 c0) (hx : Ready c0 name D) (hop : Creates name D op base) {ds : List Ev} {c1 : Conf}
    (hc : CallIn strerror full t op (.opened .ok (some h)) c0 ds c1) {es : List Ev} {c : Conf} (hr : Run strerror full c1 es c)
    (he : ∀ u op, Ev.call u op ∈ ds ++ es → Elsewhere name op) {ws : List WOp}
    (hw : callsOn h es = ws.map (.write h)) (hcl : WOp.close ∉ ws.dropLast) (hok : ∀ r ∈ answersOn h es, r = .status .ok) :
    ∃ ino, c.w.k.lookup (cstr name) = some ino ∧ (∃ b, CouldBe c.w.k ino b) ∧
      ∀ b, CouldBe c.w.k ino b → (c0.w.k.lookup (cstr name) = some ino ∧ CouldBe c0.w.k ino b) ∨ ∃ p, p <+: appended ws ∧ b = base ++ p := by
  obtain ⟨es1, ext, extm, L, f, ino, h1, h2, h3, h4, h5, hold⟩ := created hs h0 hx hop hc fun u op hm => he u op (List.mem_append_left _ hm)
  obtain ⟨h6, h7⟩ := careful_of_held h2 hr fun u op hm => he u op (List.mem_append_right _ hm)
  obtain ⟨h8, h9⟩ := C93_crash hs h1 h3 h4 h6 hw hcl hok
  refine ⟨ino, (h7 _).2 rfl, h8, fun b hb => ?_⟩
  rcases h9 b hb with h9 | h9
  · rcases hold b h9 with e | e
    · exact .inr ⟨[], List.nil_prefix, by rw [e, List.append_nil]⟩
    · exact .inl e
  · exact .inr h9

/-- C96: and after a Sync that returned OK, whatever the threads do later with other files and the object, whenever the machine
stops: everything that was appended before the Sync is in the file. -/
theorem C96_synced {w : World} {L1 L2 : Int} {n : Nat} (hs : Setting w L1 L2 n) {es0 : List Ev} {c0 : Conf}
    (h0 : Run strerror full (Conf.init w L1 L2 n) es0 c0) (hx : Ready c0 name D) (hop : Creates name D op base) {ds : List Ev} {c1 : Conf}
    (hc : CallIn strerror full t op (.opened .ok (some h)) c0 ds c1) {es es' : List Ev} {c c' : Conf} (hr : Run strerror full c1 es c)
    (hr' : Run strerror full c es' c') (he : ∀ u op, Ev.call u op ∈ ds ++ es ++ es' → Elsewhere name op)
    {ws : List WOp} (hw : callsOn h es = (ws ++ [WOp.sync]).map (.write h)) (hcl : WOp.close ∉ ws)
    (hall : (answersOn h es).length = ws.length + 1) (hok : ∀ r ∈ answersOn h es, r = .status .ok)
    {ws' : List WOp} (hw' : callsOn h es' = ws'.map (.write h)) (hcl' : WOp.close ∉ ws'.dropLast) :
    ∃ ino, c'.w.k.lookup (cstr name) = some ino ∧ (∃ b, CouldBe c'.w.k ino b) ∧ ∀ b, CouldBe c'.w.k ino b → base ++ appended ws <+: b := by
  obtain ⟨es1, ext, extm, L, f, ino, h1, h2, h3, h4, h5, -⟩ := created hs h0 hx hop hc fun u op hm =>
    he u op (List.mem_append_left _ (List.mem_append_left _ hm))
  have he1 : ∀ u op, Ev.call u op ∈ es → Elsewhere name op := fun u op hm => he u op (List.mem_append_left _ (List.mem_append_right _ hm))
  have h6 := (careful_of_held h2 hr he1).1
  have H2 := held_all hr h2 fun u op hm => .inl (he1 u op hm)
  obtain ⟨h7, h8⟩ := careful_of_held H2 hr' fun u op hm => he u op (List.mem_append_right _ hm)
  exact ⟨ino, (h8 _).2 rfl, C93_synced hs h1 h3 h4 h6 hw hcl hall hok h7 hw' hcl'⟩

/-- C96: if the call fails, the file is as it was, or there is still none. -/
theorem C96_failed {w : World} {L1 L2 : Int} {n : Nat} (hs : Setting w L1 L2 n) {es0 : List Ev} {c0 : Conf}
    (h0 : Run strerror full (Conf.init w L1 L2 n) es0 c0) (hx : Ready c0 name D) (hop : Creates name D op base) {st : St} {ds : List Ev} {c1 : Conf}
    (hc : CallIn strerror full t op (.opened st none) c0 ds c1) {es : List Ev} {c : Conf} (hr : Run strerror full c1 es c)
    (he : ∀ u op, Ev.call u op ∈ ds ++ es → Elsewhere name op) :
    c.w.k.lookup (cstr name) = c0.w.k.lookup (cstr name) ∧
      ∀ ino, c0.w.k.lookup (cstr name) = some ino → c.w.k.inodes[ino]? = c0.w.k.inodes[ino]? := by
  obtain ⟨ext, extm, L, fo, mo, lo, gs, s, H, hP, hst, hs1, hs2⟩ := hx.pre hs h0
  have hm : ∃ m : Mode, (m = .trunc ∨ m = .append) ∧ ((m = .trunc ∧ op = .newWritable name) ∨ (m = .append ∧ op = .newAppendable name)) := by
    cases hop with
    | writable => exact ⟨.trunc, .inl rfl, .inl ⟨rfl, rfl⟩⟩
    | appendable => exact ⟨.append, .inr rfl, .inr ⟨rfl, rfl⟩⟩
  obtain ⟨m, hm1, hm2⟩ := hm
  have he1 : ∀ u op, Ev.call u op ∈ ds → Elsewhere name op := fun u op hm => he u op (List.mem_append_left _ hm)
  have he2 : ∀ u op, Ev.call u op ∈ es → Elsewhere name op := fun u op hm => he u op (List.mem_append_right _ hm)
  cases hc with
  | mk before call meanwhile busy ret =>
    have P1 := Pre.all before (fun t op hm => he1 t op (List.mem_append_left _ hm)) ⟨fo, mo, lo, gs, H, hP⟩
    have P2 := Creating.start (m := m) P1 call rfl hm2
    obtain ⟨fo3, mo3, lo3, gs3, H3, P3⟩ := Creating.all meanwhile hm1 busy (fun t op hm => he1 t op (List.mem_append_right _ hm)) P2
    obtain ⟨fo5, mo5, lo5, gs5, -, P5⟩ := Pre.all hr he2 (P3.fail H3 ret rfl)
    cases P5 with
    | present held node dir =>
      obtain ⟨e1, e2⟩ := hs1 _ _ rfl
      rw [(held.names _).2 rfl, e1]
      refine ⟨rfl, fun a ha => ?_⟩
      injection ha with ha
      subst ha
      rw [node, e2]
    | absent gone =>
      cases e : c0.w.k.lookup (cstr name) with
      | none => exact ⟨gone.absent.name, fun _ h => nomatch h⟩
      | some a => obtain ⟨_, h⟩ := hs2 a e; exact nomatch h

/-! ## Concrete runs -/

def notBackB (t : Nat) (es : List Ev) : Bool :=
  es.all fun
    | .call _ _ => true
    | .ret u _ => decide (u ≠ t)

theorem notBack_of_B {es : List Ev} (hb : notBackB t es = true) : NotBack t es := by
  intro r hm
  unfold notBackB at hb
  rw [List.all_eq_true] at hb
  exact of_decide_eq_true (hb _ hm) rfl

/-- Follow a schedule with a call in it. -/
def playCallIn (strerror : Strerror) (full : Bool) (fuel : Nat) (a : List Act) (t : Nat) (op : POp) (b : List Act) (c : Conf) :
    Option (List Ev × PRes × Conf) :=
  match play strerror full fuel a c with
  | none => none
  | some (e1, c1) =>
    match c1.th[t]? with
    | some .idle =>
      if allowedB c1 op then
        match play strerror full fuel b (c1.begin strerror full fuel t op) with
        | none => none
        | some (e2, c2) =>
          if notBackB t e2 then
            match c2.th[t]? with
            | some (.run home (.ret x)) => some (e1 ++ e2, (c2.finish t home x).2, (c2.finish t home x).1)
            | _ => none
          else none
      else none
    | _ => none

theorem playCallIn_call {fuel : Nat} {a b : List Act} {c c' : Conf} {es : List Ev} {r : PRes}
    (h : playCallIn strerror full fuel a t op b c = some (es, r, c')) : CallIn strerror full t op r c es c' := by
  unfold playCallIn at h
  split at h
  · exact nomatch h
  · rename_i e1 c1 h1
    split at h
    · rename_i h2
      split at h
      · rename_i h3
        split at h
        · exact nomatch h
        · rename_i e2 c2 h4
          split at h
          · rename_i h5
            split at h
            · rename_i home x h6
              injection h with h
              injection h with e1 h
              injection h with e2 e3
              subst e1 e2 e3
              exact .mk (play_run _ _ _ _ h1) (.call _ _ _ _ h2 (allowed_of_B h3)) (play_run _ _ _ _ h4) (notBack_of_B h5) (.ret _ _ _ _ h6)
            · exact nomatch h
          · exact nomatch h
      · exact nomatch h
    · exact nomatch h

def absentB (k : Kernel) (name : Bytes) : Bool :=
  decide (k.lookup (cstr name) = none) && k.names.all (fun e => decide (e.2 < k.inodes.length)) &&
    (List.range k.fds.length).all fun i =>
      match k.ofd (i : Int) with
      | some q => decide (q.ino < k.inodes.length)
      | none => true

theorem absent_of_B {k : Kernel} (hb : absentB k name = true) : Absent k name := by
  unfold absentB at hb
  rw [Bool.and_eq_true, Bool.and_eq_true, decide_eq_true_eq, List.all_eq_true, List.all_eq_true] at hb
  obtain ⟨⟨h1, h2⟩, h3⟩ := hb
  refine ⟨h1, fun p i hp => of_decide_eq_true (h2 (p, i) (aFind_get _ _ _ hp)), fun i q hq => ?_⟩
  obtain ⟨h4, h5⟩ := toNat_lt_of_ofd hq
  have := h3 i.toNat (List.mem_range.2 (List.getElem?_eq_some_iff.1 h5).1)
  have hi : (i.toNat : Int) = i := by omega
  rw [hi, hq] at this
  exact of_decide_eq_true this

theorem calm_keepsAbsent : KeepsAbsent name calm := fun _ h => ⟨h, Nat.le_refl _⟩

/-- At the start there is no "/db/b" ... -/
theorem freshReady : Ready concStart (lit "/db/b") [] := by
  refine ⟨quiet_of (by decide +kernel), .absent (absent_of_B (by decide +kernel)) fun x hx => ?_, (fun h o ho => nomatch ho), fun d hd => ?_⟩
  · rw [List.eq_of_mem_replicate hx]
    exact ⟨calm_keepsAbsent, fun _ _ => calm_respects⟩
  · have : Dirname (lit "/db/b") = .ok (lit "/db") := by rfl
    rw [this] at hd
    cases hd
    decide

/-- ... and a file "/db/t". -/
theorem tableReady : Ready concStart (lit "/db/t") [1, 2, 3] := by
  refine ⟨quiet_of (by decide +kernel), .present 2 _ (onlyName_of_B (by decide +kernel)) ⟨⟨false, [1, 2, 3], []⟩, by rfl, rfl, rfl⟩
    (fun i q hq hi => ?_) fun x hx => ?_, (fun h o ho => nomatch ho), fun d hd => ?_⟩
  · have := fds_of_B (p := fun _ _ => false) (by decide +kernel) i q hq hi
    exact nomatch this
  · rw [List.eq_of_mem_replicate hx]
    exact calm_respects
  · have : Dirname (lit "/db/t") = .ok (lit "/db") := by rfl
    rw [this] at hd
    cases hd
    decide

/-- Thread 0 creates "/db/a" while thread 1 creates "/db/b"; then thread 1 writes while thread 0 removes "/db/a". -/
example : ∃ ds es c1 c, CallIn (fun _ => []) false 1 (.newWritable (lit "/db/b")) (.opened .ok (some 0)) concStart ds c1 ∧
    Run (fun _ => []) false c1 es c ∧ ∃ ino, c.w.k.lookup (lit "/db/b") = some ino ∧ Contents c.w.k ino = some [1, 2, 3] := by
  have hex : ((playCallIn (fun _ => []) false 9 [.call 0 (.newWritable (lit "/db/a"))] 1 (.newWritable (lit "/db/b"))
      [.move 1, .move 0] concStart).bind fun x =>
        (play (fun _ => []) false 9 [.call 1 (.write 0 (.append (Slice.ofBytes [1, 2]))), .ret 0, .ret 1, .call 0 (.removeFile (lit "/db/a")),
          .call 1 (.write 0 (.append (Slice.ofBytes [3]))), .ret 1, .call 1 (.write 0 .flush), .move 0, .move 1, .ret 1] x.2.2).map fun y =>
        (x.2.1, callsOn 0 y.1, answersOn 0 y.1, callsB false (lit "/db/b") (x.1 ++ y.1))) =
      some (.opened .ok (some 0), ([WOp.append (Slice.ofBytes [1, 2]), .append (Slice.ofBytes [3])] ++ [WOp.flush]).map (.write 0),
        [.status .ok, .status .ok, .status .ok], true) := by rfl
  generalize hp : playCallIn (fun _ => []) false 9 _ _ _ _ concStart = y at hex
  cases y with
  | none => exact nomatch hex
  | some x =>
    obtain ⟨ds, r, c1⟩ := x
    simp only [Option.bind_some] at hex
    generalize hp' : play (fun _ => []) false 9 _ c1 = z at hex
    cases z with
    | none => exact nomatch hex
    | some z =>
      obtain ⟨es, c⟩ := z
      injection hex with hex
      injection hex with hr hex
      injection hex with hcalls hex
      injection hex with hans hB
      subst hr
      have hc := playCallIn_call hp
      have hrun := play_run _ _ _ _ hp'
      have he : ∀ t op, Ev.call t op ∈ ds ++ es → Elsewhere (lit "/db/b") op := fun t op hm =>
        (calls_of_B hB t op hm).elim id fun h => nomatch h.1
      obtain ⟨ino, h1, h2⟩ := C96_flushed readsSetting (.nil _) freshReady .writable hc hrun he hcalls (by simp) (.inl rfl) (by rw [hans]; rfl)
        (by rw [hans]; simp)
      refine ⟨ds, es, c1, c, hc, hrun, ino, h1, ?_⟩
      rw [h2]
      decide

/-- Thread 2 opens "/db/t", which holds three bytes, for appending, and syncs one more; whatever happens later they are there. -/
example : ∃ ds es es' c1 c c', CallIn (fun _ => []) false 2 (.newAppendable (lit "/db/t")) (.opened .ok (some 1)) concStart ds c1 ∧
    Run (fun _ => []) false c1 es c ∧ Run (fun _ => []) false c es' c' ∧
    ∃ ino, c'.w.k.lookup (lit "/db/t") = some ino ∧ CouldBe c'.w.k ino [1, 2, 3, 4] ∧ CouldBe c'.w.k ino [1, 2, 3, 4, 5] ∧
      ∀ b, CouldBe c'.w.k ino b → [1, 2, 3, 4] <+: b := by
  have hex : ((playCallIn (fun _ => []) false 9 [.call 0 (.newWritable (lit "/db/a"))] 2 (.newAppendable (lit "/db/t"))
      [.move 0, .ret 0, .call 0 (.write 0 (.append (Slice.ofBytes [9]))), .move 2, .ret 0] concStart).bind fun x =>
        (play (fun _ => []) false 9 [.call 1 (.write 1 (.append (Slice.ofBytes [4]))), .call 0 (.write 0 .close), .move 0, .ret 1,
          .call 1 (.write 1 .sync), .move 1, .move 0, .move 1, .ret 1] x.2.2).bind fun y =>
        (play (fun _ => []) false 9 [.call 1 (.write 1 (.append (Slice.ofBytes [5]))), .ret 0, .ret 1, .call 1 (.write 1 .flush), .move 1] y.2).map fun z =>
        (x.2.1, callsOn 1 y.1, answersOn 1 y.1, callsOn 1 z.1, callsB false (lit "/db/t") (x.1 ++ y.1 ++ z.1), z.2.w.k.lookup (lit "/db/t"),
          z.2.w.k.inodes[2]?)) =
      some (.opened .ok (some 1), ([WOp.append (Slice.ofBytes [4])] ++ [WOp.sync]).map (.write 1), [.status .ok, .status .ok],
        [WOp.append (Slice.ofBytes [5]), .flush].map (.write 1), true, some 2, some ⟨false, [1, 2, 3, 4, 5], [[1, 2, 3, 4], [1, 2, 3, 4]]⟩) := by rfl
  generalize hp : playCallIn (fun _ => []) false 9 _ _ _ _ concStart = y at hex
  cases y with
  | none => exact nomatch hex
  | some x =>
    obtain ⟨ds, r, c1⟩ := x
    simp only [Option.bind_some] at hex
    generalize hp1 : play (fun _ => []) false 9 _ c1 = y at hex
    cases y with
    | none => exact nomatch hex
    | some y =>
      obtain ⟨es, c⟩ := y
      simp only [Option.bind_some] at hex
      generalize hp2 : play (fun _ => []) false 9 _ c = z at hex
      cases z with
      | none => exact nomatch hex
      | some z =>
        obtain ⟨es', c'⟩ := z
        injection hex with hex
        injection hex with hr hex
        injection hex with hcalls hex
        injection hex with hans hex
        injection hex with hcalls' hex
        injection hex with hB hex
        injection hex with hl hi
        dsimp only at hr hi hl
        subst hr
        have hc := playCallIn_call hp
        have hr1 := play_run _ _ _ _ hp1
        have hr2 := play_run _ _ _ _ hp2
        have he : ∀ t op, Ev.call t op ∈ ds ++ es ++ es' → Elsewhere (lit "/db/t") op := fun t op hm =>
          (calls_of_B hB t op hm).elim id fun h => nomatch h.1
        obtain ⟨ino, h1, h2, h3⟩ := C96_synced readsSetting (.nil _) tableReady .appendable hc hr1 hr2 he hcalls (by simp) (by rw [hans]; rfl)
          (by rw [hans]; simp) hcalls' (by simp)
        have e : ino = 2 := by
          have h1 : c'.w.k.lookup (lit "/db/t") = some ino := h1
          rw [hl] at h1
          exact (Option.some.inj h1).symm
        subst e
        refine ⟨ds, es, es', c1, c, c', hc, hr1, hr2, 2, hl, ⟨_, hi, by decide⟩, ⟨_, hi, by decide⟩, fun b hb => ?_⟩
        have := h3 b hb
        have e : [1, 2, 3] ++ appended [WOp.append (Slice.ofBytes [4])] = [1, 2, 3, 4] := by decide
        rw [e] at this
        exact this

/-- The second system call will fail. -/
def failStart : Conf := Conf.init ⟨tableKernel, [calm, { calm with fail := some 28 }], []⟩ 1 1 3

theorem failChoices {P : Choice → Prop} (h : ∀ x : Choice, x.other = calm.other → P x) : ∀ x ∈ failStart.w.choices, P x := by
  intro x hx
  have : failStart.w.choices = [calm, { calm with fail := some 28 }] := rfl
  rw [this] at hx
  rcases List.mem_cons.1 hx with rfl | hx
  · exact h _ rfl
  · rw [List.mem_singleton.1 hx]; exact h _ rfl

theorem same_respects {x : Choice} (h : x.other = calm.other) : Respects name ino x := fun k => by
  rw [h]
  exact ⟨fun _ h => ⟨h, fun h => h⟩, rfl, rfl⟩

theorem failSetting : Setting failStart.w 1 1 3 :=
  ⟨rfl, failChoices fun x hx k => by rw [hx]; exact ⟨fun _ => Iff.rfl, fun _ => Iff.rfl⟩, by decide, by decide⟩

theorem failReady : Ready failStart (lit "/db/t") [1, 2, 3] := by
  refine ⟨quiet_of (by decide +kernel), .present 2 _ (onlyName_of_B (by decide +kernel)) ⟨⟨false, [1, 2, 3], []⟩, by rfl, rfl, rfl⟩
    (fun i q hq hi => ?_) (failChoices fun x hx => same_respects hx), (fun h o ho => nomatch ho), fun d hd => ?_⟩
  · have := fds_of_B (p := fun _ _ => false) (by decide +kernel) i q hq hi
    exact nomatch this
  · have : Dirname (lit "/db/t") = .ok (lit "/db") := by rfl
    rw [this] at hd
    cases hd
    decide

/-- An open call that fails while another thread creates another file: "/db/t" keeps its bytes. -/
example : ∃ st ds c1, CallIn (fun _ => []) false 1 (.newWritable (lit "/db/t")) (.opened st none) failStart ds c1 ∧ ds.length = 1 ∧ st ≠ .ok ∧
    c1.w.k.inodes[2]? = some ⟨false, [1, 2, 3], []⟩ := by
  have hex : ((playCallIn (fun _ => []) false 9 [.call 0 (.newWritable (lit "/db/a"))] 1 (.newWritable (lit "/db/t"))
      [.move 0, .move 1] failStart).map fun x => (x.2.1, x.1.length, callsB false (lit "/db/t") (x.1 ++ []))) =
      some (.opened (PosixError (fun _ => []) (lit "/db/t") 28) none, 1, true) := by rfl
  generalize hp : playCallIn (fun _ => []) false 9 _ _ _ _ _ = y at hex
  cases y with
  | none => exact nomatch hex
  | some x =>
    obtain ⟨ds, r, c1⟩ := x
    injection hex with hex
    injection hex with hr hex
    injection hex with hl hB
    dsimp only at hr hl
    subst hr
    have hc := playCallIn_call hp
    refine ⟨_, ds, c1, hc, hl, by decide, ?_⟩
    exact ((C96_failed failSetting (.nil _) failReady .writable hc (.nil _) fun t op hm => (calls_of_B hB t op hm).elim id fun h => nomatch h.1).2 2
      (by rfl)).trans (by rfl)

end Conc
end Posix
end Lsmdb
