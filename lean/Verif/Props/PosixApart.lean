import Verif.Proof.PosixApart4
import Verif.Props.PosixReads

/-!
# Calls about other files never touch a file (C95)
-/

namespace Lsmdb
namespace Posix
namespace Conc

open MemEnv (St lit)

variable {strerror : Strerror} {full : Bool} {h ino : Nat} {name D : Bytes} {o : Obj}

theorem held_all {ext extm : Nat → Prop} {L : Lim → Int} {ro : Bool} {S : Nat → Prop} {c0 c : Conf} {es : List Ev}
    (hr : Run strerror full c0 es c) :
    ∀ (_ : ∃ fo mo lo gs, Inv ext extm L c0 fo mo lo gs ∧ Held ro name ino Nobody (OfObjs S c0) c0 fo)
      (_ : ∀ t op, Ev.call t op ∈ es → Elsewhere name op ∨ (ro = true ∧ LooksOnly op)),
      ∃ fo mo lo gs, Inv ext extm L c fo mo lo gs ∧ Held ro name ino Nobody (OfObjs S c) c fo := by
  induction hr with
  | nil => intro H _; exact H
  | step hr hs ih =>
    intro H he
    obtain ⟨fo, mo, lo, gs, H1, h1⟩ := ih H fun t op hm => he t op (List.mem_append_left _ hm)
    obtain ⟨fo', mo', lo', gs', H2, h2, -⟩ := h1.step H1 hs fun t op e => he t op (List.mem_append_right _ (by rw [e]; exact List.mem_singleton_self _))
    exact ⟨fo', mo', lo', gs', H2, h2⟩

theorem Sole.held {w : World} {L1 L2 : Int} {n : Nat} (hs : Setting w L1 L2 n) {es0 : List Ev} {c0 : Conf}
    (h0 : Run strerror full (Conf.init w L1 L2 n) es0 c0) (hx : Sole c0 name ino h o) :
    ∃ ext extm L fo mo lo gs, Inv ext extm L c0 fo mo lo gs ∧ Held false name ino Nobody (OfObjs (· = h) c0) c0 fo := by
  obtain ⟨fo, mo, lo, gs, H⟩ := hs.inv h0
  refine ⟨_, _, _, fo, mo, lo, gs, H, hx.names, hx.node, fun i q hq hg => ?_, fun h' o' ho' => fine (.inr (hx.objs h' o' ho')),
    fun t home p _ ht => (hx.quiet t ⟨home, p, ht⟩).elim, hx.others⟩
  have := (H.F.obj h i).2 ⟨o, hx.has, hx.fds i q hq hg.1⟩
  exact ⟨by rw [this]; simp, h, rfl, .inl this⟩

theorem ReadOnly.held {w : World} {L1 L2 : Int} {n : Nat} (hs : Setting w L1 L2 n) {es0 : List Ev} {c0 : Conf}
    (h0 : Run strerror full (Conf.init w L1 L2 n) es0 c0) (hx : ReadOnly c0 name ino D) :
    ∃ ext extm L fo mo lo gs, Inv ext extm L c0 fo mo lo gs ∧ Held true name ino Nobody (OfObjs (fun _ => False) c0) c0 fo := by
  obtain ⟨fo, mo, lo, gs, H⟩ := hs.inv h0
  obtain ⟨a, ha, -⟩ := hx.file
  refine ⟨_, _, _, fo, mo, lo, gs, H, hx.names, ⟨a, ha⟩, fun i q hq hg => ?_, fun h' o' ho' => fine (.inl rfl),
    fun t home p _ ht => (hx.quiet t ⟨home, p, ht⟩).elim, hx.others⟩
  have h1 := hx.fds i q hq hg.1
  rw [hg.2 rfl] at h1
  exact nomatch h1

/-- C95: object `h` has the only descriptor of a file that has one name.  As long as no thread makes a call that names the file (or
something "inside" of it), whatever else the threads do, in any interleaving, whatever fails: the file changes only in calls on the
object, and keeps its name. -/
theorem C95_untouched {w : World} {L1 L2 : Int} {n : Nat} (hs : Setting w L1 L2 n) {es0 : List Ev} {c0 : Conf}
    (h0 : Run strerror full (Conf.init w L1 L2 n) es0 c0) (hx : Sole c0 name ino h o) {es : List Ev} {c : Conf}
    (hr : Run strerror full c0 es c) (he : ∀ t op, Ev.call t op ∈ es → Elsewhere name op) :
    CarefulRun strerror full (fun a b => b = a) h ino c0 es c ∧ OnlyName c.w.k name ino := by
  obtain ⟨ext, extm, L, H0⟩ := hx.held hs h0
  refine ⟨?_, ?_⟩
  · induction hr with
    | nil => exact .nil _
    | step hr hstep ih =>
      have he1 := fun t op hm => he t op (List.mem_append_left _ hm)
      obtain ⟨fo, mo, lo, gs, H1, h1⟩ := held_all hr H0 fun t op hm => .inl (he1 t op hm)
      refine .step (ih he1) hstep ?_
      obtain ⟨-, -, -, -, -, -, h2⟩ := h1.step H1 hstep fun t op e => .inl (he t op (List.mem_append_right _ (by rw [e]; exact List.mem_singleton_self _)))
      rcases h2 with h2 | ⟨h', rfl, t, p, h3, h4⟩
      · exact .inl h2
      · exact .inr ⟨t, p, h3, h4⟩
  · obtain ⟨fo, mo, lo, gs, H1, h1⟩ := held_all hr H0 fun t op hm => .inl (he t op hm)
    exact h1.names

/-- C95: so a file that one client writes holds exactly what the calls on it say, whatever the other threads do with other files:
after a Flush, Sync or Close that returned OK everything that was appended, in the order of the calls. -/
theorem C95_flushed {w : World} {L1 L2 : Int} {n : Nat} (hs : Setting w L1 L2 n) {es0 : List Ev} {c0 : Conf}
    (h0 : Run strerror full (Conf.init w L1 L2 n) es0 c0) {f : WFile} {base : Bytes} (hx : Sole c0 name ino h (.wr f))
    (ho : Opened name f ino base c0.w) {es : List Ev} {c : Conf}
    (hr : Run strerror full c0 es c) (he : ∀ t op, Ev.call t op ∈ es → Elsewhere name op) {ws : List WOp} {last : WOp}
    (hw : callsOn h es = (ws ++ [last]).map (.write h)) (hc : WOp.close ∉ ws) (hl : last = .flush ∨ last = .sync ∨ last = .close)
    (hall : (answersOn h es).length = ws.length + 1) (hok : ∀ r ∈ answersOn h es, r = .status .ok) :
    c.w.k.lookup (cstr name) = some ino ∧ Contents c.w.k ino = some (base ++ appended ws) := by
  obtain ⟨h1, h2⟩ := C95_untouched hs h0 hx hr he
  exact ⟨(h2 _).2 rfl, C93_flushed hs h0 hx.has ho h1 hw hc hl hall hok⟩

/-- C95: at any moment, as long as no call on the file has failed, a machine that stops leaves in the file what it could have left at
`c0`, or what the file held then followed by some of the stream, from its beginning. -/
theorem C95_crash {w : World} {L1 L2 : Int} {n : Nat} (hs : Setting w L1 L2 n) {es0 : List Ev} {c0 : Conf}
    (h0 : Run strerror full (Conf.init w L1 L2 n) es0 c0) {f : WFile} {base : Bytes} (hx : Sole c0 name ino h (.wr f))
    (ho : Opened name f ino base c0.w) {es : List Ev} {c : Conf}
    (hr : Run strerror full c0 es c) (he : ∀ t op, Ev.call t op ∈ es → Elsewhere name op) {ws : List WOp}
    (hw : callsOn h es = ws.map (.write h)) (hc : WOp.close ∉ ws.dropLast) (hok : ∀ r ∈ answersOn h es, r = .status .ok) :
    (∃ b, CouldBe c.w.k ino b) ∧ ∀ b, CouldBe c.w.k ino b → CouldBe c0.w.k ino b ∨ ∃ p, p <+: appended ws ∧ b = base ++ p :=
  C93_crash hs h0 hx.has ho (C95_untouched hs h0 hx hr he).1 hw hc hok

/-- C95: after a Sync that returned OK, whatever the threads do later with other files, and with the file through the object, and
whenever the machine stops: everything that was appended before the Sync is in the file. -/
theorem C95_synced {w : World} {L1 L2 : Int} {n : Nat} (hs : Setting w L1 L2 n) {es0 : List Ev} {c0 : Conf}
    (h0 : Run strerror full (Conf.init w L1 L2 n) es0 c0) {f : WFile} {base : Bytes} (hx : Sole c0 name ino h (.wr f))
    (ho : Opened name f ino base c0.w) {es es' : List Ev} {c c' : Conf}
    (hr : Run strerror full c0 es c) (hr' : Run strerror full c es' c') (he : ∀ t op, Ev.call t op ∈ es ++ es' → Elsewhere name op)
    {ws : List WOp} (hw : callsOn h es = (ws ++ [WOp.sync]).map (.write h)) (hc : WOp.close ∉ ws)
    (hall : (answersOn h es).length = ws.length + 1) (hok : ∀ r ∈ answersOn h es, r = .status .ok)
    {ws' : List WOp} (hw' : callsOn h es' = ws'.map (.write h)) (hc' : WOp.close ∉ ws'.dropLast) :
    (∃ b, CouldBe c'.w.k ino b) ∧ ∀ b, CouldBe c'.w.k ino b → base ++ appended ws <+: b := by
  obtain ⟨ext, extm, L, H0⟩ := hx.held hs h0
  have he1 := fun t op hm => he t op (List.mem_append_left _ hm)
  have h1 := (C95_untouched hs h0 hx hr he1).1
  have h2 : CarefulRun strerror full (fun a b => b = a) h ino c es' c' := by
    have H1 := held_all hr H0 fun t op hm => .inl (he1 t op hm)
    have he2 : ∀ t op, Ev.call t op ∈ es' → Elsewhere name op := fun t op hm => he t op (List.mem_append_right _ hm)
    clear hw' hc' he
    induction hr' with
    | nil => exact .nil _
    | step hr' hstep ih =>
      have he3 := fun t op hm => he2 t op (List.mem_append_left _ hm)
      obtain ⟨fo, mo, lo, gs, H2, h3⟩ := held_all hr' H1 fun t op hm => .inl (he3 t op hm)
      refine .step (ih he3) hstep ?_
      obtain ⟨-, -, -, -, -, -, h4⟩ := h3.step H2 hstep fun t op e => .inl (he2 t op (List.mem_append_right _ (by rw [e]; exact List.mem_singleton_self _)))
      rcases h4 with h4 | ⟨h', rfl, t, p, h5, h6⟩
      · exact .inl h4
      · exact .inr ⟨t, p, h5, h6⟩
  exact C93_synced hs h0 hx.has ho h1 hw hc hall hok h2 hw' hc'

theorem SameData.growth {a b : Option Inode} (h : SameData a b) : Growth a b := by
  intro n hn
  obtain ⟨n', h1, h2, h3, -⟩ := h n hn
  exact ⟨n', h1, h2, by rw [h3]; exact List.prefix_refl _⟩

theorem SameData.regular {k k' : Kernel} (h : SameData (k.inodes[ino]?) (k'.inodes[ino]?)) (hf : RegularFile k ino D) : RegularFile k' ino D := by
  obtain ⟨n, h1, h2, h3⟩ := hf
  obtain ⟨n', h4, h5, h6, -⟩ := h n h1
  exact ⟨n', h4, h5.trans h2, h6.trans h3⟩

/-- C95: nobody has a file that has one name open for writing.  As long as the calls that name it only open it for reading or ask
about it, whatever else the threads do, in any interleaving, whatever fails: its contents and its name stay. -/
theorem C95_kept {w : World} {L1 L2 : Int} {n : Nat} (hs : Setting w L1 L2 n) {es0 : List Ev} {c0 : Conf}
    (h0 : Run strerror full (Conf.init w L1 L2 n) es0 c0) (hx : ReadOnly c0 name ino D) {es : List Ev} {c : Conf}
    (hr : Run strerror full c0 es c) (he : ∀ t op, Ev.call t op ∈ es → Elsewhere name op ∨ LooksOnly op) :
    RegularFile c.w.k ino D ∧ OnlyName c.w.k name ino ∧ ∀ o, StillRun strerror full o name ino c0 es c := by
  obtain ⟨ext, extm, L, H0⟩ := hx.held hs h0
  have key : ∀ {es : List Ev} {c : Conf}, Run strerror full c0 es c → (∀ t op, Ev.call t op ∈ es → Elsewhere name op ∨ LooksOnly op) →
      OnlyName c.w.k name ino := by
    intro es c hr he
    obtain ⟨fo, mo, lo, gs, H1, h1⟩ := held_all hr H0 fun t op hm => (he t op hm).imp id fun h => ⟨rfl, h⟩
    exact h1.names
  have both : RegularFile c.w.k ino D ∧ ∀ o, StillRun strerror full o name ino c0 es c := by
    induction hr with
    | nil => exact ⟨hx.file, fun o => .nil _⟩
    | step hr hstep ih =>
      have he1 := fun t op hm => he t op (List.mem_append_left _ hm)
      obtain ⟨i1, i2⟩ := ih he1
      obtain ⟨fo, mo, lo, gs, H1, h1⟩ := held_all hr H0 fun t op hm => (he1 t op hm).imp id fun h => ⟨rfl, h⟩
      obtain ⟨_, _, _, _, _, h3, h2⟩ := h1.step H1 hstep fun t op e =>
        (he t op (List.mem_append_right _ (by rw [e]; exact List.mem_singleton_self _))).imp id fun h => ⟨rfl, h⟩
      rcases h2 with h2 | ⟨_, h, _⟩
      · have h2 : SameData _ _ := h2
        exact ⟨h2.regular i1, fun o => .step (i2 o) hstep h2.growth fun _ => by rw [(h1.names _).2 rfl, (h3.names _).2 rfl]⟩
      · exact h.elim
  exact ⟨both.1, key hr he, both.2⟩

/-- C95: so each read of a random-access file object for such a file, by any thread, while the other threads do whatever they do:
if it succeeded it returned bytes of `D` at that offset, none only if none were asked for or the offset is beyond the end; if it
failed it returned none. -/
theorem C95_reads {w : World} {L1 L2 : Int} {m : Nat} (hs : Setting w L1 L2 m) {es0 : List Ev} {c0 : Conf}
    (h0 : Run strerror full (Conf.init w L1 L2 m) es0 c0) (hx : ReadOnly c0 name ino D) {f : RandFile} (hf : c0.has h (.rand f))
    (hv : Serves c0.w.k name ino D (.rand f)) {es : List Ev} {c : Conf}
    (hr : Run strerror full c0 es c) (he : ∀ t op, Ev.call t op ∈ es → Elsewhere name op ∨ LooksOnly op)
    {t offset n : Nat} {r : PRes} (hoff : offset < 2 ^ 64) (hm : (POp.randRead h offset n, r) ∈ exchanges t es) :
    ∃ st d, r = .data st d ∧
      (st = .ok → d.getD [] <+: D.drop offset ∧ (d.getD []).length ≤ n ∧ (d.getD [] = [] ↔ n = 0 ∨ D.length ≤ offset)) ∧
      (st ≠ .ok → d.getD [] = []) := by
  obtain ⟨h1, -, h2⟩ := C95_kept hs h0 hx hr he
  refine C94_reads_fixed hs h0 hf hv (fun x hxm k => (hx.others x hxm k).2) (h2 _) ?_ hoff hm
  obtain ⟨a, ha, -, hd⟩ := h1
  unfold Contents
  rw [ha]
  exact congrArg some hd

/-- C95: and each read of an object that has mapped the file, as long as the object exists. -/
theorem C95_views {w : World} {L1 L2 : Int} {m : Nat} (hs : Setting w L1 L2 m) {es0 : List Ev} {c0 : Conf}
    (h0 : Run strerror full (Conf.init w L1 L2 m) es0 c0) (hx : ReadOnly c0 name ino D) {f : MmapFile} (hf : c0.has h (.mmap f))
    (hv : Serves c0.w.k name ino D (.mmap f)) {es : List Ev} {c : Conf}
    (hr : Run strerror full c0 es c) (he : ∀ t op, Ev.call t op ∈ es → Elsewhere name op ∨ LooksOnly op) (hc : c.has h (.mmap f))
    {t offset n : Nat} {r : PRes} (hoff : offset + n < 2 ^ 64) (hm : (POp.randRead h offset n, r) ∈ exchanges t es) :
    ∃ st v, r = .view st v ∧ (st = .ok ↔ offset + n ≤ D.length) ∧
      viewBytes c.w.k v = some (if st = .ok then (D.drop offset).take n else []) :=
  C94_views hs h0 hf hv (fun x hxm k => (hx.others x hxm k).2) ((C95_kept hs h0 hx hr he).2.2 _) hc hoff hm

/-! ## Concrete runs -/

def onlyNameB (k : Kernel) (name : Bytes) (ino : Nat) : Bool :=
  k.names.all (fun e => decide (e.2 = ino → e.1 = cstr name)) && decide (k.lookup (cstr name) = some ino)

theorem aFind_get {β : Type} (v : β) (p : Bytes) : ∀ l : List (Bytes × β), aFind l p = some v → (p, v) ∈ l := by
  intro l
  induction l with
  | nil => intro h; exact nomatch h
  | cons e l ih =>
    obtain ⟨q, x⟩ := e
    intro h
    unfold aFind at h
    split at h
    · rename_i e
      injection h with h
      subst e h
      exact List.mem_cons_self
    · exact List.mem_cons_of_mem _ (ih h)

theorem onlyName_of_B {k : Kernel} (hb : onlyNameB k name ino = true) : OnlyName k name ino := by
  unfold onlyNameB at hb
  rw [Bool.and_eq_true, List.all_eq_true, decide_eq_true_eq] at hb
  intro p
  refine ⟨fun hp => ?_, fun e => by rw [e]; exact hb.2⟩
  exact of_decide_eq_true (hb.1 (p, ino) (aFind_get _ _ _ hp)) rfl

/-- All descriptors of file `ino` satisfy `p`. -/
def fdsB (k : Kernel) (ino : Nat) (p : Nat → Ofd → Bool) : Bool :=
  (List.range k.fds.length).all fun i =>
    match k.ofd (i : Int) with
    | some q => decide (q.ino ≠ ino) || p i q
    | none => true

theorem fds_of_B {k : Kernel} {p : Nat → Ofd → Bool} (hb : fdsB k ino p = true) (i : Nat) (q : Ofd) (hq : k.ofd (i : Int) = some q)
    (hi : q.ino = ino) : p i q = true := by
  unfold fdsB at hb
  rw [List.all_eq_true] at hb
  have := hb i (List.mem_range.2 (by
    have := (toNat_lt_of_ofd hq).2
    exact (List.getElem?_eq_some_iff.1 this).1))
  rw [hq] at this
  simpa [hi] using this

def elsewhereB (name : Bytes) (op : POp) : Bool :=
  (pathsIn op).all fun n => decide (cstr n ≠ cstr name) &&
    match Dirname n with
    | .ok d => decide (cstr d ≠ cstr name)
    | .error _ => true

theorem elsewhere_of_B {op : POp} (hb : elsewhereB name op = true) : Elsewhere name op := by
  unfold elsewhereB at hb
  rw [List.all_eq_true] at hb
  intro n hn
  have := hb n hn
  rw [Bool.and_eq_true, decide_eq_true_eq] at this
  refine ⟨this.1, fun d hd => ?_⟩
  rw [hd] at this
  exact of_decide_eq_true this.2

def looksB : POp → Bool
  | .newSequential _ => true
  | .newRandomAccess _ => true
  | .fileExists _ => true
  | .getChildren _ => true
  | .getFileSize _ => true
  | _ => false

theorem looks_of_B {op : POp} (hb : looksB op = true) : LooksOnly op := by
  cases op <;> first | trivial | exact nomatch hb

/-- All calls are about other files, or (if allowed) only look. -/
def callsB (ro : Bool) (name : Bytes) (es : List Ev) : Bool :=
  es.all fun
    | .call _ op => elsewhereB name op || (ro && looksB op)
    | .ret _ _ => true

theorem calls_of_B {ro : Bool} {es : List Ev} (hb : callsB ro name es = true) (t : Nat) (op : POp) (hm : Ev.call t op ∈ es) :
    Elsewhere name op ∨ (ro = true ∧ LooksOnly op) := by
  unfold callsB at hb
  rw [List.all_eq_true] at hb
  have := hb _ hm
  rcases Bool.or_eq_true _ _ ▸ this with h | h
  · exact .inl (elsewhere_of_B h)
  · rw [Bool.and_eq_true] at h
    exact .inr ⟨h.1, looks_of_B h.2⟩

theorem quiet_of {c : Conf} (h : ∀ x ∈ c.th, x.busy = false) : c.quiet := by
  rintro t ⟨home, p, ht⟩
  exact nomatch h _ (List.mem_of_getElem? ht)

theorem calm_respects : Respects name ino calm := fun _ => ⟨fun _ h => ⟨h, fun h => h⟩, rfl, rfl⟩

theorem soloSole : Sole soloConf (lit "/db/b") 3 1 (.wr soloFile) := by
  refine ⟨quiet_of (by decide +kernel), soloOpened.1, onlyName_of_B (by decide +kernel), ⟨⟨false, [], []⟩, by rfl⟩, fun i q hq hi => ?_, ?_, ?_⟩
  · have := fds_of_B (p := fun i _ => decide (i = 1)) (by decide +kernel) i q hq hi
    have : i = 1 := of_decide_eq_true this
    subst this
    rfl
  · intro h' o' ho'
    have hl : ∀ x ∈ soloConf.objs, ∀ o, x = some o → ObjElsewhere (lit "/db/b") o := by
      have : soloConf.objs = [some (.wr ⟨fun _ => none, 0, 2, false, lit "/db/a", lit "/db"⟩), some (.wr soloFile)] := by rfl
      rw [this]
      intro x hx o ho
      subst ho
      simp only [List.mem_cons, List.not_mem_nil, or_false, Option.some.injEq] at hx
      rcases hx with rfl | rfl <;> (show cstr _ ≠ cstr _; decide)
    exact hl _ (List.mem_of_getElem? ho') o' rfl
  · have : soloConf.w.choices = List.replicate 38 calm := by rfl
    rw [this]
    intro x hx
    rw [List.eq_of_mem_replicate hx]
    exact calm_respects

/-- Thread 1 appends to "/db/b", flushes and closes it; meanwhile thread 0 removes "/db/a", renames "/db/t" to "/db/a", and thread 2
creates and locks other files and writes to one. -/
def busyElsewhere : List Act :=
  [.call 1 (.write 1 (.append (Slice.ofBytes [1, 2]))), .call 0 (.removeFile (lit "/db/a")), .ret 1, .call 2 (.newWritable (lit "/db/c")), .move 0,
   .call 1 (.write 1 .flush), .move 2, .ret 0, .ret 2, .call 0 (.renameFile (lit "/db/t") (lit "/db/a")),
   .call 2 (.write 2 (.append (Slice.ofBytes [9]))), .ret 2, .move 1, .move 0, .call 2 (.write 2 .sync), .ret 1, .ret 0, .move 2, .move 2, .ret 2,
   .call 0 (.lockFile (lit "/db/l")), .move 0, .call 1 (.write 1 (.append (Slice.ofBytes [3]))), .move 0, .ret 1, .move 0, .ret 0,
   .call 2 (.write 1 .close), .call 0 (.delete 0), .move 0, .move 2, .move 2, .ret 0, .ret 2]

/-- All hypotheses of C95_flushed hold of this run; the theorem says what is in the file. -/
example : ∃ es c, Run (fun _ => []) false soloConf es c ∧ (∀ t op, Ev.call t op ∈ es → Elsewhere (lit "/db/b") op) ∧
    c.w.k.lookup (lit "/db/b") = some 3 ∧ Contents c.w.k 3 = some [1, 2, 3] ∧ Contents c.w.k 5 = some [9] := by
  have h0 : Run (fun _ => []) false concStart _ soloConf := play_run _ _ _ _ solo_start.choose_spec
  have hex : ((play (fun _ => []) false 9 busyElsewhere soloConf).map fun x => (callsOn 1 x.1, answersOn 1 x.1, callsB false (lit "/db/b") x.1,
      Contents x.2.w.k 5)) =
      some (([WOp.append (Slice.ofBytes [1, 2]), .flush, .append (Slice.ofBytes [3])] ++ [WOp.close]).map (.write 1),
        [.status .ok, .status .ok, .status .ok, .status .ok], true, some [9]) := by rfl
  cases hp : play (fun _ => []) false 9 busyElsewhere soloConf with
  | none => rw [hp] at hex; exact nomatch hex
  | some x =>
    obtain ⟨es, c⟩ := x
    rw [hp] at hex
    injection hex with hex
    injection hex with hcalls hex
    injection hex with hans hex
    injection hex with hB h5
    have hr := play_run _ _ _ _ hp
    have he : ∀ t op, Ev.call t op ∈ es → Elsewhere (lit "/db/b") op := fun t op hm =>
      (calls_of_B hB t op hm).elim id fun h => nomatch h.1
    have := C95_flushed readsSetting h0 soloSole soloOpened.2 hr he hcalls (by simp) (.inr (.inr rfl)) (by rw [hans]; rfl) (by rw [hans]; simp)
    refine ⟨es, c, hr, he, this.1, ?_, h5⟩
    rw [this.2]
    decide

theorem readsReadOnly : ReadOnly readsConf (lit "/db/t") 2 [1, 2, 3] := by
  refine ⟨quiet_of (by decide +kernel), onlyName_of_B (by decide +kernel), reads_regular, fun i q hq hi => ?_, ?_⟩
  · have := fds_of_B (p := fun _ q => decide (q.wr = false)) (by decide +kernel) i q hq hi
    exact of_decide_eq_true this
  · have : readsConf.w.choices = List.replicate 33 calm := by rfl
    rw [this]
    intro x hx
    rw [List.eq_of_mem_replicate hx]
    exact calm_respects

/-- Threads 0 and 1 read from objects 0 and 1 of "/db/t" while thread 2 opens the file once more and reads, asks for its size, and
writes another file. -/
def lookers : List Act :=
  [.call 0 (.randRead 0 1 2), .call 2 (.newSequential (lit "/db/t")), .call 1 (.randRead 1 0 2), .move 2, .move 1, .ret 2, .move 0,
   .call 2 (.seqRead 3 9), .move 2, .ret 0, .move 1, .ret 2, .call 2 (.newWritable (lit "/db/c")), .move 1, .move 2, .ret 1, .ret 2,
   .call 2 (.write 4 (.append (Slice.ofBytes [9]))), .ret 2, .call 2 (.write 4 .close), .move 2, .call 0 (.getFileSize (lit "/db/t")), .move 0,
   .move 2, .ret 0, .ret 2, .call 1 (.randRead 1 3 1), .move 1, .move 1, .move 1, .ret 1]

/-- All hypotheses of C95_reads hold of this run, for a read that returned something. -/
example : ∃ es c, Run (fun _ => []) false readsConf es c ∧ (∀ t op, Ev.call t op ∈ es → Elsewhere (lit "/db/t") op ∨ LooksOnly op) ∧
    (POp.randRead 1 0 2, PRes.data .ok (some [1, 2])) ∈ exchanges 1 es ∧ RegularFile c.w.k 2 [1, 2, 3] ∧
    ∃ st d, PRes.data .ok (some [1, 2]) = .data st d ∧ (st = .ok → d.getD [] <+: [1, 2, 3].drop 0) := by
  obtain ⟨es0, h0⟩ := reads_run
  have hex : ((play (fun _ => []) false 9 lookers readsConf).map fun x => (callsB true (lit "/db/t") x.1, (exchanges 1 x.1).head?)) =
      some (true, some (POp.randRead 1 0 2, PRes.data .ok (some [1, 2]))) := by rfl
  cases hp : play (fun _ => []) false 9 lookers readsConf with
  | none => rw [hp] at hex; exact nomatch hex
  | some x =>
    obtain ⟨es, c⟩ := x
    rw [hp] at hex
    injection hex with hex
    injection hex with hB hm
    have hm := List.mem_of_mem_head? hm
    have hr := play_run _ _ _ _ hp
    have he : ∀ t op, Ev.call t op ∈ es → Elsewhere (lit "/db/t") op ∨ LooksOnly op := fun t op hm =>
      (calls_of_B hB t op hm).imp id fun h => h.2
    refine ⟨es, c, hr, he, hm, (C95_kept readsSetting h0 readsReadOnly hr he).1, ?_⟩
    obtain ⟨st, d, h1, h2, -⟩ := C95_reads readsSetting h0 readsReadOnly nameServes.1 nameServes.2 hr he (by decide) hm
    exact ⟨st, d, h1, fun e => (h2 e).1⟩

/-- The mapped file: thread 0 reads from object 2 while thread 1 renames another file over a third one. -/
example : ∃ es c, Run (fun _ => []) false readsConf es c ∧ (∀ t op, Ev.call t op ∈ es → Elsewhere (lit "/db/t") op ∨ LooksOnly op) ∧
    (POp.randRead 2 1 2, PRes.view .ok (.view 0 1 2)) ∈ exchanges 0 es ∧ viewBytes c.w.k (.view 0 1 2) = some [2, 3] := by
  obtain ⟨es0, h0⟩ := reads_run
  have hex : ((play (fun _ => []) false 9 [.call 1 (.newWritable (lit "/db/c")), .move 1, .ret 1, .call 0 (.randRead 2 1 2),
      .call 1 (.renameFile (lit "/db/c") (lit "/db/e")), .move 1, .ret 0, .ret 1, .call 1 (.write 3 (.append (Slice.ofBytes [9]))), .ret 1,
      .call 1 (.write 3 .flush), .move 1, .ret 1] readsConf).map fun x => (callsB true (lit "/db/t") x.1, (exchanges 0 x.1).head?, x.2.objs[2]?)) =
      some (true, some (POp.randRead 2 1 2, PRes.view .ok (.view 0 1 2)), some (some (.mmap mappedFile))) := by rfl
  generalize hp : play (fun _ => []) false 9 _ readsConf = y at hex
  cases y with
  | none => exact nomatch hex
  | some x =>
    obtain ⟨es, c⟩ := x
    injection hex with hex
    injection hex with hB hex
    injection hex with hm hc
    have hm := List.mem_of_mem_head? hm
    have hr := play_run _ _ _ _ hp
    have he : ∀ t op, Ev.call t op ∈ es → Elsewhere (lit "/db/t") op ∨ LooksOnly op := fun t op hm =>
      (calls_of_B hB t op hm).imp id fun h => h.2
    obtain ⟨st, v, h1, h2, h3⟩ := C95_views readsSetting h0 readsReadOnly mapServes.1 mapServes.2 hr he hc (by decide) hm
    cases h1
    exact ⟨es, c, hr, he, hm, h3⟩

/-- A Sync, and what the threads do later. -/
example : ∃ es es' c c', Run (fun _ => []) false soloConf es c ∧ Run (fun _ => []) false c es' c' ∧ (∃ b, CouldBe c'.w.k 3 b) ∧
    (∀ b, CouldBe c'.w.k 3 b → [1, 2] <+: b) ∧ CouldBe c'.w.k 3 [1, 2] ∧ CouldBe c'.w.k 3 [1, 2, 3] := by
  have h0 : Run (fun _ => []) false concStart _ soloConf := play_run _ _ _ _ solo_start.choose_spec
  have hex : ((play (fun _ => []) false 9 [.call 1 (.write 1 (.append (Slice.ofBytes [1, 2]))), .call 0 (.removeFile (lit "/db/a")), .ret 1,
      .call 1 (.write 1 .sync), .move 1, .move 0, .move 1, .ret 1] soloConf).bind fun x =>
        (play (fun _ => []) false 9 [.call 1 (.write 1 (.append (Slice.ofBytes [3]))), .ret 0, .call 0 (.newWritable (lit "/db/a")), .ret 1,
          .call 1 (.write 1 .flush), .move 0, .move 1] x.2).map fun y =>
        (callsOn 1 x.1, answersOn 1 x.1, callsOn 1 y.1, callsB false (lit "/db/b") (x.1 ++ y.1), y.2.w.k.inodes[3]?)) =
      some (([WOp.append (Slice.ofBytes [1, 2])] ++ [WOp.sync]).map (.write 1), [.status .ok, .status .ok],
        [WOp.append (Slice.ofBytes [3]), .flush].map (.write 1), true, some ⟨false, [1, 2, 3], [[1, 2], [1, 2]]⟩) := by rfl
  generalize hp : play (fun _ => []) false 9 _ soloConf = y at hex
  cases y with
  | none => exact nomatch hex
  | some x =>
    obtain ⟨es, c⟩ := x
    simp only [Option.bind_some] at hex
    generalize hp' : play (fun _ => []) false 9 _ c = z at hex
    cases z with
    | none => exact nomatch hex
    | some z =>
      obtain ⟨es', c'⟩ := z
      injection hex with hex
      injection hex with hcalls hex
      injection hex with hans hex
      injection hex with hcalls' hex
      injection hex with hB hi
      have hr := play_run _ _ _ _ hp
      have hr' := play_run _ _ _ _ hp'
      have := C95_synced readsSetting h0 soloSole soloOpened.2 hr hr' (fun t op hm => (calls_of_B hB t op hm).elim id fun h => nomatch h.1)
        hcalls (by simp) (by rw [hans]; rfl) (by rw [hans]; simp) hcalls' (by simp)
      have hi : c'.w.k.inodes[3]? = _ := hi
      exact ⟨es, es', c, c', hr, hr', this.1, this.2, ⟨_, hi, .inr List.mem_cons_self⟩, ⟨_, hi, .inl rfl⟩⟩

/-- The hypotheses matter: a call that names the file may take it away. -/
example : ((play (fun _ => []) false 9 [.call 0 (.removeFile (lit "/db/t")), .move 0, .ret 0] readsConf).map fun x =>
    (callsB true (lit "/db/t") x.1, x.2.w.k.lookup (lit "/db/t"))) = some (false, none) := by rfl

end Conc
end Posix
end Lsmdb
