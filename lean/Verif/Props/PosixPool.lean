import Verif.Proof.PosixPool2
import Verif.Props.PosixTrip

/-!
# Files that are renamed over each other while threads read them (C99)
-/

namespace Lsmdb
namespace Posix
namespace Conc

open MemEnv (St lit)

variable {strerror : Strerror} {full : Bool} {t h : Nat} {name : Bytes}
variable {N : Bytes → Prop} {S : Nat → Option Bytes} {T : Bytes → Prop}

/-- The invariant: it is peaceful, and the moment can be reached. -/
def Reached (strerror : Strerror) (full : Bool) (N : Bytes → Prop) (S : Nat → Option Bytes) (T : Bytes → Prop) (w : World) (L1 L2 : Int) (m : Nat)
    (c : Conf) : Prop :=
  Peace N S T c ∧ ∃ es, Run strerror full (Conf.init w L1 L2 m) es c

theorem Reached.step {w : World} {L1 L2 : Int} {m : Nat} {c c' : Conf} {e : Option Ev} (hI : Reached strerror full N S T w L1 L2 m c)
    (hs : Step strerror full c e c') (he : ∀ t op, e = some (.call t op) → Obeys N T op) : Reached strerror full N S T w L1 L2 m c' := by
  obtain ⟨h1, es, h2⟩ := hI
  exact ⟨h1.step hs he, _, h2.step hs⟩

theorem Pool.peace {c : Conf} (hx : Pool N S c) (hT : ∀ p, T p → N p ∧ c.w.k.lookup p ≠ none)
    (ho : ∀ x ∈ c.w.choices, ∀ k, NamesOf N S k → FilesOf S k → ∀ p, T p → k.lookup p ≠ none → (x.other k).lookup p ≠ none) : Peace N S T c := by
  refine ⟨⟨hx.names, hx.files, fun i q hq hS => ?_, hT⟩, fun t home p ht => (hx.quiet t ⟨home, p, ht⟩).elim, fun x hm => ⟨hx.others x hm, ho x hm⟩⟩
  have := ofd_nat hq
  rw [← this] at hq
  exact hx.fds _ q hq hS

/-- No name has to stay. -/
theorem Pool.peaceful {c : Conf} (hx : Pool N S c) : Peace N S (fun _ => False) c := hx.peace (fun _ h => h.elim) fun _ _ _ _ _ _ h => h.elim

theorem Orderly.obeys {es : List Ev} (he : Orderly N es) : ∀ t op, Ev.call t op ∈ es → Obeys N (fun _ => False) op :=
  fun t op hm => ⟨he t op hm, fun _ h => h.elim⟩

/-- The call that opens a sequential file: it has not opened it yet, or has failed, or has a descriptor of one of the files. -/
def SeqOpen (strerror : Strerror) (S : Nat → Option Bytes) (name : Bytes) (p : Prog Fin) (c : Conf) : Prop :=
  p = NewSequentialFile strerror name ∨ (∃ st, p = .ret (.failed st)) ∨
    ∃ (i ino : Nat) (D : Bytes) (q : Ofd), p = .ret (.new (.seq ⟨i, name⟩)) ∧ S ino = some D ∧ c.w.k.ofd (i : Int) = some q ∧ q.ino = ino ∧
      q.rd = true ∧ q.off = 0

theorem seq_along {w : World} {L1 L2 : Int} {m : Nat} (hs : Setting w L1 L2 m) (hN : N (cstr name)) :
    Along strerror full (Reached strerror full N S T w L1 L2 m) t .none (SeqOpen strerror S name) := by
  refine ⟨?_, ?_⟩
  · rintro c c' e p ⟨hP, es, hr⟩ hp ht hstep hsame
    rcases hp with h | h | ⟨i, ino, D, q, h1, h2, h3, h4⟩
    · exact .inl h
    · exact .inr (.inl h)
    · refine .inr (.inr ⟨i, ino, D, q, h1, h2, ?_, h4⟩)
      cases hstep with
      | call => exact h3
      | ret => rw [finish_w]; exact h3
      | move u home cmd k r sh w' hu hx =>
        obtain ⟨fo, mo, lo, gs, H⟩ := hs.inv hr
        obtain ⟨g, hg⟩ := H.ghost ht
        have hrun := H.run t .none p g ht hg
        have hne : u ≠ t := by
          rintro rfl
          rw [h1] at ht
          have := get_some_eq hu ht
          exact nomatch this
        subst h1
        have hF : i ∈ g.F := by
          obtain ⟨-, hH, -⟩ : Done .none (.new (.seq ⟨i, name⟩)) g := hrun
          exact (hH.F _).2 rfl
        have hown : fo i = .thr t := (H.F.thr t i).2 ⟨g, hg, hF⟩
        have := H.stays hu hx (i := i) (fun x hxm k => ((hP.choices x hxm).1 k).2.2) (by rw [hown]; simp)
          (by rw [hown]; exact fun e => hne (Owner.thr.inj e).symm)
        simp only
        rw [this]
        exact h3
  · rintro c cmd k r sh w' ⟨hP, es, hr⟩ hp ht hx
    rcases hp with h | ⟨st, h⟩ | ⟨i, ino, D, q, h1, -⟩
    · have hL := exec_lasts hx (hP.progs t .none _ ht).1 hP.choices hP.lasts
      unfold NewSequentialFile at h
      injection h with h1 h2
      subst h1
      cases h2
      obtain ⟨hsy, -⟩ := keep_done hx
      rcases open_found hsy with ⟨e, rfl⟩ | ⟨i, ino, rfl, h3, -, h4⟩
      · exact .inr (.inl ⟨_, rfl⟩)
      · obtain ⟨D, hD⟩ := (hL.names _ _ h3).1 hN
        exact .inr (.inr ⟨i, ino, D, _, rfl, hD, h4, rfl, rfl, rfl⟩)
    · exact nomatch h
    · exact nomatch h1

/-- Opening a sequential file and reading from it. -/
theorem seq_reads {w : World} {L1 L2 : Int} {m : Nat} (hs : Setting w L1 L2 m) {c0 : Conf}
    (hI : Reached strerror full N S T w L1 L2 m c0) (hN : N (cstr name)) {ds : List Ev} {c1 : Conf}
    (hc : CallIn strerror full t (.newSequential name) (.opened .ok (some h)) c0 ds c1) {es : List Ev} {c : Conf}
    (hr : Run strerror full c1 es c) (he : ∀ t op, Ev.call t op ∈ ds ++ es → Obeys N T op) {ops : List SOp} (hw : callsOn h es = ops.map (callOf h))
    (hn : ∀ n, SOp.skip n ∈ ops → n < 2 ^ 63) :
    ∃ i D f, S i = some D ∧ c1.has h (.seq f) ∧
      (c.has h (.seq f) → ∃ as q, answersOn h es = List.zipWith answerOf ops as ∧ Walk D D 0 ops as q) := by
  obtain ⟨c3, a, -, -, hP, ⟨hp, es1, r1⟩, e1, e2⟩ := (seq_along hs hN).call (op := .newSequential name) hc (fun hI hs he => Reached.step hI hs he)
    hI (fun t op hm => he t op (List.mem_append_left _ hm)) ⟨trivial, fun _ _ => trivial⟩ (fun fuel _ _ => .inl rfl)
  rcases hP with h1 | ⟨st, h1⟩ | ⟨fd, i, D, q, h1, h2, h3, h4, h5, h6⟩
  · exact nomatch h1
  · cases h1
    exact nomatch e2
  · cases h1
    have e2 : PRes.opened .ok (some h) = .opened .ok (some c3.objs.length) := e2
    injection e2 with _ e2
    injection e2 with e2
    subst e2
    have ho : c1.has c3.objs.length (.seq ⟨fd, name⟩) := by
      rw [e1]
      show (c3.objs ++ [_])[c3.objs.length]? = _
      simp
    refine ⟨i, D, ⟨fd, name⟩, h2, ho, fun hco => ?_⟩
    have hw3 : c1.w = c3.w := by rw [e1]; exact finish_w _ _ _
    rw [← hw3] at h3
    obtain ⟨n, hn1, hd, hD⟩ := hp.lasts.files i D h2
    have hst := hp.still (o := .seq ⟨fd, name⟩) (name := name) hr (fun t op hm => he t op (List.mem_append_right _ hm)) h2 rfl
    have hp' := Peace.all hr (fun t op hm => he t op (List.mem_append_right _ hm)) hp
    obtain ⟨as, D', n', p, g1, g2, g3, g4, g5⟩ := C93_reader hs r1 ho ⟨q, n, h3, h4, h5, h6, hn1, hd, hD⟩ (fun x hxm k => by
      obtain ⟨f1, -, f2, -⟩ := (hp.choices x hxm).1 k
      exact ⟨keeps_ofd f2 _, fun b hb => ⟨b, f1 i D b h2 hb, rfl, List.prefix_refl _⟩⟩) (still_careful hst _) hw hn hco
    obtain ⟨a', ha', -, hD'⟩ := hp'.lasts.files i D h2
    rw [ha'] at g4
    injection g4 with g4
    subst g4
    rw [hD'] at g5
    obtain rfl := g3.eq_of_length_le g5.length_le
    exact ⟨as, p, g1, g2⟩

/-- C99: files `S` have names in `N` only, and names in `N` are names of such files only; nobody has one of them open for writing.
Threads do whatever they do, as long as they create nothing under these names and give these files no other names: they may rename the
files over each other, remove them, and read them.  Among them thread `t` opens one of the names as a sequential file while the others
go on, in any interleaving.  Then there is a file in `S` such that the calls on the new object, by any threads, up to any later moment,
whatever is renamed or removed meanwhile, read the contents of this one file from the beginning, in order, without gap or repetition,
and end where the file ends: never a mixture of two files, never part of a file only. -/
theorem C99_sequential {w : World} {L1 L2 : Int} {m : Nat} (hs : Setting w L1 L2 m) {es0 : List Ev} {c0 : Conf}
    (h0 : Run strerror full (Conf.init w L1 L2 m) es0 c0) (hx : Pool N S c0) (hN : N (cstr name)) {ds : List Ev} {c1 : Conf}
    (hc : CallIn strerror full t (.newSequential name) (.opened .ok (some h)) c0 ds c1) {es : List Ev} {c : Conf}
    (hr : Run strerror full c1 es c) (he : Orderly N (ds ++ es)) {ops : List SOp} (hw : callsOn h es = ops.map (callOf h))
    (hn : ∀ n, SOp.skip n ∈ ops → n < 2 ^ 63) :
    ∃ i D f, S i = some D ∧ c1.has h (.seq f) ∧
      (c.has h (.seq f) → ∃ as q, answersOn h es = List.zipWith answerOf ops as ∧ Walk D D 0 ops as q) := by
  exact seq_reads hs ⟨hx.peaceful, _, h0⟩ hN hc hr he.obeys hw hn

/-- The call that asks for the size. -/
def SizeAsk (S : Nat → Option Bytes) (strerror : Strerror) (name : Bytes) (p : Prog Fin) : Prop :=
  (∃ fuel, p = body strerror false fuel (.getFileSize name) none) ∨
    ∃ st n, p = .ret (.ans (.size st n)) ∧ (st = .ok → ∃ i D, S i = some D ∧ n = D.length) ∧ (st ≠ .ok → n = 0)

theorem size_along {w : World} {L1 L2 : Int} {m : Nat} (hN : N (cstr name)) :
    Along strerror full (Reached strerror full N S T w L1 L2 m) t .none fun p _ => SizeAsk S strerror name p := by
  refine ⟨fun _ h _ _ _ => h, ?_⟩
  rintro c cmd k r sh w' ⟨hP, es, hr⟩ hp ht hx
  rcases hp with ⟨fuel, h⟩ | ⟨st, n, h1, -⟩
  · injection h with h1 h2
    subst h1
    cases h2
    obtain ⟨hsy, -⟩ := keep_done hx
    have hst := stat_found hsy hP.choices hP.lasts hN
    revert r
    show ∀ r : Except Errno Nat, _
    intro r hx hsy hst
    cases r with
    | error e => exact .inr ⟨_, 0, rfl, fun e => (PosixError_ne_ok _ _ _ e).elim, fun _ => rfl⟩
    | ok n => exact .inr ⟨_, n, rfl, fun _ => hst n rfl, fun e => (e rfl).elim⟩
  · exact nomatch h1

/-- Asking for the size. -/
theorem size_read {w : World} {L1 L2 : Int} {m : Nat} {c0 : Conf} (hI : Reached strerror full N S T w L1 L2 m c0) (hN : N (cstr name)) {r : PRes}
    {ds : List Ev} {c1 : Conf} (hc : CallIn strerror full t (.getFileSize name) r c0 ds c1) (he : ∀ t op, Ev.call t op ∈ ds → Obeys N T op) :
    ∃ st n, r = .size st n ∧ (st = .ok → ∃ i D, S i = some D ∧ n = D.length) ∧ (st ≠ .ok → n = 0) := by
  obtain ⟨c3, a, -, -, hP, -, -, e2⟩ := (size_along hN).call (op := .getFileSize name) hc (fun hI hs he => Reached.step hI hs he)
    hI he ⟨trivial, fun _ _ => trivial⟩ (fun fuel _ _ => .inl ⟨fuel, rfl⟩)
  rcases hP with ⟨fuel, h1⟩ | ⟨st, n, h1, h2⟩
  · exact nomatch h1
  · cases h1
    exact ⟨st, n, e2, h2⟩

/-- C99: and a thread that asks for the size of one of the names gets the size of one of the files, or an error. -/
theorem C99_size {w : World} {L1 L2 : Int} {m : Nat} {es0 : List Ev} {c0 : Conf}
    (h0 : Run strerror full (Conf.init w L1 L2 m) es0 c0) (hx : Pool N S c0) (hN : N (cstr name)) {r : PRes} {ds : List Ev} {c1 : Conf}
    (hc : CallIn strerror full t (.getFileSize name) r c0 ds c1) (he : Orderly N ds) :
    ∃ st n, r = .size st n ∧ (st = .ok → ∃ i D, S i = some D ∧ n = D.length) ∧ (st ≠ .ok → n = 0) := by
  exact size_read ⟨hx.peaceful, _, h0⟩ hN hc he.obeys

/-! ## The name is never missing -/

/-- Nothing fails. -/
def Unfailing (c : Conf) : Prop := ∀ x ∈ c.w.choices, x.fail = none

theorem Unfailing.step {c c' : Conf} {e : Option Ev} (h : Unfailing c) (hs : Step strerror full c e c') : Unfailing c' := by
  cases hs with
  | call => exact h
  | ret => intro x hx; rw [finish_w] at hx; exact h x hx
  | move u home cmd k r sh w' hu hx => exact fun x hm => h x (exec_choices hx x hm)

/-- The name exists, and stays. -/
theorem Stays.peace {c : Conf} {es : List Ev} (hx : Pool N S c) (hN : N (cstr name)) (hl : c.w.k.lookup (cstr name) ≠ none)
    (hst : Stays N S name c es) : Peace N S (· = cstr name) c := by
  refine hx.peace ?_ ?_
  · rintro p rfl
    exact ⟨hN, hl⟩
  · rintro x hm k h1 h2 p rfl h3
    exact hst.others x hm k h1 h2 h3

theorem Stays.obeys {c : Conf} {es : List Ev} (hst : Stays N S name c es) (he : Orderly N es) :
    ∀ t op, Ev.call t op ∈ es → Obeys N (· = cstr name) op := by
  intro t op hm
  refine ⟨he t op hm, fun n hn => ?_⟩
  have h1 := hst.calls t op hm
  cases op with
  | removeFile a => exact fun e => h1 (e.trans hn)
  | renameFile a b => exact fun e => h1 (e.trans hn)
  | _ => trivial

theorem access_along {w : World} {L1 L2 : Int} {m : Nat} :
    Along strerror full (fun c => Reached strerror full N S (· = cstr name) w L1 L2 m c ∧ Unfailing c) t .none
      fun p _ => (∃ fuel, p = body strerror false fuel (.fileExists name) none) ∨ p = .ret (.ans (.bool true)) := by
  refine ⟨fun _ h _ _ _ => h, ?_⟩
  rintro c cmd k r sh w' ⟨⟨hP, es, hr⟩, hno⟩ hp ht hx
  rcases hp with ⟨fuel, h⟩ | h1
  · injection h with h1 h2
    subst h1
    cases h2
    obtain ⟨hsy, -⟩ := keep_done hx
    obtain rfl := access_succeeds hsy hP.choices hP.lasts rfl hno
    exact .inr rfl
  · exact nomatch h1

/-- C99: if one of the names exists, and no call removes it or renames the file of this name to another one (other files may be renamed to
this name, again and again), and no system call fails, then there is no moment at which the name is missing: a thread that asks gets the
answer that the file exists. -/
theorem C99_exists {w : World} {L1 L2 : Int} {m : Nat} {es0 : List Ev} {c0 : Conf}
    (h0 : Run strerror full (Conf.init w L1 L2 m) es0 c0) (hx : Pool N S c0) (hN : N (cstr name)) (hl : c0.w.k.lookup (cstr name) ≠ none)
    {ds : List Ev} {c1 : Conf} {r : PRes} (hc : CallIn strerror full t (.fileExists name) r c0 ds c1) (he : Orderly N ds)
    (hst : Stays N S name c0 ds) (hno : ∀ x ∈ c0.w.choices, x.fail = none) : r = .bool true := by
  obtain ⟨c3, a, -, -, hP, -, -, e2⟩ := access_along.call (op := .fileExists name) hc
    (fun hI hs he => ⟨Reached.step hI.1 hs he, hI.2.step hs⟩) ⟨⟨hst.peace hx hN hl, _, h0⟩, hno⟩ (hst.obeys he) ⟨trivial, fun _ _ => trivial⟩
    (fun fuel _ _ => .inl ⟨fuel, rfl⟩)
  rcases hP with ⟨fuel, h1⟩ | h1
  · exact nomatch h1
  · cases h1
    exact e2

theorem open_along {w : World} {L1 L2 : Int} {m : Nat} (h0 : cstr name ≠ []) :
    Along strerror full (fun c => Reached strerror full N S (· = cstr name) w L1 L2 m c ∧ Unfailing c) t .none
      fun p _ => p = NewSequentialFile strerror name ∨ ∃ o, p = .ret (.new o) := by
  refine ⟨fun _ h _ _ _ => h, ?_⟩
  rintro c cmd k r sh w' ⟨⟨hP, es, hr⟩, hno⟩ hp ht hx
  rcases hp with h | ⟨o, h1⟩
  · unfold NewSequentialFile at h
    injection h with h1 h2
    subst h1
    cases h2
    obtain ⟨hsy, -⟩ := keep_done hx
    obtain ⟨i, rfl⟩ := open_succeeds hsy hP.choices hP.lasts rfl h0 hno
    exact .inr ⟨_, rfl⟩
  · exact nomatch h1

/-- C99: and a thread that opens it as a sequential file gets an object. -/
theorem C99_opens {w : World} {L1 L2 : Int} {m : Nat} {es0 : List Ev} {c0 : Conf}
    (h0 : Run strerror full (Conf.init w L1 L2 m) es0 c0) (hx : Pool N S c0) (hN : N (cstr name)) (hl : c0.w.k.lookup (cstr name) ≠ none)
    (hne : cstr name ≠ []) {ds : List Ev} {c1 : Conf} {r : PRes} (hc : CallIn strerror full t (.newSequential name) r c0 ds c1)
    (he : Orderly N ds) (hst : Stays N S name c0 ds) (hno : ∀ x ∈ c0.w.choices, x.fail = none) : ∃ h, r = .opened .ok (some h) := by
  obtain ⟨c3, a, -, -, hP, -, -, e2⟩ := (open_along hne).call (op := .newSequential name) hc
    (fun hI hs he => ⟨Reached.step hI.1 hs he, hI.2.step hs⟩) ⟨⟨hst.peace hx hN hl, _, h0⟩, hno⟩ (hst.obeys he) ⟨trivial, fun _ _ => trivial⟩
    (fun fuel _ _ => .inl rfl)
  rcases hP with h1 | ⟨o, h1⟩
  · exact nomatch h1
  · cases h1
    exact ⟨_, e2⟩

/-! ## Random-access files that are open -/

/-- C99: a random-access file object that has a descriptor or a mapping of one of the files goes on reading this file, whatever is renamed
over it, and also when it is removed. -/
theorem C99_random {w : World} {L1 L2 : Int} {m : Nat} (hs : Setting w L1 L2 m) {es0 : List Ev} {c0 : Conf}
    (h0 : Run strerror full (Conf.init w L1 L2 m) es0 c0) (hx : Pool N S c0) {o : Obj} {i : Nat} {D : Bytes} (hS : S i = some D)
    (ho : c0.has h o) (hv : Serves c0.w.k name i D o) (hb : byName o = false) {es : List Ev} {c : Conf}
    (hr : Run strerror full c0 es c) (he : Orderly N es) {u offset n : Nat} {r : PRes} (hoff : offset + n < 2 ^ 64)
    (hm : (POp.randRead h offset n, r) ∈ exchanges u es) : ReadOf c.w.k (∃ o, c.has h o) D offset n r := by
  have hp := hx.peaceful
  have hst := hp.still (o := o) (name := name) hr he.obeys hS hb
  have hp' := Peace.all hr he.obeys hp
  exact serves_reads hs h0 ho hv (fun x hxm k => ((hp.choices x hxm).1 k).2.2) hst (hp'.lasts.files i D hS) hoff hm

/-! ## Concrete runs -/

def keepsB (N : Bytes → Bool) : POp → Bool
  | .newWritable n => !N (cstr n)
  | .newAppendable n => !N (cstr n)
  | .newLogger n => !N (cstr n)
  | .lockFile n => !N (cstr n)
  | .createDir n => !N (cstr n)
  | .renameFile a b => N (cstr a) == N (cstr b)
  | _ => true

theorem keeps_of_B {N : Bytes → Bool} {op : POp} (hb : keepsB N op = true) : KeepsTo (fun p => N p = true) op := by
  cases op with
  | renameFile a b =>
    have : N (cstr a) = N (cstr b) := by simpa [keepsB] using hb
    show N (cstr a) = true ↔ N (cstr b) = true
    rw [this]
  | newWritable n => show ¬ N (cstr n) = true; simpa [keepsB] using hb
  | newAppendable n => show ¬ N (cstr n) = true; simpa [keepsB] using hb
  | newLogger n => show ¬ N (cstr n) = true; simpa [keepsB] using hb
  | lockFile n => show ¬ N (cstr n) = true; simpa [keepsB] using hb
  | createDir n => show ¬ N (cstr n) = true; simpa [keepsB] using hb
  | _ => trivial

def orderlyB (N : Bytes → Bool) (es : List Ev) : Bool :=
  es.all fun
    | .call _ op => keepsB N op
    | .ret _ _ => true

theorem orderly_of_B {N : Bytes → Bool} {es : List Ev} (hb : orderlyB N es = true) : Orderly (fun p => N p = true) es := by
  intro t op hm
  unfold orderlyB at hb
  rw [List.all_eq_true] at hb
  exact keeps_of_B (hb _ hm)

def notAwayB (name : Bytes) (es : List Ev) : Bool :=
  es.all fun
    | .call _ (.removeFile n) => decide (cstr n ≠ cstr name)
    | .call _ (.renameFile a _) => decide (cstr a ≠ cstr name)
    | _ => true

theorem notAway_of_B {es : List Ev} (hb : notAwayB name es = true) : ∀ t op, Ev.call t op ∈ es → NotAway name op := by
  intro t op hm
  unfold notAwayB at hb
  rw [List.all_eq_true] at hb
  have := hb _ hm
  cases op with
  | removeFile n => exact (of_decide_eq_true this : cstr n ≠ cstr name)
  | renameFile a b => exact (of_decide_eq_true this : cstr a ≠ cstr name)
  | _ => trivial

theorem calm_leaves : Leaves N S calm := fun _ => ⟨fun _ _ _ _ h => h, fun h _ => h, rfl, rfl⟩

/-- "/db/C" contains 1, 2, 3 and "/db/n" contains 7, 8. -/
def poolKernel : Kernel :=
  { demoKernel with names := (lit "/db/C", 2) :: (lit "/db/n", 3) :: demoKernel.names
                    inodes := demoKernel.inodes ++ [⟨false, [1, 2, 3], []⟩, ⟨false, [7, 8], []⟩] }

def poolStart : Conf := Conf.init ⟨poolKernel, List.replicate 40 calm, []⟩ 1 1 3

def poolNames (p : Bytes) : Bool := p == lit "/db/C" || p == lit "/db/n"

def poolFiles : Nat → Option Bytes
  | 2 => some [1, 2, 3]
  | 3 => some [7, 8]
  | _ => none

def poolB (k : Kernel) : Bool :=
  k.names.all (fun e => poolNames e.1 == (poolFiles e.2).isSome) && decide (k.inodes[2]? = some ⟨false, [1, 2, 3], []⟩) &&
    decide (k.inodes[3]? = some ⟨false, [7, 8], []⟩) && k.fds.all (fun | some q => !(poolFiles q.ino).isSome || !q.wr | none => true)

theorem pool_of_B {c : Conf} (hq : ∀ x ∈ c.th, x.busy = false) (hb : poolB c.w.k = true) (hx : ∀ x ∈ c.w.choices, x = calm) :
    Pool (fun p => poolNames p = true) poolFiles c := by
  unfold poolB at hb
  simp only [Bool.and_eq_true] at hb
  obtain ⟨⟨⟨h1, h2⟩, h3⟩, h4⟩ := hb
  have h2 := of_decide_eq_true h2
  have h3 := of_decide_eq_true h3
  refine ⟨quiet_of hq, ?_, ?_, ?_, fun x hm => by rw [hx x hm]; exact calm_leaves⟩
  · intro p i hp
    have := (List.all_eq_true.1 h1) (p, i) (aFind_get _ _ _ hp)
    rw [← Option.isSome_iff_exists]
    have this : poolNames p = (poolFiles i).isSome := by simpa using this
    show poolNames p = true ↔ _
    rw [this]
  · intro i D hi
    match i with
    | 2 => cases hi; exact ⟨_, h2, rfl, rfl⟩
    | 3 => cases hi; exact ⟨_, h3, rfl, rfl⟩
    | 0 => exact nomatch hi
    | 1 => exact nomatch hi
    | i + 4 => exact nomatch hi
  · intro i q hq hS
    have h5 := (toNat_lt_of_ofd hq).2
    have := (List.all_eq_true.1 h4) (some q) (List.mem_of_getElem? h5)
    rw [← Option.isSome_iff_exists] at hS
    simpa [hS] using this

theorem poolPool : Pool (fun p => poolNames p = true) poolFiles poolStart :=
  pool_of_B (by decide +kernel) (by decide +kernel) fun x hx => List.eq_of_mem_replicate hx

theorem poolSetting : Setting poolStart.w 1 1 3 :=
  ⟨rfl, fun x hx => by
    rw [List.eq_of_mem_replicate hx]
    exact fun k => ⟨fun _ => Iff.rfl, fun _ => Iff.rfl⟩, by decide, by decide⟩

/-- Thread 0 opens "/db/C" while thread 1 renames "/db/n" to it; thread 2 opens it after that.  Threads 0 and 1 read what thread 0 has opened,
which is the old file. -/
example : ∃ ds es c1 c, CallIn (fun _ => []) false 0 (.newSequential (lit "/db/C")) (.opened .ok (some 0)) poolStart ds c1 ∧
    Run (fun _ => []) false c1 es c ∧ callsOn 0 es = [SOp.read 2, .read 2, .read 2].map (callOf 0) ∧
    answersOn 0 es = [.data .ok (some [1, 2]), .data .ok (some [3]), .data .ok (some [])] ∧
    answersOn 1 es = [.data .ok (some [7, 8])] ∧
    ∃ i D as q, poolFiles i = some D ∧ answersOn 0 es = List.zipWith answerOf [SOp.read 2, .read 2, .read 2] as ∧
      Walk D D 0 [.read 2, .read 2, .read 2] as q := by
  have hex : ((playCallIn (fun _ => []) false 9 [.call 1 (.renameFile (lit "/db/n") (lit "/db/C"))] 0 (.newSequential (lit "/db/C"))
      [.move 0, .move 1] poolStart).bind fun x =>
        (play (fun _ => []) false 9 [.call 0 (.seqRead 0 2), .ret 1, .move 0, .ret 0, .call 2 (.newSequential (lit "/db/C")), .move 2, .ret 2,
          .call 1 (.seqRead 0 2), .call 2 (.seqRead 1 9), .move 2, .move 1, .ret 1, .ret 2, .call 2 (.removeFile (lit "/db/C")), .move 2,
          .call 0 (.seqRead 0 2), .ret 2, .move 0, .ret 0] x.2.2).map fun y =>
        (x.2.1, orderlyB poolNames (x.1 ++ y.1), callsOn 0 y.1, answersOn 0 y.1, answersOn 1 y.1, x.2.2.objs[0]?, y.2.objs[0]?)) =
      some (.opened .ok (some 0), true, [SOp.read 2, .read 2, .read 2].map (callOf 0),
        [.data .ok (some [1, 2]), .data .ok (some [3]), .data .ok (some [])], [.data .ok (some [7, 8])], some (some (.seq ⟨0, lit "/db/C"⟩)),
        some (some (.seq ⟨0, lit "/db/C"⟩))) := by rfl
  generalize hp : playCallIn (fun _ => []) false 9 _ _ _ _ poolStart = y at hex
  cases y with
  | none => exact nomatch hex
  | some x =>
    obtain ⟨ds, r, c1⟩ := x
    simp only [Option.bind_some] at hex
    generalize hp' : play (fun _ => []) false 9 _ c1 = z at hex
    cases z with
    | none => exact nomatch hex
    | some z =>
      obtain ⟨es, c⟩ := z
      injection hex with hex
      injection hex with hr hex
      injection hex with hB hex
      injection hex with hw hex
      injection hex with ha hex
      injection hex with ha1 hex
      injection hex with hco1 hco
      dsimp only at hr hB hw ha ha1 hco hco1
      subst hr
      have hc := playCallIn_call hp
      have hrun := play_run _ _ _ _ hp'
      obtain ⟨i, D, f, h1, h2, h3⟩ := C99_sequential poolSetting (.nil _) poolPool (by rfl) hc hrun (orderly_of_B hB) hw (by simp)
      rw [show c1.objs[0]? = _ from h2] at hco1
      cases hco1
      obtain ⟨as, q, h4⟩ := h3 hco
      exact ⟨ds, es, c1, c, hc, hrun, hw, ha, ha1, i, D, as, q, h1, h4⟩

/-- Thread 1 asks for the size while thread 0 renames. -/
example : ∃ ds c1, CallIn (fun _ => []) false 1 (.getFileSize (lit "/db/C")) (.size .ok 2) poolStart ds c1 ∧
    ∃ i D, poolFiles i = some D ∧ 2 = D.length := by
  have hex : ((playCallIn (fun _ => []) false 9 [.call 0 (.renameFile (lit "/db/n") (lit "/db/C"))] 1 (.getFileSize (lit "/db/C"))
      [.move 0, .move 1, .ret 0] poolStart).map fun x => (orderlyB poolNames x.1, x.2.1)) = some (true, .size .ok 2) := by rfl
  generalize hp : playCallIn (fun _ => []) false 9 _ _ _ _ poolStart = y at hex
  cases y with
  | none => exact nomatch hex
  | some x =>
    obtain ⟨ds, r, c1⟩ := x
    injection hex with hex
    injection hex with hB hr
    dsimp only at hr hB
    subst hr
    obtain ⟨st, n, e, h1, -⟩ := C99_size (.nil _) poolPool (by rfl) (playCallIn_call hp) (orderly_of_B hB)
    cases e
    exact ⟨ds, c1, playCallIn_call hp, h1 rfl⟩

theorem poolStays {ds : List Ev} (h : notAwayB (lit "/db/C") ds = true) :
    Stays (fun p => poolNames p = true) poolFiles (lit "/db/C") poolStart ds :=
  ⟨notAway_of_B h, fun x hx k _ _ h => by
    rw [List.eq_of_mem_replicate hx]
    exact h⟩

/-- Thread 1 asks whether "/db/C" exists, and opens it, while thread 0 renames "/db/n" to it and thread 2 writes another file and renames it
to "/db/d". -/
example : ∃ ds c1 h, CallIn (fun _ => []) false 1 (.newSequential (lit "/db/C")) (.opened .ok (some h)) poolStart ds c1 := by
  have hex : ((playCallIn (fun _ => []) false 9 [.call 0 (.renameFile (lit "/db/n") (lit "/db/C")), .call 2 (.newWritable (lit "/db/e")), .move 2, .ret 2]
      1 (.newSequential (lit "/db/C")) [.call 2 (.renameFile (lit "/db/e") (lit "/db/d")), .move 0, .move 2, .move 1, .ret 0] poolStart).map fun x =>
        (orderlyB poolNames x.1, notAwayB (lit "/db/C") x.1)) = some (true, true) := by rfl
  generalize hp : playCallIn (fun _ => []) false 9 _ _ _ _ poolStart = y at hex
  cases y with
  | none => exact nomatch hex
  | some x =>
    obtain ⟨ds, r, c1⟩ := x
    injection hex with hex
    injection hex with hB hA
    dsimp only at hB hA
    have hc := playCallIn_call hp
    obtain ⟨h, rfl⟩ := C99_opens (.nil _) poolPool (by rfl) (by decide +kernel) (by decide +kernel) hc (orderly_of_B hB) (poolStays hA) fun x hx => by
      rw [List.eq_of_mem_replicate hx]; rfl
    exact ⟨ds, c1, h, hc⟩

example : ∃ ds c1, CallIn (fun _ => []) false 1 (.fileExists (lit "/db/C")) (.bool true) poolStart ds c1 := by
  have hex : ((playCallIn (fun _ => []) false 9 [.call 0 (.renameFile (lit "/db/n") (lit "/db/C"))]
      1 (.fileExists (lit "/db/C")) [.move 0, .move 1, .ret 0] poolStart).map fun x =>
        (orderlyB poolNames x.1, notAwayB (lit "/db/C") x.1)) = some (true, true) := by rfl
  generalize hp : playCallIn (fun _ => []) false 9 _ _ _ _ poolStart = y at hex
  cases y with
  | none => exact nomatch hex
  | some x =>
    obtain ⟨ds, r, c1⟩ := x
    injection hex with hex
    injection hex with hB hA
    dsimp only at hB hA
    have hc := playCallIn_call hp
    obtain rfl := C99_exists (.nil _) poolPool (by rfl) (by decide +kernel) hc (orderly_of_B hB) (poolStays hA) fun x hx => by
      rw [List.eq_of_mem_replicate hx]; rfl
    exact ⟨ds, c1, hc⟩

def poolOpen : Option (List Ev × Conf) :=
  play (fun _ => []) false 9 [.call 0 (.newRandomAccess (lit "/db/C")), .move 0, .move 0, .move 0, .move 0, .move 0, .ret 0] poolStart

/-- "/db/C" is mapped; then thread 1 renames "/db/n" to it while thread 2 reads from the mapping: the old bytes. -/
example : ∃ es0 c0 es c, Run (fun _ => []) false poolStart es0 c0 ∧ Run (fun _ => []) false c0 es c ∧
    (POp.randRead 0 0 3, PRes.view .ok (.view 0 0 3)) ∈ exchanges 2 es ∧ viewBytes c.w.k (.view 0 0 3) = some [1, 2, 3] := by
  have hex : (poolOpen.bind fun x =>
      (play (fun _ => []) false 9 [.call 1 (.renameFile (lit "/db/n") (lit "/db/C")), .call 2 (.randRead 0 0 3), .move 1, .ret 2, .ret 1] x.2).map fun y =>
        (x.2.objs[0]?, x.2.w.k.maps[0]?, poolB x.2.w.k, (x.2.th.map (·.busy)), orderlyB poolNames y.1, (exchanges 2 y.1).head?, y.2.objs[0]?)) =
      some (some (some (.mmap ⟨0, 3, lit "/db/C"⟩)), some (some (2, 3)), true, [false, false, false], true,
        some (POp.randRead 0 0 3, PRes.view .ok (.view 0 0 3)), some (some (.mmap ⟨0, 3, lit "/db/C"⟩))) := by rfl
  have hch : ∀ es0 c0, poolOpen = some (es0, c0) → ∀ x ∈ c0.w.choices, x = calm := by
    intro es0 c0 h
    have h1 : poolOpen.map (fun x => x.2.w.choices) = some (List.replicate 36 calm) := by rfl
    rw [h] at h1
    injection h1 with h1
    intro x hx
    rw [show c0.w.choices = _ from h1] at hx
    exact List.eq_of_mem_replicate hx
  cases hp : poolOpen with
  | none => rw [hp] at hex; exact nomatch hex
  | some x =>
    obtain ⟨es0, c0⟩ := x
    rw [hp] at hex
    simp only [Option.bind_some] at hex
    generalize hp' : play (fun _ => []) false 9 _ c0 = z at hex
    cases z with
    | none => exact nomatch hex
    | some z =>
      obtain ⟨es, c⟩ := z
      injection hex with hex
      injection hex with ho hex
      injection hex with hmap hex
      injection hex with hB hex
      injection hex with hq hex
      injection hex with hO hex
      injection hex with hm hco
      dsimp only at ho hmap hB hq hO hm hco
      have h0 := play_run _ _ _ _ hp
      have hrun := play_run _ _ _ _ hp'
      have hm := List.mem_of_mem_head? hm
      have hx : Pool (fun p => poolNames p = true) poolFiles c0 := pool_of_B (fun x hx => by
        have : x.busy ∈ c0.th.map (·.busy) := List.mem_map_of_mem hx
        rw [hq] at this
        simpa using this) hB (hch _ _ hp)
      have h1 := C99_random poolSetting h0 hx (i := 2) (D := [1, 2, 3]) rfl ho (name := lit "/db/C")
        ⟨hx.files 2 _ rfl, rfl, hmap, rfl⟩ rfl hrun (orderly_of_B hO) (by decide) hm
      cases h1 with
      | view _ _ _ h2 => exact ⟨es0, c0, es, c, h0, hrun, hm, h2 ⟨_, hco⟩⟩

end Conc
end Posix
end Lsmdb
