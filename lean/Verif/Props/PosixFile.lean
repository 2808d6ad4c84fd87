import Verif.Proof.PosixNames
import Verif.Model.PosixEnv

/-!
# Properties of the POSIX file classes: writing (C47 - C52)

The operating system is the model in `Model/Kernel`.  `strerror` and the build setting `full`
(`HAVE_FULLFSYNC`) are arbitrary.  `w.choices` decides every system call to come: what others do before
it, failures, short counts, and when the machine crashes.
-/

namespace Lsmdb
namespace Posix

open MemEnv (St lit)

variable (strerror : Strerror) (full : Bool)

/-! ## C47: the stream -/

/-- C47: what NewWritableFile (`.trunc`) and NewAppendableFile (`.append`) hand out when they return OK: a
new file object on the file the name means, with nothing in it (`.trunc`) or what the file contained
(`.append`). -/
theorem C47_open (e e' : PEnv) (m : Mode) (hm : m = .trunc ∨ m = .append) (name : Bytes) (w w' : World)
    (h : Option Nat) (ho : e.newWFile strerror m name w = .done (.ok, h, e') w') :
    ∃ c i f ino base, w.choices = c :: w'.choices ∧ h = some i ∧ e'.objs[i]? = some (some (.wr f)) ∧
      w'.k.lookup (cstr name) = some ino ∧
      base = (if m = .trunc then [] else (((c.other w.k).lookup (cstr name)).bind (Contents (c.other w.k))).getD []) ∧
      ((∀ c ∈ w'.choices, Alone ino f.fd c) → Opened name f ino base w') := by
  unfold PEnv.newWFile at ho
  rw [bind_eq] at ho
  unfold sysOpen sys at ho
  cases hc : w.choices with
  | nil => rw [hc] at ho; exact nomatch ho
  | cons c cs =>
    rw [hc] at ho
    simp only [] at ho
    cases hf : c.fail with
    | some err =>
      simp only [hf] at ho
      injection ho with h1 h2
      injection h1 with h1
      exact absurd h1 (PosixError_ne_ok _ _ _)
    | none =>
      simp only [hf] at ho
      generalize hk : kopen m (cstr name) (c.other w.k) = r at ho
      obtain ⟨r, k1⟩ := r
      cases r with
      | error err =>
        simp only [] at ho
        injection ho with h1 h2
        injection h1 with h1
        exact absurd h1 (PosixError_ne_ok _ _ _)
      | ok fd =>
        obtain ⟨mf, d, n1, n2, n3⟩ := new_eq name fd
        simp only [n3, bind_eq, pureM, PEnv.alloc, pure_eq] at ho
        injection ho with h1 h2
        simp only [Prod.mk.injEq, true_and] at h1
        obtain ⟨h1, h3⟩ := h1
        subst h1 h3 h2
        have hfd : fd = (Kernel.freeFd (c.other w.k).fds : Nat) := kopen_fd (m := m) (p := cstr name) (by rw [hk])
        have hofd : ∀ (k : Kernel) (l : List (Option Ofd)) (o : Ofd), k.fds = Kernel.putFd l (Kernel.freeFd l) o →
            k.ofd (Kernel.freeFd l : Nat) = some o := by
          intro k l o hk
          unfold Kernel.ofd
          rw [if_neg (by omega), hk]
          simp [putFd_get_same]
        suffices hs : ∃ ino base, k1.lookup (cstr name) = some ino ∧
            base = (if m = .trunc then [] else
              (((c.other w.k).lookup (cstr name)).bind (Contents (c.other w.k))).getD []) ∧
            WritableAt k1 fd ino base by
          obtain ⟨ino, base, s1, s2, s3⟩ := hs
          exact ⟨c, _, ⟨fun _ => none, 0, fd, mf, name, d⟩, ino, base, rfl, rfl, by simp, s1, s2,
            fun ha => ⟨n3, s3, ha⟩⟩
        unfold kopen at hk
        by_cases h0 : cstr name = []
        · rw [if_pos h0] at hk; injection hk with hk _; exact nomatch hk
        · rw [if_neg h0] at hk
          simp only [] at hk
          cases hl : (c.other w.k).lookup (cstr name) with
          | none =>
            rw [hl] at hk
            have hcr : m.creat = true := by rcases hm with rfl | rfl <;> rfl
            simp only [hcr, if_true] at hk
            injection hk with hk1 hk2
            subst hk2
            refine ⟨(c.other w.k).inodes.length, [], ?_, by split <;> rfl, ?_⟩
            · unfold Kernel.lookup Kernel.setName
              simp [aFind]
            · rw [hfd]
              refine ⟨m.ofd (c.other w.k).inodes.length, ⟨false, [], []⟩, hofd _ _ _ rfl, ?_, ?_, ?_, ?_, rfl, rfl⟩
              · rcases hm with rfl | rfl <;> rfl
              · rcases hm with rfl | rfl <;> rfl
              · right; rcases hm with rfl | rfl <;> rfl
              · simp [Kernel.setName]
          | some i =>
            rw [hl] at hk
            simp only [] at hk
            cases hi : (c.other w.k).inodes[i]? with
            | none => rw [hi] at hk; injection hk with hk _; exact nomatch hk
            | some n =>
              rw [hi] at hk
              simp only [] at hk
              have hnr : m ≠ .rdonly := by rcases hm with rfl | rfl <;> simp
              have hlt : i < (c.other w.k).inodes.length := by
                rcases Nat.lt_or_ge i (c.other w.k).inodes.length with h | h
                · exact h
                · rw [List.getElem?_eq_none h] at hi; exact nomatch hi
              cases hdir : n.dir with
              | true => simp only [hdir, hnr, ne_eq, not_false_eq_true, and_self, if_true] at hk
                        injection hk with hk _; exact nomatch hk
              | false =>
                simp only [hdir, Bool.false_eq_true, false_and, if_false] at hk
                rcases hm with rfl | rfl
                · simp only [if_true] at hk
                  injection hk with hk1 hk2
                  subst hk2
                  refine ⟨i, [], hl, by rfl, ?_⟩
                  rw [hfd]
                  exact ⟨_, truncInode n, hofd _ _ _ rfl, rfl, rfl, .inr rfl, List.getElem?_set_self hlt, hdir, rfl⟩
                · simp only [reduceCtorEq, if_false] at hk
                  injection hk with hk1 hk2
                  subst hk2
                  refine ⟨i, n.data, hl, ?_, ?_⟩
                  · simp [Contents, hi]
                  · rw [hfd]
                    exact ⟨_, n, hofd _ _ _ rfl, rfl, rfl, .inl rfl, hi, hdir, rfl⟩

/-- C47: as long as every call returned OK, the file holds what it held when opened followed by the
appended stream, except for a tail of at most 64 KiB that is still to come. -/
theorem C47_stream (name : Bytes) (f f' : WFile) (ino : Nat) (base : Bytes) (w w' : World) (ops : List WOp)
    (ss : List St) (ho : Opened name f ino base w) (hv : ValidOps ops) (hc : WOp.close ∉ ops)
    (hr : f.run strerror full ops w = .done (ss, f') w') (hok : AllOk ss) :
    ∃ p rest, appended ops = p ++ rest ∧ rest.length ≤ 65536 ∧ Contents w'.k ino = some (base ++ p) := by
  obtain ⟨p, b, h1, h2, h3, h4⟩ := ho.run strerror full hv hc hr hok
  refine ⟨p, b, h1.symm, ?_, h3.ino.contents⟩
  rw [h2.len]; exact h2.le

/-- C47: after a Flush, Sync or Close that returned OK, all of it is in the file, in order and once. -/
theorem C47_flushed (name : Bytes) (f f' : WFile) (ino : Nat) (base : Bytes) (w w' : World) (ops : List WOp)
    (last : WOp) (ss : List St) (ho : Opened name f ino base w) (hv : ValidOps ops) (hc : WOp.close ∉ ops)
    (hl : last = .flush ∨ last = .sync ∨ last = .close)
    (hr : f.run strerror full (ops ++ [last]) w = .done (ss, f') w') (hok : AllOk ss) :
    Contents w'.k ino = some (base ++ appended ops) := by
  rw [run_append] at hr
  cases h1 : f.run strerror full ops w with
  | crash w => rw [h1] at hr; exact nomatch hr
  | fault e => rw [h1] at hr; exact nomatch hr
  | done r w1 =>
    obtain ⟨ss1, f1⟩ := r
    rw [h1] at hr
    simp only [run_one] at hr
    cases h2 : f1.step strerror full last w1 with
    | crash w => rw [h2] at hr; exact nomatch hr
    | fault e => rw [h2] at hr; exact nomatch hr
    | done r w2 =>
      obtain ⟨s, f2⟩ := r
      rw [h2] at hr
      simp only [] at hr
      injection hr with hr1 hr2
      injection hr1 with hr1 hr3
      subst hr1 hr2 hr3
      obtain ⟨p, b, e1, e2, e3, e4⟩ := ho.run strerror full hv hc h1 (fun s hs => hok s (List.mem_append_left _ hs))
      have hs : s = .ok := hok s (List.mem_append_right _ List.mem_cons_self)
      have hvl : ValidOps [last] := by
        intro d hd
        rw [List.mem_singleton] at hd
        rcases hl with h | h | h <;> rw [h] at hd <;> exact nomatch hd
      obtain ⟨q, b', a1, a2, a3, a4, a5, a6, a7, a8⟩ := (step_open strerror full last hvl e3 e2).done h2
      have hb' : b' = [] := a6 hs hl
      have hob : opBytes last = [] := by rcases hl with rfl | rfl | rfl <;> rfl
      have := a5 hs
      rw [hob, hb', List.append_nil, List.append_nil] at this
      subst this
      rw [a3.ino.contents, List.append_assoc, e1]

/-- C47: destroying the object writes the rest, unless a system call fails on the way. -/
theorem C47_destroy (name : Bytes) (f f' : WFile) (ino : Nat) (base : Bytes) (w w' w2 : World) (ops : List WOp)
    (ss : List St) (ho : Opened name f ino base w) (hv : ValidOps ops) (hc : WOp.close ∉ ops)
    (hr : f.run strerror full ops w = .done (ss, f') w') (hok : AllOk ss)
    (hd : f'.destroy strerror w' = .done () w2) (hnf : NoFailure w'.choices) :
    Contents w2.k ino = some (base ++ appended ops) := by
  obtain ⟨p, b, e1, e2, e3, e4⟩ := ho.run strerror full hv hc hr hok
  have hfd : f'.fd ≥ 0 := by
    obtain ⟨o, ho⟩ := e3.ofd_some
    exact (toNat_lt_of_ofd ho).1
  unfold WFile.destroy at hd
  simp only [hfd, if_true] at hd
  unfold WFile.Close at hd
  simp only [bind_eq] at hd
  cases h1 : f'.FlushBuffer strerror w' with
  | crash w => rw [h1] at hd; exact nomatch hd
  | fault e => rw [h1] at hd; exact nomatch hd
  | done r w1 =>
    rw [h1] at hd
    obtain ⟨st, f1⟩ := r
    obtain ⟨used, q, a1, a2, a3, a4, a5, a6⟩ := (FlushBuffer_sat strerror e3 e2).done h1
    simp only at a5 a6 hd
    have hq : q = b := by
      rcases a6 with ⟨_, h, _⟩ | ⟨e, c, h1, h2, h3, _⟩
      · exact h
      · rcases hnf c (by rw [a1]; exact List.mem_append_left _ h1) with h | h
        · rw [h] at h2; exact nomatch h2
        · rw [h] at h2; injection h2 with h2; exact absurd h2.symm h3
    cases h2 : sysClose f1.fd w1 with
    | crash w => rw [h2] at hd; exact nomatch hd
    | fault e => rw [h2] at hd; exact nomatch hd
    | done r w3 =>
      rw [h2] at hd
      simp only [pure_eq] at hd
      injection hd with _ hd
      subst hd
      have := (sysClose_ino_sat (fd := f1.fd) a3.ino).done h2
      rw [this.contents, hq, List.append_assoc, e1]

/-- C47: no call on a file object, whatever it returned before and also after Close, writes outside the
64 KiB buffer or otherwise has undefined behaviour. -/
theorem C47_no_overflow (name : Bytes) (f : WFile) (ino : Nat) (base : Bytes) (w : World) (ops : List WOp)
    (ho : Opened name f ino base w) (hv : ValidOps ops) (e : Fault) :
    f.run strerror full ops w ≠ .fault e :=
  (run_live strerror full ops f base [] _ w hv (.inl ho.fileAt) ho.buf.1).fault

/-- C47: interrupted and short writes are not errors: if no system call fails otherwise, Append and Flush
return OK. -/
theorem C47_no_spurious_error (name : Bytes) (f f' : WFile) (ino : Nat) (base : Bytes) (w w' : World)
    (ops : List WOp) (ss : List St) (ho : Opened name f ino base w) (hv : ValidOps ops)
    (hs : ∀ o ∈ ops, o = .flush ∨ ∃ d, o = .append d) (hnf : NoFailure w.choices)
    (hr : f.run strerror full ops w = .done (ss, f') w') : AllOk ss := by
  suffices h : ∀ (ops : List WOp) (f : WFile) (D b : Bytes) (O : Bytes → Prop) (w : World), ValidOps ops →
      (∀ o ∈ ops, o = .flush ∨ ∃ d, o = .append d) → NoFailure w.choices → FileAt ino f.fd D O w → BufHas f b →
      (f.run strerror full ops w).Sat (fun r _ => AllOk r.1) (fun _ => True) from
    (h ops f base [] _ w hv hs hnf ho.fileAt ho.buf.1).done hr
  intro ops
  induction ops with
  | nil => intro f D b O w _ _ _ _ _; exact fun s hs => nomatch hs
  | cons o os ih =>
    intro f D b O w hv hs hnf h hb
    have hbad : ∀ {used : List Choice} {st : St} {w1 : World}, w.choices = used ++ w1.choices →
        ¬ Failed strerror f.filename used st := by
      rintro used st w1 hu ⟨e, c, h1, h2, h3, _⟩
      rcases hnf c (by rw [hu]; exact List.mem_append_left _ h1) with h | h
      · rw [h] at h2; exact nomatch h2
      · rw [h] at h2; injection h2 with h2; exact absurd h2.symm h3
    have hstep : (f.step strerror full o w).Sat (fun r w1 => r.1 = .ok ∧ NoFailure w1.choices ∧
        ∃ D b O, FileAt ino r.2.fd D O w1 ∧ BufHas r.2 b) (fun _ => True) := by
      rcases hs o List.mem_cons_self with rfl | ⟨d, rfl⟩
      · apply (FlushBuffer_sat strerror h hb).mono
        · rintro ⟨st, f2⟩ w1 ⟨used, p, a1, a2, a3, a4, a5, a6⟩
          simp only at a5 a6 ⊢
          subst a5
          refine ⟨?_, fun c hc => hnf c (by rw [a1]; exact List.mem_append_right _ hc), _, _, _, a3, BufHas.zero f⟩
          rcases a6 with a6 | a6
          · exact a6.1
          · exact absurd a6 (hbad a1)
        · intro _ _; trivial
      · apply (Append_sat strerror d (hv d List.mem_cons_self) h hb).mono
        · rintro ⟨st, f2⟩ w1 ⟨used, p, b', a1, a2, a3, a4, a5, a6, a7⟩
          simp only at a5 a6 a7 ⊢
          refine ⟨?_, fun c hc => hnf c (by rw [a1]; exact List.mem_append_right _ hc), D ++ p, b', Ext O D (D ++ p), ?_, a6⟩
          · rcases a7 with a7 | a7
            · exact a7.1
            · exact absurd a7 (hbad a1)
          · rw [a5.1]; exact a3
        · intro _ _; trivial
    unfold WFile.run
    apply Out.Sat.bind
    apply hstep.mono
    · rintro ⟨s, f1⟩ w1 ⟨a1, a2, D', b', O', a3, a4⟩
      simp only at a1 a3 a4 ⊢
      apply Out.Sat.bind
      apply (ih f1 D' b' O' w1 hv.tail (fun o ho => hs o (List.mem_cons_of_mem _ ho)) a2 a3 a4).mono
      · rintro ⟨ss, f2⟩ w2 h2 x hx
        rcases List.mem_cons.1 hx with rfl | hx
        · exact a1
        · exact h2 x hx
      · intro _ _; trivial
    · intro _ _; trivial

/-! A concrete case: a directory, a new file, an interrupted write and short writes. -/

/-- A file system with the root directory and one more. -/
def demoKernel : Kernel := ⟨[(lit "/", 0), (lit "/db", 1)], [], [⟨true, [], []⟩, ⟨true, [], []⟩], [], []⟩

/-- Nothing fails, every count is enough. -/
def calm : Choice := { count := 1000 }

/-- The world after opening "/db/log" (inode 2, descriptor 0), with the given choices to come. -/
def demoWorld (cs : List Choice) : World :=
  ⟨{ demoKernel with names := (lit "/db/log", 2) :: demoKernel.names
                     pend := [(lit "/db/log", none)]
                     inodes := demoKernel.inodes ++ [⟨false, [], []⟩]
                     fds := [some ⟨2, 0, false, false, true⟩] }, cs, [.open (lit "/db/log") (some 0)]⟩

/-- The file object for "/db/log". -/
def demoFile : WFile := ⟨fun _ => none, 0, 0, false, lit "/db/log", lit "/db"⟩

theorem demoOpened (cs : List Choice) (h : ∀ c ∈ cs, c.other = id) :
    Opened (lit "/db/log") demoFile 2 [] (demoWorld cs) := by
  refine ⟨by rfl, ⟨⟨2, 0, false, false, true⟩, ⟨false, [], []⟩, by rfl, rfl, rfl, .inr rfl, by rfl, rfl, rfl⟩, ?_⟩
  intro c hc k
  rw [h c hc]
  exact ⟨fun _ h => h, rfl⟩

/-- NewWritableFile produces this world and this file object. -/
example : ((PEnv.init 0 0).newWFile (fun _ => []) .trunc (lit "/db/log") ⟨demoKernel, [calm], []⟩).Sat
    (fun r w => r.1 = .ok ∧ r.2.1 = some 0 ∧ w.k = (demoWorld []).k ∧ w.calls = (demoWorld []).calls)
    (fun _ => False) := by
  refine ⟨rfl, rfl, ?_, ?_⟩ <;> decide +kernel

/-- What a client sees of a run. -/
def seen (o : Out (List St × WFile)) : Option (List St × Option Bytes) :=
  match o with
  | .done r w => some (r.1, Contents w.k 2)
  | _ => none

def demoChoices : List Choice :=
  [{ fail := some EINTR }, { count := 1 }, { count := 0 }, { count := 2 }, { count := 7 }, calm]

def demoOps : List WOp :=
  [.append (Slice.ofBytes (lit "hello")), .append (Slice.ofBytes (lit " world")), .flush]

example : ValidOps demoOps ∧ WOp.close ∉ demoOps ∧ appended demoOps = lit "hello world" := by
  refine ⟨?_, by simp [demoOps], by decide +kernel⟩
  intro d hd
  simp only [demoOps, List.mem_cons, WOp.append.injEq, reduceCtorEq, List.not_mem_nil, or_false] at hd
  rcases hd with rfl | rfl <;> simp [Slice.WF, Slice.ofBytes]

example : seen (demoFile.run (fun _ => []) false demoOps (demoWorld demoChoices)) = some ([.ok, .ok, .ok], some (lit "hello world")) := by
  decide +kernel

/-! ## C48: crashes -/

/-- C48: after Sync returned OK (and every call before it), a crash at any later point - between two calls
or inside one, whatever these return - leaves a file that begins with everything appended before the
Sync. -/
theorem C48_synced (name : Bytes) (f f1 : WFile) (ino : Nat) (base : Bytes) (w w1 w2 : World)
    (ops later : List WOp) (ss : List St) (ho : Opened name f ino base w) (hv : ValidOps ops)
    (hc : WOp.close ∉ ops) (hr : f.run strerror full (ops ++ [.sync]) w = .done (ss, f1) w1) (hok : AllOk ss)
    (hv2 : ValidOps later) (hl : Leaves (f1.run strerror full later w1) w2) :
    (∃ c, CouldBe w2.k ino c) ∧ ∀ c, CouldBe w2.k ino c → base ++ appended ops <+: c := by
  rw [run_append] at hr
  cases h1 : f.run strerror full ops w with
  | crash w => rw [h1] at hr; exact nomatch hr
  | fault e => rw [h1] at hr; exact nomatch hr
  | done r wa =>
    obtain ⟨ss1, fa⟩ := r
    rw [h1] at hr
    simp only [run_one] at hr
    cases h2 : fa.step strerror full .sync wa with
    | crash w => rw [h2] at hr; exact nomatch hr
    | fault e => rw [h2] at hr; exact nomatch hr
    | done r wb =>
      obtain ⟨s, fb⟩ := r
      rw [h2] at hr
      simp only [] at hr
      injection hr with hr1 hr2
      injection hr1 with hr1 hr3
      subst hr1 hr2 hr3
      obtain ⟨p, b, e1, e2, e3, e4⟩ := ho.run strerror full hv hc h1 (fun s hs => hok s (List.mem_append_left _ hs))
      have hs : s = .ok := hok s (List.mem_append_right _ List.mem_cons_self)
      have hvs : ValidOps [WOp.sync] := by
        intro d hd; rw [List.mem_singleton] at hd; exact nomatch hd
      obtain ⟨q, b', a1, a2, a3, a4, a5, a6, a7, a8⟩ := (step_open strerror full .sync hvs e3 e2).done h2
      have hb' : b' = [] := a6 hs (.inr (.inl rfl))
      have := a5 hs
      rw [show opBytes _ = [] from rfl, hb', List.append_nil, List.append_nil] at this
      subst this
      have hD : base ++ p ++ q = base ++ appended ops := by rw [List.append_assoc, e1]
      have hin := a7 hs rfl
      have hfa := (a4 (by simp)).1
      rw [hD] at hin hfa
      have hlive : Live ino fb (base ++ appended ops) (fun _ => False) wb := by
        left
        obtain ⟨ha, o, n, b1, b2, b3, b4, b5, b6, b7, _⟩ := hfa
        obtain ⟨_, n', c1, c2, c3, c4⟩ := hin
        exact ⟨ha, o, n', b1, b2, b3, b4, c1, c2, c3, c4⟩
      have key : ∃ p2, InoAt ino (base ++ appended ops ++ p2)
          (Ext (fun _ => False) (base ++ appended ops) (base ++ appended ops ++ p2)) w2 := by
        have hsat := run_live strerror full later fb _ b' _ wb hv2 hlive a2
        rcases hl with ⟨r, hl⟩ | hl
        · obtain ⟨p2, b2, _, h⟩ := hsat.done hl
          exact ⟨p2, h.ino⟩
        · exact hsat.crash hl
      obtain ⟨p2, hk⟩ := key
      refine ⟨?_, ?_⟩
      · obtain ⟨_, n, h1, _, h2, _⟩ := hk
        exact ⟨_, n, h1, .inl rfl⟩
      · intro c hc
        rcases hk.couldBe hc with rfl | h | h
        · exact List.prefix_append _ _
        · exact h.elim
        · exact h.1

/-- C48: as long as no call returned an error, a crash inside the next call or after it leaves what the
file held when it was opened (or could then have held after a crash), followed by a prefix of the appended
stream. -/
theorem C48_prefix (name : Bytes) (f f1 : WFile) (ino : Nat) (base : Bytes) (w w1 w2 : World)
    (ops : List WOp) (op : WOp) (ss : List St) (ho : Opened name f ino base w) (hv : ValidOps (ops ++ [op]))
    (hc : WOp.close ∉ ops) (hr : f.run strerror full ops w = .done (ss, f1) w1) (hok : AllOk ss)
    (hl : Leaves (f1.step strerror full op w1) w2) :
    (∃ c, CouldBe w2.k ino c) ∧ ∀ c, CouldBe w2.k ino c →
      CouldBe w.k ino c ∨ ∃ p, p <+: appended (ops ++ [op]) ∧ c = base ++ p := by
  have hv1 : ValidOps ops := fun d hd => hv d (List.mem_append_left _ hd)
  have hv2 : ValidOps [op] := fun d hd => hv d (List.mem_append_right _ hd)
  obtain ⟨p, b, e1, e2, e3, e4⟩ := ho.run strerror full hv1 hc hr hok
  have hap : appended (ops ++ [op]) = p ++ (b ++ opBytes op) := by
    rw [appended_append, appended_cons, ← e1, List.append_assoc]; simp [appended]
  have key : ∃ q, q <+: b ++ opBytes op ∧ InoAt ino (base ++ p ++ q)
      (Ext (Ext (CouldBe w.k ino) base (base ++ p)) (base ++ p) (base ++ p ++ q)) w2 := by
    have hsat := step_open strerror full op hv2 e3 e2
    rcases hl with ⟨r, hl⟩ | hl
    · obtain ⟨q, b', a1, a2, a3, _⟩ := hsat.done hl
      exact ⟨q, a1, a3.ino⟩
    · exact hsat.crash hl
  obtain ⟨q, hq, hk⟩ := key
  refine ⟨?_, ?_⟩
  · obtain ⟨_, n, h1, _, h2, _⟩ := hk
    exact ⟨_, n, h1, .inl rfl⟩
  · intro c hc
    have hpre : p ++ q <+: appended (ops ++ [op]) := by
      rw [hap]; exact (List.prefix_append_right_inj p).2 hq
    rcases hk.couldBe hc with rfl | h
    · right; exact ⟨p ++ q, hpre, List.append_assoc _ _ _⟩
    · rcases h.trans (List.prefix_append _ _) (List.prefix_append _ _) with h | ⟨⟨t, rfl⟩, h⟩
      · left; exact h
      · right
        rw [List.append_assoc, List.prefix_append_right_inj] at h
        exact ⟨t, h.trans hpre, rfl⟩

/-! A concrete case: "hello" is synced, "abc" is then half written when the machine crashes. -/

/-- The contents a crash can leave, when the run crashes. -/
def crashSeen (o : Out (List St × WFile)) : Option (List Bytes) :=
  match o with
  | .crash w => (w.k.inodes[2]?).map (fun n => n.data :: n.old)
  | _ => none

example : crashSeen (demoFile.run (fun _ => []) false
      [.append (Slice.ofBytes (lit "hello")), .sync, .append (Slice.ofBytes (lit "abc")), .flush]
      (demoWorld [calm, calm, { count := 2 }])) =
    some [lit "helloab", lit "hello", lit "hello", lit "helloa"] := by
  decide +kernel

/-- Without the Sync, everything may be gone. -/
example : crashSeen (demoFile.run (fun _ => []) false
      [.append (Slice.ofBytes (lit "hello")), .flush, .flush, .append (Slice.ofBytes (lit "abc")), .flush]
      (demoWorld [calm])) =
    some [lit "hello", [], [], lit "h", lit "he", lit "hel", lit "hell"] := by
  decide +kernel

/-! ## C49: failing writes -/

/-- C49: if a write fails during a call, the call returns that error - in every state of the object, also
after earlier errors and after Close. -/
theorem C49_reported (name : Bytes) (f f1 f2 : WFile) (ino : Nat) (base : Bytes) (w w1 w2 : World)
    (ops : List WOp) (op : WOp) (ss : List St) (s : St) (ho : Opened name f ino base w)
    (hv : ValidOps (ops ++ [op])) (hr : f.run strerror full ops w = .done (ss, f1) w1)
    (hs : f1.step strerror full op w1 = .done (s, f2) w2) :
    ∃ calls, w2.calls = w1.calls ++ calls ∧
      ∀ fd d e, Call.write fd d (.error e) ∈ calls → e ≠ EINTR → s = PosixError strerror name e := by
  have hv1 : ValidOps ops := fun d hd => hv d (List.mem_append_left _ hd)
  have hv2 : ValidOps [op] := fun d hd => hv d (List.mem_append_right _ hd)
  have hinv : ∀ (ops : List WOp) (f : WFile) (b : Bytes) (w : World), ValidOps ops → BufHas f b →
      (f.run strerror full ops w).Sat (fun r _ => r.2.filename = f.filename ∧ ∃ b', BufHas r.2 b')
        (fun _ => True) := by
    intro ops
    induction ops with
    | nil => intro f b w _ hb; exact ⟨rfl, b, hb⟩
    | cons o os ih =>
      intro f b w hv hb
      unfold WFile.run
      apply Out.Sat.bind
      apply (step_reported strerror full o hv.head hb w).mono
      · rintro ⟨s, f1⟩ w1 ⟨l, _, h2, ⟨b', h3⟩, _, _, _, _⟩
        simp only at h2 h3 ⊢
        apply Out.Sat.bind
        apply (ih f1 b' w1 hv.tail h3).mono
        · rintro ⟨ss, f2⟩ w2 ⟨a1, a2⟩
          exact ⟨a1.trans h2, a2⟩
        · intro _ _; trivial
      · intro _ _; trivial
  obtain ⟨h1, b, h2⟩ := (hinv ops f [] w hv1 ho.buf.1).done hr
  obtain ⟨l, a1, a2, a3, _, _, _, a4⟩ := (step_reported strerror full op hv2 h2 w1).done hs
  refine ⟨l, a1, ?_⟩
  intro fd d e hm hne
  have := a4 fd d e hm hne
  simp only at this h1
  rw [this, h1, ho.buf.2.1]

/-- C49: at the first error, the file holds what it held when opened followed by a prefix of the appended
stream. -/
theorem C49_prefix (name : Bytes) (f f1 f2 : WFile) (ino : Nat) (base : Bytes) (w w1 w2 : World)
    (ops : List WOp) (op : WOp) (ss : List St) (s : St) (ho : Opened name f ino base w)
    (hv : ValidOps (ops ++ [op])) (hc : WOp.close ∉ ops) (hr : f.run strerror full ops w = .done (ss, f1) w1)
    (hok : AllOk ss) (hs : f1.step strerror full op w1 = .done (s, f2) w2) :
    ∃ p, p <+: appended (ops ++ [op]) ∧ Contents w2.k ino = some (base ++ p) := by
  have hv1 : ValidOps ops := fun d hd => hv d (List.mem_append_left _ hd)
  have hv2 : ValidOps [op] := fun d hd => hv d (List.mem_append_right _ hd)
  obtain ⟨p, b, e1, e2, e3, e4⟩ := ho.run strerror full hv1 hc hr hok
  obtain ⟨q, b', a1, a2, a3, _⟩ := (step_open strerror full op hv2 e3 e2).done hs
  refine ⟨p ++ q, ?_, ?_⟩
  · rw [appended_append, appended_cons, ← e1, List.append_assoc]
    have := (List.prefix_append_right_inj p).2 a1
    simpa [appended] using this
  · rw [a3.ino.contents, List.append_assoc]

/-- C49: a later success does not mean the stream is intact.  If a Flush fails and everything after it
succeeds, up to another Flush, Sync or Close, the file holds a prefix of what was appended before the
failure, directly followed by what was appended after it. -/
theorem C49_later_success (name : Bytes) (f f1 f2 f3 : WFile) (ino : Nat) (base : Bytes) (w w1 w2 w3 : World)
    (ops later : List WOp) (last : WOp) (ss ts : List St) (s : St) (ho : Opened name f ino base w)
    (hv : ValidOps ops) (hc : WOp.close ∉ ops) (hr : f.run strerror full ops w = .done (ss, f1) w1)
    (hok : AllOk ss) (hs : f1.Flush strerror w1 = .done (s, f2) w2)
    (hv2 : ValidOps later) (hc2 : WOp.close ∉ later) (hl : last = .flush ∨ last = .sync ∨ last = .close)
    (hr2 : f2.run strerror full (later ++ [last]) w2 = .done (ts, f3) w3) (hok2 : AllOk ts) :
    ∃ p, p <+: appended ops ∧ (s = .ok → p = appended ops) ∧
      Contents w3.k ino = some (base ++ p ++ appended later) := by
  obtain ⟨p, b, e1, e2, e3, e4⟩ := ho.run strerror full hv hc hr hok
  obtain ⟨used, q, a1, a2, a3, a4, a5, a6⟩ := (FlushBuffer_sat strerror e3 e2).done hs
  simp only at a5 a6
  subst a5
  refine ⟨p ++ q, ?_, ?_, ?_⟩
  · rw [← e1]; exact (List.prefix_append_right_inj p).2 a2
  · intro hs0
    rcases a6 with ⟨_, rfl, _⟩ | h
    · exact e1
    · exact absurd hs0 h.ne_ok
  rw [run_append] at hr2
  cases h1 : ({ f1 with pos := 0 } : WFile).run strerror full later w2 with
  | crash w => rw [h1] at hr2; exact nomatch hr2
  | fault e => rw [h1] at hr2; exact nomatch hr2
  | done r wa =>
    obtain ⟨ss1, fa⟩ := r
    rw [h1] at hr2
    simp only [run_one] at hr2
    cases h2 : fa.step strerror full last wa with
    | crash w => rw [h2] at hr2; exact nomatch hr2
    | fault e => rw [h2] at hr2; exact nomatch hr2
    | done r wb =>
      obtain ⟨s', fb⟩ := r
      rw [h2] at hr2
      simp only [] at hr2
      injection hr2 with hr1 hr3
      injection hr1 with hr1 hr4
      subst hr1 hr3 hr4
      obtain ⟨p2, b2, i1, i2, i3, i4⟩ := (run_ok strerror full later { f1 with pos := 0 } _ [] _ w2 hv2 hc2 a3
        (BufHas.zero f1)).done h1 (fun s (hs : s ∈ ss1) => hok2 s (List.mem_append_left _ hs))
      have hs' : s' = .ok := hok2 s' (List.mem_append_right _ List.mem_cons_self)
      have hvl : ValidOps [last] := by
        intro d hd
        rw [List.mem_singleton] at hd
        rcases hl with h | h | h <;> rw [h] at hd <;> exact nomatch hd
      obtain ⟨q2, b', c1, c2, c3, c4, c5, c6, c7, c8⟩ := (step_open strerror full last hvl i3 i2).done h2
      have hb' : b' = [] := c6 hs' hl
      have hob : opBytes last = [] := by rcases hl with rfl | rfl | rfl <;> rfl
      have := c5 hs'
      rw [hob, hb', List.append_nil, List.append_nil] at this
      subst this
      rw [c3.ino.contents]
      simp only [List.nil_append] at i1
      rw [← i1]
      simp only [List.append_assoc]

/-- It happens: the disk is full for a moment, "hello" is lost, and the client that goes on sees OK from
Append, Flush, Sync and Close. -/
example : seen (demoFile.run (fun _ => []) false
      [.append (Slice.ofBytes (lit "hello")), .flush, .append (Slice.ofBytes (lit "world")), .flush, .sync, .close]
      (demoWorld [{ fail := some 28 }, calm, calm, calm])) =
    some ([.ok, .err .ioError (lit "/db/log") [], .ok, .ok, .ok, .ok], some (lit "world")) := by
  decide +kernel

/-! ## C50: after Close -/

/-- C50 does not hold: after Close (whatever it returned), an Append of at most 64 KiB returns OK and makes
no system call, and nothing the client can do with the object afterwards changes the file. -/
theorem C50_append_after_close_lost (name : Bytes) (f f1 : WFile) (ino : Nat) (base : Bytes)
    (w w1 w2 : World) (ops later : List WOp) (d : Slice) (ss : List St) (ho : Opened name f ino base w)
    (hv : ValidOps ops) (hd : d.WF) (hv2 : ValidOps later)
    (hr : f.run strerror full (ops ++ [.close]) w = .done (ss, f1) w1) (hlen : d.len ≤ 65536)
    (hl : Leaves (f1.run strerror full (.append d :: later) w1) w2) :
    (∃ f', f1.Append strerror d w1 = .done (.ok, f') w1) ∧ Contents w2.k ino = Contents w1.k ino := by
  obtain ⟨D, O, c1, c2, c3⟩ := ho.closed strerror full hv hr
  refine ⟨?_, ?_⟩
  · have hs := Append_closed_sat strerror d hd c1 c2 c3
    have hle : ([] : Bytes).length + d.len ≤ kWritableFileBufferSize := by
      unfold kWritableFileBufferSize; simpa using hlen
    cases h : f1.Append strerror d w1 with
    | crash w => rw [h] at hs; exact absurd hs.2 (by omega)
    | fault e => rw [h] at hs; exact hs.elim
    | done r w' =>
      obtain ⟨b', _, _, _, h4, _⟩ := hs.done h
      obtain ⟨e1, _, e3⟩ := h4 hle
      exact ⟨r.2, by rw [e3, ← e1]⟩
  · have hsat := run_closed strerror full (.append d :: later) f1 [] w1 (ino := ino) (D := D) (O := O)
      (by intro d' hd'
          rcases List.mem_cons.1 hd' with h | h
          · injection h with h; rw [h]; exact hd
          · exact hv2 d' h) c1 c2 c3
    rw [c2.contents]
    rcases hl with ⟨r, hl⟩ | hl
    · obtain ⟨b', _, _, h⟩ := hsat.done hl; exact h.contents
    · exact (hsat.crash hl).contents

/-- C50, the part that holds: after Close, Sync and Close always return an error, and so does an Append of
more than 64 KiB, and a Flush after an Append of at least one byte.  (Missing: an Append of at most 64 KiB,
see `C50_append_after_close_lost`.) -/
theorem C50_partial (name : Bytes) (f f1 f2 f3 : WFile) (ino : Nat) (base : Bytes)
    (w w1 w2 w3 : World) (ops later : List WOp) (op : WOp) (ss ts : List St) (s : St)
    (ho : Opened name f ino base w) (hv : ValidOps ops) (hv2 : ValidOps (later ++ [op]))
    (hr : f.run strerror full (ops ++ [.close]) w = .done (ss, f1) w1)
    (hr2 : f1.run strerror full later w1 = .done (ts, f2) w2)
    (hs : f2.step strerror full op w2 = .done (s, f3) w3) :
    (op = .sync ∨ op = .close → s ≠ .ok) ∧
    (∀ d, op = .append d → d.len > 65536 → s ≠ .ok) ∧
    (∀ d, op = .flush → later = [.append d] → 0 < d.len → d.len ≤ 65536 → s ≠ .ok) := by
  obtain ⟨D, O, c1, c2, c3⟩ := ho.closed strerror full hv hr
  have hvl : ValidOps later := fun d hd => hv2 d (List.mem_append_left _ hd)
  have hvo : ValidOps [op] := fun d hd => hv2 d (List.mem_append_right _ hd)
  obtain ⟨b, i1, i2, i3⟩ := (run_closed strerror full later f1 [] w1 hvl c1 c2 c3).done hr2
  refine ⟨?_, ?_, ?_⟩
  · intro hop
    obtain ⟨_, _, _, _, h⟩ := (step_closed strerror full op hvo i1 i3 i2).done hs
    exact h hop
  · rintro d rfl hd
    obtain ⟨_, _, _, _, _, h⟩ := (Append_closed_sat strerror d (hvo d (List.mem_singleton.2 rfl)) i1 i3 i2).done hs
    exact h (by unfold kWritableFileBufferSize; omega)
  · rintro d rfl rfl h0 h1
    rw [run_one] at hr2
    have hd : d.WF := hvl d (List.mem_singleton.2 rfl)
    cases ha : f1.step strerror full (.append d) w1 with
    | crash w => rw [ha] at hr2; exact nomatch hr2
    | fault e => rw [ha] at hr2; exact nomatch hr2
    | done r wa =>
      obtain ⟨sa, fa⟩ := r
      rw [ha] at hr2
      simp only at hr2
      injection hr2 with hr3 hr4
      injection hr3 with hr3 hr5
      subst hr3 hr4 hr5
      obtain ⟨b', j1, j2, j3, j4, _⟩ := (Append_closed_sat strerror d hd c1 c2 c3).done ha
      obtain ⟨_, rfl, _⟩ := j4 (by unfold kWritableFileBufferSize; simpa using h1)
      obtain ⟨_, _, h⟩ := (FlushBuffer_closed_sat strerror j2 j1 j3).done hs
      apply h
      intro e
      have := congrArg List.length e
      simp [bytes_len hd] at this
      omega

example : seen (demoFile.run (fun _ => []) false
      [.append (Slice.ofBytes (lit "a")), .close, .append (Slice.ofBytes (lit "lost")), .flush, .close]
      (demoWorld [calm, calm, calm, calm, calm])) =
    some ([.ok, .ok, .ok, .err .ioError (lit "/db/log") [], .err .ioError (lit "/db/log") []], some (lit "a")) := by
  decide +kernel

/-! ## C51: manifests -/

/-- The object still belongs to the name it was opened with. -/
theorem run_keeps (name : Bytes) (f f1 : WFile) (ino : Nat) (base : Bytes) (w w1 : World) (ops : List WOp)
    (ss : List St) (ho : Opened name f ino base w) (hv : ValidOps ops)
    (hr : f.run strerror full ops w = .done (ss, f1) w1) :
    (∃ b, BufHas f1 b) ∧ f1.filename = name ∧ IsManifest name = .ok f1.is_manifest ∧
      Dirname name = .ok f1.dirname ∧ (WOp.close ∉ ops → f1.fd = f.fd) := by
  have hinv : ∀ (ops : List WOp) (f : WFile) (b : Bytes) (w : World), ValidOps ops → BufHas f b →
      (f.run strerror full ops w).Sat (fun r _ => r.2.filename = f.filename ∧ (∃ b', BufHas r.2 b') ∧
        r.2.is_manifest = f.is_manifest ∧ r.2.dirname = f.dirname ∧ (WOp.close ∉ ops → r.2.fd = f.fd))
        (fun _ => True) := by
    intro ops
    induction ops with
    | nil => intro f b w _ hb; exact ⟨rfl, ⟨b, hb⟩, rfl, rfl, fun _ => rfl⟩
    | cons o os ih =>
      intro f b w hv hb
      unfold WFile.run
      apply Out.Sat.bind
      apply (step_reported strerror full o hv.head hb w).mono
      · rintro ⟨s, f1⟩ w1 ⟨l, _, h2, ⟨b', h3⟩, h4, h5, h6, _⟩
        simp only at h2 h3 h4 h5 h6 ⊢
        apply Out.Sat.bind
        apply (ih f1 b' w1 hv.tail h3).mono
        · rintro ⟨ss, f2⟩ w2 ⟨a1, a2, a3, a4, a5⟩
          exact ⟨a1.trans h2, a2, a3.trans h4, a4.trans h5, fun hn =>
            (a5 (fun h => hn (List.mem_cons_of_mem _ h))).trans (h6 (fun h => hn (h ▸ List.mem_cons_self)))⟩
        · intro _ _; trivial
      · intro _ _; trivial
  obtain ⟨h1, h2, h3, h4, h5⟩ := (hinv ops f [] w hv ho.buf.1).done hr
  obtain ⟨_, g1, g2, g3⟩ := ho.buf
  simp only at h1 h3 h4 h2
  refine ⟨h2, h1.trans g1, by rw [h3]; exact g2, by rw [h4]; exact g3, h5⟩

/-- C51: the system calls of a Sync are `pre ++ post`: `post` are writes and syncs of the file itself; for
a manifest they start only after the directory was opened and synced successfully, and without that Sync
does not return OK; for other files there is no `pre`.  The same holds for the calls made up to a crash. -/
theorem C51_directory_first (name : Bytes) (f f1 : WFile) (ino : Nat) (base : Bytes) (w w1 w2 : World)
    (ops : List WOp) (ss : List St) (ho : Opened name f ino base w) (hv : ValidOps ops)
    (hc : WOp.close ∉ ops) (hr : f.run strerror full ops w = .done (ss, f1) w1)
    (hl : Leaves (f1.Sync strerror full w1) w2) :
    ∃ pre post dir, w2.calls = w1.calls ++ pre ++ post ∧ Dirname name = .ok dir ∧
      (∀ x ∈ pre, NotWrite x) ∧ (∀ x ∈ post, (∃ d r, x = .write f.fd d r) ∨ ∃ ok, x = .sync f.fd ok) ∧
      (ManifestName name → post ≠ [] → DirSynced dir pre) ∧
      (ManifestName name → ¬ DirSynced dir pre → ∀ s f2, f1.Sync strerror full w1 = .done (s, f2) w2 → s ≠ .ok) ∧
      (¬ ManifestName name → pre = []) ∧
      (∀ s f2, f1.Sync strerror full w1 = .done (s, f2) w2 → s = .ok → Call.sync f.fd true ∈ post) := by
  obtain ⟨⟨b, hb⟩, h1, h2, h3, h4⟩ := run_keeps strerror full name f f1 ino base w w1 ops ss ho hv hr
  have hfd := h4 hc
  rw [IsManifest_eq] at h2
  injection h2 with h2
  have hm : ManifestName name ↔ f1.is_manifest = true := by rw [← h2]; simp [ManifestName]
  have hm' : ¬ ManifestName name → f1.is_manifest = false := by
    intro h; rw [hm] at h; simpa using h
  have hsat := Sync_trace strerror full hb w1
  rcases hl with ⟨⟨s, f2⟩, hl⟩ | hl
  · obtain ⟨pre, post, e1, e2, e3, e4, e5, e6, e7, e8, e9⟩ := hsat.done hl
    rw [hfd] at e3 e8
    refine ⟨pre, post, f1.dirname, by rw [List.append_assoc]; exact e1, h3, e2, e3, fun h => e4 (hm.1 h), ?_,
      fun h => e6 (hm' h), ?_⟩
    · intro h hn s' f' hd
      rw [hl] at hd
      injection hd with hd _
      injection hd with hd _
      rw [← hd]; exact e5 (hm.1 h) hn
    · intro s' f' hd hs'
      rw [hl] at hd
      injection hd with hd _
      injection hd with hd _
      exact e8 (hd.trans hs')
  · obtain ⟨pre, post, e1, e2, e3, e4, e6⟩ := hsat.crash hl
    rw [hfd] at e3
    refine ⟨pre, post, f1.dirname, by rw [List.append_assoc]; exact e1, h3, e2, e3, fun h => e4 (hm.1 h), ?_,
      fun h => e6 (hm' h), ?_⟩
    · intro h hn s' f' hd
      rw [hl] at hd; exact nomatch hd
    · intro s' f' hd
      rw [hl] at hd; exact nomatch hd

/-- C51: what that buys.  If a Sync of a manifest returns OK while nobody else changes names, then after
any crash its name means what it meant when Sync was called (the directory being the one that contains
it). -/
theorem C51_name_durable (name : Bytes) (f f1 f2 : WFile) (ino : Nat) (base : Bytes) (w w1 w2 : World)
    (ops : List WOp) (ss : List St) (dir : Nat) (ho : Opened name f ino base w) (hv : ValidOps ops)
    (hr : f.run strerror full ops w = .done (ss, f1) w1)
    (hs : f1.Sync strerror full w1 = .done (.ok, f2) w2)
    (hm : ManifestName name) (hnul : 0 ∉ name) (hroot : name.head? ≠ some 47 ∨ 2 ≤ name.count 47)
    (hq : ∀ c ∈ w1.choices, QuietNames c) (hdir : w1.k.lookup (parentDir name) = some dir)
    (hisdir : (w1.k.inodes[dir]?).map (·.dir) = some true) :
    ∀ v, w2.k.NameAfterCrash name v → v = w1.k.lookup name := by
  obtain ⟨⟨b, hb⟩, h1, h2, h3, _⟩ := run_keeps strerror full name f f1 ino base w w1 ops ss ho hv hr
  rw [IsManifest_eq] at h2
  injection h2 with h2
  have hman : f1.is_manifest = true := by rw [← h2]; simpa [ManifestName] using hm
  have hpd : f1.dirname = parentDir name := by
    have hmain := parentDir_eq name hroot
    rw [hmain] at h3
    injection h3 with h3
    exact h3.symm
  have hcs : cstr f1.dirname = f1.dirname := by
    rw [hpd]
    exact cstr_parentDir hnul
  have hsat := Sync_names (N := w1.k.names) (i := dir) strerror full hb hman ⟨hq, rfl, fun _ _ => trivial⟩
    (by rw [hcs, hpd]; exact hdir) hisdir
  have hN := hsat.done hs rfl
  intro v hv
  rcases hv with hv | hv
  · rw [hv]; unfold Kernel.lookup; rw [hN.names]
  · exact absurd hdir (hN.pend _ hv)

/-! ## C52: paths -/

/-- C52: directory and base name of every file name. -/
theorem C52_split (name : Bytes) : ∃ dir sl, Dirname name = .ok dir ∧ Basename name = .ok sl ∧ sl.WF ∧
    47 ∉ sl.bytes ∧ (47 ∈ name → name = dir ++ 47 :: sl.bytes) ∧
    (47 ∉ name → dir = lit "." ∧ sl.bytes = name) := by
  rcases Dirname_eq name with ⟨h1, h2⟩ | ⟨a, b, rfl, h1, h2⟩
  · rcases Basename_eq name with ⟨_, h3⟩ | ⟨a, b, rfl, _, _⟩
    · refine ⟨_, _, h2, h3, by unfold Slice.WF Slice.ofBytes; simp, ?_, ?_, ?_⟩
      · unfold Slice.bytes Slice.ofBytes
        simpa using fun h => h1 47 h rfl
      · intro h; exact absurd rfl (h1 47 h)
      · intro _; exact ⟨rfl, by unfold Slice.bytes Slice.ofBytes; simp⟩
    · exact absurd rfl (h1 47 (by simp))
  · rcases Basename_eq (a ++ 47 :: b) with ⟨h, _⟩ | ⟨a', b', h4, h5, h6⟩
    · exact absurd rfl (h 47 (by simp))
    · have hb : b = b' := by rw [← baseOf_some h1, h4, baseOf_some h5]
      subst hb
      have ha : a = a' := List.append_cancel_right h4
      subst ha
      have hbytes : (Slice.mk (a ++ 47 :: b) (a.length + 1) b.length).bytes = b := by
        unfold Slice.bytes
        rw [List.drop_append, List.drop_eq_nil_of_le (by simp)]; simp
      refine ⟨_, _, h2, h6, by unfold Slice.WF; simp; omega, ?_, ?_, ?_⟩
      · rw [hbytes]; intro h; exact h1 47 h rfl
      · intro _; rw [hbytes]
      · intro h; exact absurd (by simp) h

/-- C52: a file is treated as a manifest exactly if its base name begins with "MANIFEST". -/
theorem C52_manifest (name : Bytes) : ∃ m sl, IsManifest name = .ok m ∧ Basename name = .ok sl ∧
    (m = true ↔ ∃ rest, sl.bytes = lit "MANIFEST" ++ rest) := by
  obtain ⟨dir, sl, h1, h2, h3, h4, h5, h6⟩ := C52_split name
  refine ⟨_, sl, IsManifest_eq name, h2, ?_⟩
  have : baseOf name = sl.bytes := by
    by_cases h : 47 ∈ name
    · rw [h5 h, baseOf_some (fun x hx e => h4 (e ▸ hx))]
    · rw [(h6 h).2, baseOf_none (fun x hx e => h (e ▸ hx))]
  rw [decide_eq_true_eq, this]
  exact ⟨fun ⟨t, h⟩ => ⟨t, h.symm⟩, fun ⟨t, h⟩ => ⟨t, h.symm⟩⟩

/-- C52, the part that holds: for a name with no separator, or with one after the first character, the
directory opened is the one that contains the file.  (Missing: files in the root directory, see
`C52_root_manifest_cannot_sync`.) -/
theorem C52_partial (name : Bytes) (hroot : name.head? ≠ some 47 ∨ 2 ≤ name.count 47) :
    Dirname name = .ok (parentDir name) := parentDir_eq name hroot

/-- C52 does not hold: the directory computed for a file in the root directory is empty, and so Sync of a
manifest there always fails, whatever the system does. -/
theorem C52_root_manifest_cannot_sync (b : Bytes) (hb : ∀ x ∈ b, x ≠ 47) (hm : lit "MANIFEST" <+: b)
    (f f1 f2 : WFile) (ino : Nat) (base : Bytes) (w w1 w2 : World) (ops : List WOp) (ss : List St) (s : St)
    (ho : Opened (47 :: b) f ino base w) (hv : ValidOps ops)
    (hr : f.run strerror full ops w = .done (ss, f1) w1) (hs : f1.Sync strerror full w1 = .done (s, f2) w2) :
    Dirname (47 :: b) = .ok [] ∧ parentDir (47 :: b) = [47] ∧ s ≠ .ok := by
  have hd : Dirname (47 :: b) = .ok [] := by
    rcases Dirname_eq (47 :: b) with ⟨h, _⟩ | ⟨a, b', h4, h5, h6⟩
    · exact absurd rfl (h 47 (by simp))
    · have hbb : baseOf (47 :: b) = b := baseOf_some (a := []) hb
      rw [h4, baseOf_some h5] at hbb
      subst hbb
      have : [] = a := List.append_cancel_right (as := []) h4
      rw [h6, this]
  refine ⟨hd, ?_, ?_⟩
  · have := baseOf_some (a := []) hb
    simp only [List.nil_append] at this
    unfold parentDir
    rw [show (List.takeWhile (fun b => decide (b ≠ 47)) (47 :: b).reverse).reverse = b from this]
    simp
  · obtain ⟨_, _, h2, h3, _⟩ := run_keeps strerror full (47 :: b) f f1 ino base w w1 ops ss ho hv hr
    rw [hd] at h3
    injection h3 with h3
    rw [IsManifest_eq, show baseOf (47 :: b) = b from baseOf_some (a := []) hb] at h2
    injection h2 with h2
    have hman : f1.is_manifest = true := by rw [← h2]; simpa using hm
    have hopen : (sysOpen .rdonly [] w1).Sat (fun r _ => ∃ e, r = .error e) (fun _ => True) := by
      apply Out.Sat.sys
      · intro _; trivial
      · intro c cs hcs
        cases hf : c.fail with
        | some e => exact ⟨e, rfl⟩
        | none => exact ⟨ENOENT, rfl⟩
    have hsat : (f1.Sync strerror full w1).Sat (fun r _ => r.1 ≠ .ok) (fun _ => True) := by
      unfold WFile.Sync WFile.SyncDirIfManifest
      simp only [hman, if_true, ← h3]
      apply Out.Sat.bind
      apply Out.Sat.bind
      apply hopen.mono
      · rintro r w3 ⟨e, rfl⟩
        show Out.Sat ((if PosixError strerror [] e ≠ .ok then _ else _ : P (St × WFile)) w3) _ _
        simp only [ne_eq, PosixError_ne_ok, not_false_eq_true, if_true]
        exact PosixError_ne_ok _ _ _
      · intro _ _; trivial
    exact hsat.done hs

/-! Concrete cases for C51 and C52: a manifest in "/db" (inode 2, descriptor 0). -/

def demoManifest : WFile := ⟨fun _ => none, 0, 0, true, lit "/db/MANIFEST-1", lit "/db"⟩

def manifestWorld (cs : List Choice) : World :=
  ⟨{ demoKernel with names := (lit "/db/MANIFEST-1", 2) :: demoKernel.names
                     pend := [(lit "/db/MANIFEST-1", none)]
                     inodes := demoKernel.inodes ++ [⟨false, [], []⟩]
                     fds := [some ⟨2, 0, false, false, true⟩] }, cs, []⟩

theorem manifestOpened (cs : List Choice) (h : ∀ c ∈ cs, c.other = id) :
    Opened (lit "/db/MANIFEST-1") demoManifest 2 [] (manifestWorld cs) := by
  refine ⟨by rfl, ⟨⟨2, 0, false, false, true⟩, ⟨false, [], []⟩, by rfl, rfl, rfl, .inr rfl, by rfl, rfl, rfl⟩, ?_⟩
  intro c hc k
  rw [h c hc]
  exact ⟨fun _ h => h, rfl⟩

def callsOf (o : Out (List St × WFile)) : Option (List St × List Call × List (Bytes × Option Nat)) :=
  match o with
  | .done r w => some (r.1, w.calls, w.k.pend)
  | _ => none

set_option synthInstance.maxSize 1000 in
/-- Before the Sync a crash can lose the name; after it, not any more. -/
example : callsOf (demoManifest.run (fun _ => []) false [.append (Slice.ofBytes (lit "x")), .sync]
      (manifestWorld [calm, calm, calm, calm, calm])) =
    some ([.ok, .ok], [.open (lit "/db") (some 1), .sync 1 true, .close 1 none, .write 0 (lit "x") (.ok 1),
      .sync 0 true], []) := by
  decide +kernel

set_option synthInstance.maxSize 1000 in
/-- If the directory cannot be synced, nothing is written. -/
example : callsOf (demoManifest.run (fun _ => []) false [.append (Slice.ofBytes (lit "x")), .sync]
      (manifestWorld [calm, { fail := some EIO }, calm, calm, calm])) =
    some ([.ok, .err .ioError (lit "/db") []], [.open (lit "/db") (some 1), .sync 1 false, .close 1 none],
      [(lit "/db/MANIFEST-1", none)]) := by
  decide +kernel

example : ManifestName (lit "/db/MANIFEST-1") ∧ (0 : UInt8) ∉ lit "/db/MANIFEST-1" ∧
    2 ≤ (lit "/db/MANIFEST-1").count 47 ∧ (manifestWorld []).k.lookup (parentDir (lit "/db/MANIFEST-1")) = some 1 ∧
    ((manifestWorld []).k.inodes[1]?).map (·.dir) = some true ∧ QuietNames calm := by
  refine ⟨by unfold ManifestName; decide +kernel, by decide +kernel, by decide +kernel, by decide +kernel,
    by decide +kernel, fun k => ⟨rfl, rfl, rfl, fun _ => rfl⟩⟩

example : Dirname (lit "a/b/MANIFEST") = .ok (lit "a/b") ∧ Dirname (lit "log") = .ok (lit ".") ∧
    Dirname (lit "/MANIFEST-1") = .ok [] := by
  refine ⟨by rfl, by rfl, by rfl⟩

/-- "/MANIFEST-1", open (inode 2, descriptor 0): the hypotheses of `C52_root_manifest_cannot_sync`. -/
example : Opened (47 :: lit "MANIFEST-1") ⟨fun _ => none, 0, 0, true, lit "/MANIFEST-1", []⟩ 2 []
    (manifestWorld [calm]) := by
  refine ⟨by rfl, ⟨⟨2, 0, false, false, true⟩, ⟨false, [], []⟩, by rfl, rfl, rfl, .inr rfl, by rfl, rfl, rfl⟩, ?_⟩
  intro c hc k
  rw [List.mem_singleton.1 hc]
  exact ⟨fun _ h => h, rfl⟩

end Posix
end Lsmdb
