import Verif.Spec.PosixLoad
import Verif.Proof.PosixTrip
import Verif.Props.PosixCreate

/-!
# Opening a file for reading in a program with many threads (C97)
-/

namespace Lsmdb
namespace Posix
namespace Conc

open MemEnv (St lit)

variable {strerror : Strerror} {full : Bool} {t h ino : Nat} {name D : Bytes}
variable {ext extm : Nat → Prop} {L : Lim → Int}

theorem ReadOnly.steady {w : World} {L1 L2 : Int} {m : Nat} (hs : Setting w L1 L2 m) {es0 : List Ev} {c0 : Conf}
    (h0 : Run strerror full (Conf.init w L1 L2 m) es0 c0) (hx : ReadOnly c0 name ino D) : ∃ ext extm L, Steady ext extm L name ino D c0 := by
  obtain ⟨ext, extm, L, fo, mo, lo, gs, H, hH⟩ := hx.held hs h0
  exact ⟨ext, extm, L, fo, mo, lo, gs, H, hH, hx.file⟩

/-- What is so after the call. -/
theorem loaded {sq : Bool} {w : World} {L1 L2 : Int} {m : Nat} {es0 : List Ev} {c0 : Conf}
    (h0 : Run strerror full (Conf.init w L1 L2 m) es0 c0) (hS : Steady ext extm L name ino D c0) {op : POp}
    (hop : op = if sq = true then .newSequential name else .newRandomAccess name) {ds : List Ev} {c1 : Conf}
    (hc : CallIn strerror full t op (.opened .ok (some h)) c0 ds c1) (he : Gentle name ds) :
    (∃ es1, Run strerror full (Conf.init w L1 L2 m) es1 c1) ∧ Steady ext extm L name ino D c1 ∧
      ∃ o F M, c1.has h o ∧ LeadsTo sq name D.length F M o ∧ Got c1.w.k ino D F M := by
  cases hc with
  | mk before call meanwhile busy ret =>
    have hS1 := Steady.all before (fun t op hm => he t op (List.mem_append_left _ hm)) hS
    obtain ⟨fo1, mo1, lo1, gs1, H1, hL1⟩ := Loading.all meanwhile busy (fun t op hm => he t op (List.mem_append_right _ hm))
      (Loading.start hS1 call rfl hop)
    obtain ⟨h1, h2⟩ := hL1.ret H1 ret rfl
    have r1 := (run_append ((run_append h0 before).step call) meanwhile).step ret
    exact ⟨⟨_, r1⟩, h1, h2⟩

theorem Steady.names {c : Conf} (hS : Steady ext extm L name ino D c) : OnlyName c.w.k name ino := by
  obtain ⟨_, _, _, _, -, hH, -⟩ := hS
  exact hH.names

theorem Steady.file {c : Conf} (hS : Steady ext extm L name ino D c) : RegularFile c.w.k ino D := by
  obtain ⟨_, _, _, _, -, -, hf⟩ := hS
  exact hf

theorem Steady.others {c : Conf} (hS : Steady ext extm L name ino D c) : ∀ x ∈ c.w.choices, Respects name ino x := by
  obtain ⟨_, _, _, _, -, hH, -⟩ := hS
  exact hH.choices

/-- Nobody disturbs the readers. -/
theorem Steady.still {c c' : Conf} {es : List Ev} (hr : Run strerror full c es c') (he : Gentle name es)
    (hS : Steady ext extm L name ino D c) : Steady ext extm L name ino D c' ∧ ∀ o, StillRun strerror full o name ino c es c' := by
  induction hr with
  | nil => exact ⟨hS, fun o => .nil _⟩
  | step hr hs ih =>
    obtain ⟨h1, h2⟩ := ih fun t op hm => he t op (List.mem_append_left _ hm)
    obtain ⟨h3, h4⟩ := h1.step hs fun t op e => he t op (List.mem_append_right _ (by rw [e]; exact List.mem_singleton_self _))
    exact ⟨h3, fun o => .step (h2 o) hs h4.growth fun _ => by rw [(h1.names _).2 rfl, (h3.names _).2 rfl]⟩

theorem still_careful {c c' : Conf} {es : List Ev} {o : Obj} (hr : StillRun strerror full o name ino c es c') (h : Nat) :
    CarefulRun strerror full Growth h ino c es c' := by
  induction hr with
  | nil => exact .nil _
  | step _ hs hg _ ih => exact .step ih hs (.inl hg)

theorem leads_serves {c : Conf} {F M : Option Nat} {o : Obj} (hS : Steady ext extm L name ino D c)
    (hL : LeadsTo false name D.length F M o) (hG : Got c.w.k ino D F M) : Serves c.w.k name ino D o := by
  cases o with
  | rand f =>
    obtain ⟨-, h1, h2, h3⟩ := hL
    refine ⟨hS.file, h1, ?_⟩
    by_cases hp : f.has_permanent_fd = true
    · rw [if_pos hp] at h3 ⊢
      obtain ⟨i, hF, hfd⟩ := h3
      obtain ⟨q, hq, hi, hrd, -⟩ := hG.fd i hF
      exact ⟨by omega, q, by rw [hfd]; exact hq, hi, hrd⟩
    · rw [if_neg hp] at h3 ⊢
      exact ⟨h3, (hS.names _).2 rfl, h2⟩
  | mmap f =>
    obtain ⟨-, h1, h2, h3⟩ := hL
    exact ⟨hS.file, h1, by rw [h3]; exact hG.map _ h2, h3⟩
  | seq f => exact nomatch hL.1
  | _ => exact hL.elim

theorem load_opened {w : World} {L1 L2 : Int} {m : Nat} (hs : Setting w L1 L2 m) {es0 : List Ev} {c0 : Conf}
    (h0 : Run strerror full (Conf.init w L1 L2 m) es0 c0) (hS : Steady ext extm L name ino D c0) {ds : List Ev} {c1 : Conf}
    (hc : CallIn strerror full t (.newRandomAccess name) (.opened .ok (some h)) c0 ds c1) {es : List Ev} {c : Conf}
    (hr : Run strerror full c1 es c) (he : Gentle name (ds ++ es)) :
    OnlyName c.w.k name ino ∧ RegularFile c.w.k ino D ∧ ∃ o, c1.has h o ∧ Serves c1.w.k name ino D o ∧ (c.has h o → Serves c.w.k name ino D o) := by
  obtain ⟨⟨es1, r1⟩, hS, o, F, M, ho, hL, hG⟩ := loaded (sq := false) h0 hS rfl hc
    fun t op hm => he t op (List.mem_append_left _ hm)
  obtain ⟨hS', hst⟩ := hS.still hr fun t op hm => he t op (List.mem_append_right _ hm)
  have hv := leads_serves hS hL hG
  refine ⟨hS'.names, hS'.file, o, ho, hv, fun hco => ?_⟩
  obtain ⟨fo, mo, lo, gs, H1⟩ := hs.inv r1
  obtain ⟨_, _, _, _, -, -, J, -⟩ := Reads.all (hst o) H1 (shape_of_serves hv) (here_of_serves ho hv) (fun x hxm k => (hS.others x hxm k).2)
  have hobj : Grip c.w.k ino o := by
    rcases J.obj with ⟨-, hg⟩ | ⟨hg, -⟩
    · exact hg
    · rw [show c.objs[h]? = _ from hco] at hg; cases hg
  cases o with
  | rand f =>
    obtain ⟨-, h1, h2⟩ := hv
    refine ⟨hS'.file, h1, ?_⟩
    by_cases hp : f.has_permanent_fd = true
    · rw [if_pos hp] at h2 ⊢
      exact ⟨h2.1, hobj hp⟩
    · rw [if_neg hp] at h2 ⊢
      exact ⟨h2.1, (hS'.names _).2 rfl, h2.2.2⟩
  | mmap f => exact ⟨hS'.file, hv.2.1, hobj, hv.2.2.2⟩
  | _ => exact hv.elim

/-- C97: at a quiet moment `c0` file `ino` has the name `name` and no other, contains `D`, and nobody has it open for writing.  Threads
do whatever they do, as long as the calls that name the file only open it for reading or ask about it; among them thread `t` opens it
as a random-access file, and gets object `h`, while the others go on, in any interleaving, whatever fails.  Then the object reads this
file, and will: up to any later moment `c` the name, the contents and what the object has of the file stay. -/
theorem C97_opened {w : World} {L1 L2 : Int} {m : Nat} (hs : Setting w L1 L2 m) {es0 : List Ev} {c0 : Conf}
    (h0 : Run strerror full (Conf.init w L1 L2 m) es0 c0) (hx : ReadOnly c0 name ino D) {ds : List Ev} {c1 : Conf}
    (hc : CallIn strerror full t (.newRandomAccess name) (.opened .ok (some h)) c0 ds c1) {es : List Ev} {c : Conf}
    (hr : Run strerror full c1 es c) (he : Gentle name (ds ++ es)) :
    OnlyName c.w.k name ino ∧ RegularFile c.w.k ino D ∧ ∃ o, c1.has h o ∧ Serves c1.w.k name ino D o ∧ (c.has h o → Serves c.w.k name ino D o) := by
  obtain ⟨ext, extm, L, hS⟩ := hx.steady hs h0
  exact load_opened hs h0 hS hc hr he

/-- A random-access file object of a file that nobody changes. -/
theorem serves_reads {w : World} {L1 L2 : Int} {m : Nat} (hs : Setting w L1 L2 m) {es1 : List Ev} {c1 : Conf}
    (r1 : Run strerror full (Conf.init w L1 L2 m) es1 c1) {o : Obj} (ho : c1.has h o) (hv : Serves c1.w.k name ino D o)
    (hp : ∀ x ∈ c1.w.choices, Private x) {es : List Ev} {c : Conf} (hst : StillRun strerror full o name ino c1 es c) (hf : RegularFile c.w.k ino D)
    {u offset n : Nat} {r : PRes} (hoff : offset + n < 2 ^ 64) (hm : (POp.randRead h offset n, r) ∈ exchanges u es) :
    ReadOf c.w.k (∃ o, c.has h o) D offset n r := by
  cases o with
  | rand f =>
    obtain ⟨st, d, rfl, h1, h2⟩ := C94_reads_fixed hs r1 ho hv hp hst (by
      obtain ⟨a, ha, -, hd⟩ := hf
      unfold Contents
      rw [ha]
      exact congrArg some hd) (by omega) hm
    exact .data st d h1 h2
  | mmap f =>
    obtain ⟨fo, mo, lo, gs, H1⟩ := hs.inv r1
    obtain ⟨_, _, _, _, -, -, J, T⟩ := Reads.all hst H1 (shape_of_serves hv) (here_of_serves ho hv) hp
    have h1 := ((T u).past offset n r hm (by omega)).2 f rfl
    have hl : f.length = D.length := hv.2.2.2
    have ok : (f.Read strerror offset n).1 = .ok ↔ offset + n ≤ D.length := by
      unfold MmapFile.Read
      rw [Nat.mod_eq_of_lt hoff]
      split
      · refine ⟨fun e => (PosixError_ne_ok strerror f.filename EINVAL e).elim, fun e => by omega⟩
      · exact ⟨fun _ => by omega, fun _ => rfl⟩
    rw [h1]
    refine .view _ _ ok fun hex => ?_
    have hco : c.has h (.mmap f) := by
      rcases J.obj with ⟨hg, -⟩ | ⟨hg, -⟩
      · exact hg
      · obtain ⟨o, hco⟩ := hex
        rw [show c.objs[h]? = _ from hco] at hg; cases hg
    obtain ⟨st, v, e, h2, h3⟩ := C94_views hs r1 ho hv hp hst hco hoff hm
    rw [h1] at e
    injection e with e1 e2
    rw [e1, e2]
    exact h3
  | _ => exact hv.elim

theorem load_reads {w : World} {L1 L2 : Int} {m : Nat} (hs : Setting w L1 L2 m) {es0 : List Ev} {c0 : Conf}
    (h0 : Run strerror full (Conf.init w L1 L2 m) es0 c0) (hS : Steady ext extm L name ino D c0) {ds : List Ev} {c1 : Conf}
    (hc : CallIn strerror full t (.newRandomAccess name) (.opened .ok (some h)) c0 ds c1) {es : List Ev} {c : Conf}
    (hr : Run strerror full c1 es c) (he : Gentle name (ds ++ es)) {u offset n : Nat} {r : PRes} (hoff : offset + n < 2 ^ 64)
    (hm : (POp.randRead h offset n, r) ∈ exchanges u es) : ReadOf c.w.k (∃ o, c.has h o) D offset n r := by
  obtain ⟨⟨es1, r1⟩, hS, o, F, M, ho, hL, hG⟩ := loaded (sq := false) h0 hS rfl hc
    fun t op hm => he t op (List.mem_append_left _ hm)
  obtain ⟨hS', hst⟩ := hS.still hr fun t op hm => he t op (List.mem_append_right _ hm)
  exact serves_reads hs r1 ho (leads_serves hS hL hG) (fun x hxm k => (hS.others x hxm k).2) (hst o) hS'.file hoff hm

/-- C97: so each finished read from the new object, by any thread, while other threads read from it, open, use and delete others: it
returned bytes of `D` at that offset, none only if none were asked for or the offset is beyond the end (of a mapped file: exactly the
bytes asked for, if all of them exist, and an error otherwise); if it failed it returned none. -/
theorem C97_reads {w : World} {L1 L2 : Int} {m : Nat} (hs : Setting w L1 L2 m) {es0 : List Ev} {c0 : Conf}
    (h0 : Run strerror full (Conf.init w L1 L2 m) es0 c0) (hx : ReadOnly c0 name ino D) {ds : List Ev} {c1 : Conf}
    (hc : CallIn strerror full t (.newRandomAccess name) (.opened .ok (some h)) c0 ds c1) {es : List Ev} {c : Conf}
    (hr : Run strerror full c1 es c) (he : Gentle name (ds ++ es)) {u offset n : Nat} {r : PRes} (hoff : offset + n < 2 ^ 64)
    (hm : (POp.randRead h offset n, r) ∈ exchanges u es) : ReadOf c.w.k (∃ o, c.has h o) D offset n r := by
  obtain ⟨ext, extm, L, hS⟩ := hx.steady hs h0
  exact load_reads hs h0 hS hc hr he hoff hm

theorem load_sequential {w : World} {L1 L2 : Int} {m : Nat} (hs : Setting w L1 L2 m) {es0 : List Ev} {c0 : Conf}
    (h0 : Run strerror full (Conf.init w L1 L2 m) es0 c0) (hS : Steady ext extm L name ino D c0) {ds : List Ev} {c1 : Conf}
    (hc : CallIn strerror full t (.newSequential name) (.opened .ok (some h)) c0 ds c1) {es : List Ev} {c : Conf}
    (hr : Run strerror full c1 es c) (he : Gentle name (ds ++ es)) {ops : List SOp} (hw : callsOn h es = ops.map (callOf h))
    (hn : ∀ n, SOp.skip n ∈ ops → n < 2 ^ 63) :
    OnlyName c.w.k name ino ∧ RegularFile c.w.k ino D ∧ ∃ f, c1.has h (.seq f) ∧
      (c.has h (.seq f) → ∃ as q, answersOn h es = List.zipWith answerOf ops as ∧ Walk D D 0 ops as q) := by
  obtain ⟨⟨es1, r1⟩, hS, o, F, M, ho, hL, hG⟩ := loaded (sq := true) h0 hS rfl hc
    fun t op hm => he t op (List.mem_append_left _ hm)
  obtain ⟨hS', hst⟩ := hS.still hr fun t op hm => he t op (List.mem_append_right _ hm)
  refine ⟨hS'.names, hS'.file, ?_⟩
  cases o with
  | seq f =>
    obtain ⟨-, i, hF, hfd⟩ := hL
    obtain ⟨q, hq, hi, hrd, hoff⟩ := hG.fd i hF
    obtain ⟨a, ha, hd, hD⟩ := hS.file
    refine ⟨f, ho, fun hco => ?_⟩
    obtain ⟨as, D', n, p, h1, h2, h3, h4, h5⟩ := C93_reader hs r1 ho ⟨q, a, by rw [hfd]; exact hq, hi, hrd, hoff, ha, hd, hD⟩ (fun x hxm k => by
      obtain ⟨g1, g2, -⟩ := hS.others x hxm k
      exact ⟨keeps_ofd g2 _, fun b hb => ⟨b, (g1 b hb).1, rfl, List.prefix_refl _⟩⟩) (still_careful (hst (.seq f)) h) hw hn hco
    obtain ⟨a', ha', -, hD'⟩ := hS'.file
    rw [ha'] at h4
    injection h4 with h4
    subst h4
    rw [hD'] at h5
    obtain rfl := h3.eq_of_length_le h5.length_le
    exact ⟨as, p, h1, h2⟩
  | rand f => exact nomatch hL.1
  | mmap f => exact nomatch hL.1
  | _ => exact hL.elim

/-- C97: and if thread `t` opens the file as a sequential file: the calls on the new object, by any threads, one at a time, read `D` from
its beginning in order, without gap or repetition, across calls that fail. -/
theorem C97_sequential {w : World} {L1 L2 : Int} {m : Nat} (hs : Setting w L1 L2 m) {es0 : List Ev} {c0 : Conf}
    (h0 : Run strerror full (Conf.init w L1 L2 m) es0 c0) (hx : ReadOnly c0 name ino D) {ds : List Ev} {c1 : Conf}
    (hc : CallIn strerror full t (.newSequential name) (.opened .ok (some h)) c0 ds c1) {es : List Ev} {c : Conf}
    (hr : Run strerror full c1 es c) (he : Gentle name (ds ++ es)) {ops : List SOp} (hw : callsOn h es = ops.map (callOf h))
    (hn : ∀ n, SOp.skip n ∈ ops → n < 2 ^ 63) :
    OnlyName c.w.k name ino ∧ RegularFile c.w.k ino D ∧ ∃ f, c1.has h (.seq f) ∧
      (c.has h (.seq f) → ∃ as q, answersOn h es = List.zipWith answerOf ops as ∧ Walk D D 0 ops as q) := by
  obtain ⟨ext, extm, L, hS⟩ := hx.steady hs h0
  exact load_sequential hs h0 hS hc hr he hw hn

theorem load_size {w : World} {L1 L2 : Int} {m : Nat} (_ : Setting w L1 L2 m) {c0 : Conf}
    (hS : Steady ext extm L name ino D c0) {r : PRes} {ds : List Ev} {c1 : Conf}
    (hc : CallIn strerror full t (.getFileSize name) r c0 ds c1) (he : Gentle name ds) :
    ∃ st n, r = .size st n ∧ (st = .ok → n = D.length) ∧ (st ≠ .ok → n = 0) := by
  cases hc with
  | mk before call meanwhile busy ret =>
    have hS1 := Steady.all before (fun t op hm => he t op (List.mem_append_left _ hm)) hS
    have hS2 := (hS1.step call fun t op e => by cases e; exact .inr trivial).1
    have h1 : ∀ {c2 c3 : Conf} {b : List Ev}, Run strerror full c2 b c3 → NotBack t b → Gentle name b → Steady ext extm L name ino D c2 →
        (∃ p, c2.th[t]? = some (.run .none p) ∧ Asking name D.length p) → Steady ext extm L name ino D c3 ∧
        ∃ p, c3.th[t]? = some (.run .none p) ∧ Asking name D.length p := by
      intro c2 c3 b hr hb he hS hp
      induction hr with
      | nil => exact ⟨hS, hp⟩
      | step hr hs ih =>
        obtain ⟨h1, h2⟩ := ih (fun r hm => hb r (List.mem_append_left _ hm)) (fun t op hm => he t op (List.mem_append_left _ hm))
        exact h1.ask hs (fun t op e => he t op (List.mem_append_right _ (by rw [e]; exact List.mem_singleton_self _)))
          (fun r e => hb r (List.mem_append_right _ (by rw [e]; exact List.mem_singleton_self _))) h2
    obtain ⟨-, p, h2, h3⟩ := h1 meanwhile busy (fun t op hm => he t op (List.mem_append_right _ hm)) hS2 (by
      cases call with
      | call t op fuel ht ha => exact ⟨_, begin_th ht, asking_body strerror full fuel _⟩)
    cases ret with
    | ret t home a ht =>
      have e := get_some_eq ht h2
      injection e with e1 e2
      subst e1 e2
      rcases h3 with ⟨k, e, -⟩ | ⟨st, n, e, h3, h4⟩
      · exact nomatch e
      · cases e
        exact ⟨st, n, rfl, h3, h4⟩

/-- C97: and a thread that asks for the size of the file gets it, or an error. -/
theorem C97_size {w : World} {L1 L2 : Int} {m : Nat} (hs : Setting w L1 L2 m) {es0 : List Ev} {c0 : Conf}
    (h0 : Run strerror full (Conf.init w L1 L2 m) es0 c0) (hx : ReadOnly c0 name ino D) {r : PRes} {ds : List Ev} {c1 : Conf}
    (hc : CallIn strerror full t (.getFileSize name) r c0 ds c1) (he : Gentle name ds) :
    ∃ st n, r = .size st n ∧ (st = .ok → n = D.length) ∧ (st ≠ .ok → n = 0) := by
  obtain ⟨ext, extm, L, hS⟩ := hx.steady hs h0
  exact load_size hs hS hc he

/-! ## Concrete runs -/

theorem gentle_of_B {es : List Ev} (hB : callsB true name es = true) : Gentle name es := fun t op hm =>
  (calls_of_B hB t op hm).imp id fun h => h.2

theorem startReadOnly : ReadOnly concStart (lit "/db/t") 2 [1, 2, 3] := by
  refine ⟨quiet_of (by decide +kernel), onlyName_of_B (by decide +kernel), ⟨⟨false, [1, 2, 3], []⟩, by rfl, rfl, rfl⟩, fun i q hq hi => ?_, fun x hx => ?_⟩
  · have := fds_of_B (p := fun _ _ => false) (by decide +kernel) i q hq hi
    exact nomatch this
  · rw [List.eq_of_mem_replicate hx]
    exact calm_respects

/-- Thread 1 opens "/db/t" and maps it while thread 0 creates "/db/a" and writes; then thread 2 reads what thread 1 has opened while thread
1 asks for the size of the file. -/
example : ∃ ds es c1 c, CallIn (fun _ => []) false 1 (.newRandomAccess (lit "/db/t")) (.opened .ok (some 1)) concStart ds c1 ∧
    Run (fun _ => []) false c1 es c ∧ (POp.randRead 1 1 2, PRes.view .ok (.view 0 1 2)) ∈ exchanges 2 es ∧
    viewBytes c.w.k (.view 0 1 2) = some [2, 3] := by
  have hex : ((playCallIn (fun _ => []) false 9 [.call 0 (.newWritable (lit "/db/a"))] 1 (.newRandomAccess (lit "/db/t"))
      [.move 1, .move 0, .move 1, .ret 0, .move 1, .call 0 (.write 0 (.append (Slice.ofBytes [9]))), .move 1, .ret 0, .move 1] concStart).bind fun x =>
        (play (fun _ => []) false 9 [.call 2 (.randRead 1 1 2), .call 1 (.getFileSize (lit "/db/t")), .call 0 (.write 0 .flush), .move 1, .move 0, .ret 2,
          .ret 1] x.2.2).map fun y =>
        (x.2.1, callsB true (lit "/db/t") (x.1 ++ y.1), (exchanges 2 y.1).head?, y.2.objs[1]?)) =
      some (.opened .ok (some 1), true, some (POp.randRead 1 1 2, PRes.view .ok (.view 0 1 2)), some (some (.mmap mappedFile))) := by rfl
  generalize hp : playCallIn (fun _ => []) false 9 _ _ _ _ concStart = y at hex
  cases y with
  | none => exact nomatch hex
  | some x =>
    obtain ⟨ds, r, c1⟩ := x
    simp only [Option.bind_some] at hex
    generalize hp' : play (fun _ => []) false 9 _ c1 = z at hex
    cases z with
    | none => exact nomatch hex
    | some z =>
      obtain ⟨es, c⟩ := z
      injection hex with hex
      injection hex with hr hex
      injection hex with hB hex
      injection hex with hm hco
      dsimp only at hr hB hm hco
      subst hr
      have hc := playCallIn_call hp
      have hrun := play_run _ _ _ _ hp'
      have hm := List.mem_of_mem_head? hm
      have h1 := C97_reads readsSetting (.nil _) startReadOnly hc hrun (gentle_of_B hB) (by decide) hm
      cases h1 with
      | view _ _ _ h2 => exact ⟨ds, es, c1, c, hc, hrun, hm, h2 ⟨_, hco⟩⟩

/-- With both limits used up: thread 0 opens the file once more while thread 2 deletes another object of the same file; the new object
opens the file by name whenever it reads. -/
example : ∃ ds es c1 c, CallIn (fun _ => []) false 0 (.newRandomAccess (lit "/db/t")) (.opened .ok (some 3)) readsConf ds c1 ∧
    Run (fun _ => []) false c1 es c ∧ c.has 3 (.rand nameFile) ∧ Serves c.w.k (lit "/db/t") 2 [1, 2, 3] (.rand nameFile) ∧
    (POp.randRead 3 1 7, PRes.data .ok (some [2, 3])) ∈ exchanges 1 es ∧ ReadOf c.w.k True [1, 2, 3] 1 7 (PRes.data .ok (some [2, 3])) := by
  obtain ⟨es0, h0⟩ := reads_run
  have hex : ((playCallIn (fun _ => []) false 9 [] 0 (.newRandomAccess (lit "/db/t"))
      [.move 0, .move 0, .call 2 (.delete 1), .move 0, .move 0, .ret 2, .move 0, .move 0] readsConf).bind fun x =>
        (play (fun _ => []) false 9 [.call 1 (.randRead 3 1 7), .move 1, .call 2 (.delete 2), .move 2, .move 1, .move 2, .ret 2, .move 1, .ret 1] x.2.2).map fun y =>
        (x.2.1, callsB true (lit "/db/t") (x.1 ++ y.1), (exchanges 1 y.1).head?, x.2.2.objs[3]?, y.2.objs[3]?)) =
      some (.opened .ok (some 3), true, some (POp.randRead 3 1 7, PRes.data .ok (some [2, 3])), some (some (.rand nameFile)), some (some (.rand nameFile))) := by
    rfl
  generalize hp : playCallIn (fun _ => []) false 9 _ _ _ _ readsConf = y at hex
  cases y with
  | none => exact nomatch hex
  | some x =>
    obtain ⟨ds, r, c1⟩ := x
    simp only [Option.bind_some] at hex
    generalize hp' : play (fun _ => []) false 9 _ c1 = z at hex
    cases z with
    | none => exact nomatch hex
    | some z =>
      obtain ⟨es, c⟩ := z
      injection hex with hex
      injection hex with hr hex
      injection hex with hB hex
      injection hex with hm hex
      injection hex with hco1 hco
      dsimp only at hr hB hm hco hco1
      subst hr
      have hc := playCallIn_call hp
      have hrun := play_run _ _ _ _ hp'
      have hm := List.mem_of_mem_head? hm
      have h1 := C97_reads readsSetting h0 readsReadOnly hc hrun (gentle_of_B hB) (by decide) hm
      obtain ⟨-, -, o, h2, -, h3⟩ := C97_opened readsSetting h0 readsReadOnly hc hrun (gentle_of_B hB)
      rw [show c1.objs[3]? = _ from h2] at hco1
      cases hco1
      refine ⟨ds, es, c1, c, hc, hrun, hco, h3 hco, hm, ?_⟩
      cases h1 with
      | data _ _ h4 h5 => exact .data _ _ h4 h5

/-- Thread 2 opens "/db/t" as a sequential file; threads 1 and 2 read from it in turn while thread 0 opens it as well. -/
example : ∃ ds es c1 c, CallIn (fun _ => []) false 2 (.newSequential (lit "/db/t")) (.opened .ok (some 0)) concStart ds c1 ∧
    Run (fun _ => []) false c1 es c ∧ callsOn 0 es = [SOp.read 2, .read 2, .read 2].map (callOf 0) ∧
    answersOn 0 es = [.data .ok (some [1, 2]), .data .ok (some [3]), .data .ok (some [])] ∧
    ∃ as q, answersOn 0 es = List.zipWith answerOf [SOp.read 2, .read 2, .read 2] as ∧ Walk [1, 2, 3] [1, 2, 3] 0 [.read 2, .read 2, .read 2] as q := by
  have hex : ((playCallIn (fun _ => []) false 9 [.call 0 (.newRandomAccess (lit "/db/t")), .move 0] 2 (.newSequential (lit "/db/t"))
      [.move 0, .move 2, .move 0] concStart).bind fun x =>
        (play (fun _ => []) false 9 [.call 1 (.seqRead 0 2), .move 0, .move 1, .ret 1, .call 2 (.seqRead 0 2), .move 2, .move 0, .ret 2, .ret 0,
          .call 1 (.seqRead 0 2), .move 1, .ret 1] x.2.2).map fun y =>
        (x.2.1, callsB true (lit "/db/t") (x.1 ++ y.1), callsOn 0 y.1, answersOn 0 y.1, x.2.2.objs[0]?, y.2.objs[0]?)) =
      some (.opened .ok (some 0), true, [SOp.read 2, .read 2, .read 2].map (callOf 0),
        [.data .ok (some [1, 2]), .data .ok (some [3]), .data .ok (some [])], some (some (.seq ⟨2, lit "/db/t"⟩)), some (some (.seq ⟨2, lit "/db/t"⟩))) := by rfl
  generalize hp : playCallIn (fun _ => []) false 9 _ _ _ _ concStart = y at hex
  cases y with
  | none => exact nomatch hex
  | some x =>
    obtain ⟨ds, r, c1⟩ := x
    simp only [Option.bind_some] at hex
    generalize hp' : play (fun _ => []) false 9 _ c1 = z at hex
    cases z with
    | none => exact nomatch hex
    | some z =>
      obtain ⟨es, c⟩ := z
      injection hex with hex
      injection hex with hr hex
      injection hex with hB hex
      injection hex with hw hex
      injection hex with ha hex
      injection hex with hco1 hco
      dsimp only at hr hB hw ha hco hco1
      subst hr
      have hc := playCallIn_call hp
      have hrun := play_run _ _ _ _ hp'
      obtain ⟨-, -, f, h1, h2⟩ := C97_sequential readsSetting (.nil _) startReadOnly hc hrun (gentle_of_B hB) hw (by simp)
      rw [show c1.objs[0]? = _ from h1] at hco1
      cases hco1
      exact ⟨ds, es, c1, c, hc, hrun, hw, ha, h2 hco⟩

/-- Thread 1 asks for the size while thread 0 opens the file. -/
example : ∃ ds c1, CallIn (fun _ => []) false 1 (.getFileSize (lit "/db/t")) (.size .ok 3) concStart ds c1 ∧ Gentle (lit "/db/t") ds ∧
    3 = [(1 : UInt8), 2, 3].length := by
  have hex : ((playCallIn (fun _ => []) false 9 [.call 0 (.newSequential (lit "/db/t"))] 1 (.getFileSize (lit "/db/t")) [.move 0, .move 1, .ret 0]
      concStart).map fun x => (callsB true (lit "/db/t") x.1, x.2.1)) = some (true, .size .ok 3) := by rfl
  generalize hp : playCallIn (fun _ => []) false 9 _ _ _ _ concStart = y at hex
  cases y with
  | none => exact nomatch hex
  | some x =>
    obtain ⟨ds, r, c1⟩ := x
    injection hex with hex
    injection hex with hB hr
    dsimp only at hr hB
    subst hr
    obtain ⟨st, n, e, h1, -⟩ := C97_size readsSetting (.nil _) startReadOnly (playCallIn_call hp) (gentle_of_B hB)
    cases e
    exact ⟨ds, c1, playCallIn_call hp, gentle_of_B hB, h1 rfl⟩

end Conc
end Posix
end Lsmdb
