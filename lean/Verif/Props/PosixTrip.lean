import Verif.Props.PosixLoad
import Verif.Proof.PosixHeld

/-!
# What one thread writes another one reads (C98)
-/

namespace Lsmdb
namespace Posix
namespace Conc

open MemEnv (St lit)

variable {strerror : Strerror} {full : Bool} {t t' h h' : Nat} {name D base : Bytes} {op : POp}

theorem close_fd {f f' : WFile} {w w' : World} {s : St} (h : f.Close strerror w = .done (s, f') w') : f'.fd = -1 := by
  have : Ret (fun x : St × WFile => x.2.fd = -1) (f.Close strerror) :=
    Ret.then fun ⟨st, f1⟩ => Ret.then fun r => Ret.pure rfl
  exact this _ _ _ h

/-- The file when the object has been closed. -/
theorem written {w : World} {L1 L2 : Int} {n : Nat} (hs : Setting w L1 L2 n) {es0 : List Ev} {c0 : Conf}
    (h0 : Run strerror full (Conf.init w L1 L2 n) es0 c0) (hx : Ready c0 name D) (hop : Creates name D op base) {ds : List Ev} {c1 : Conf}
    (hc : CallIn strerror full t op (.opened .ok (some h)) c0 ds c1) {es : List Ev} {c : Conf} (hr : Run strerror full c1 es c)
    (he : ∀ u op, Ev.call u op ∈ ds ++ es → Elsewhere name op) {ws : List WOp}
    (hw : callsOn h es = (ws ++ [WOp.close]).map (.write h)) (hcl : WOp.close ∉ ws)
    (hall : (answersOn h es).length = ws.length + 1) (hok : ∀ r ∈ answersOn h es, r = .status .ok) :
    ∃ es1 ext extm L ino, Run strerror full (Conf.init w L1 L2 n) es1 c ∧ Steady ext extm L name ino (base ++ appended ws) c := by
  obtain ⟨es1, ext, extm, L, f, ino, h1, h2, h3, h4, -, -⟩ := created hs h0 hx hop hc fun u op hm => he u op (List.mem_append_left _ hm)
  have he2 : ∀ u op, Ev.call u op ∈ es → Elsewhere name op := fun u op hm => he u op (List.mem_append_right _ hm)
  obtain ⟨h6, h7⟩ := careful_of_held h2 hr he2
  have hcont := C93_flushed hs h1 h3 h4 h6 hw hcl (.inr (.inr rfl)) hall hok
  obtain ⟨⟨fo, mo, lo, gs, H, hH⟩, nd, hnd, hdir⟩ := Held.dir hr he2 h2 (by
    obtain ⟨o, n, -, -, -, -, g1, g2, -⟩ := h4.file
    exact ⟨n, g1, g2⟩)
  have hreg : RegularFile c.w.k ino (base ++ appended ws) := by
    refine ⟨nd, hnd, hdir, ?_⟩
    unfold Contents at hcont
    rw [hnd] at hcont
    exact Option.some.inj hcont
  refine ⟨_, ext, extm, L, ino, run_append h1 hr, ?_⟩
  obtain ⟨cs, hopen, g | g⟩ := C93_writable hs h1 h3 h4 h6 hw (by simpa using hcl)
  · obtain ⟨ss, f', w', hrun, hans, hhas, -⟩ := g
    obtain ⟨ss1, ts, f1, w1, -, g2, -⟩ := run_split hrun
    obtain ⟨s, g3, -⟩ := run_single g2
    have hfd := close_fd g3
    refine hH.released H hhas (fun i hi => ?_) hreg
    have hi : f'.fd = i := hi
    omega
  · obtain ⟨ops, op, ss, f1, w1, w', e, hrun, hans, -, -⟩ := g
    obtain ⟨rfl, -⟩ := List.append_inj' e rfl
    rw [hans, List.length_map, run_length hrun] at hall
    omega

/-- C98: many threads use one Env.  One of them creates a file that nobody uses, or opens it for appending; threads append to it and close
it; every call on it returns OK, while the others do other things; from then on they may open it for reading, ask about it, and do whatever
they want with others, in any interleaving, whatever fails.  A thread opens it as a random-access file.  Then each read from the new
object, by any thread, returns the bytes that were in the file (if it was opened for appending) and then those that were appended, in the
order of the calls: none only if none were asked for or the offset is beyond the end. -/
theorem C98_reads {w : World} {L1 L2 : Int} {n : Nat} (hs : Setting w L1 L2 n) {es0 : List Ev} {c0 : Conf}
    (h0 : Run strerror full (Conf.init w L1 L2 n) es0 c0) (hx : Ready c0 name D) (hop : Creates name D op base) {ds : List Ev} {c1 : Conf}
    (hc : CallIn strerror full t op (.opened .ok (some h)) c0 ds c1) {es : List Ev} {c : Conf} (hr : Run strerror full c1 es c)
    (he : ∀ u op, Ev.call u op ∈ ds ++ es → Elsewhere name op) {ws : List WOp}
    (hw : callsOn h es = (ws ++ [WOp.close]).map (.write h)) (hcl : WOp.close ∉ ws)
    (hall : (answersOn h es).length = ws.length + 1) (hok : ∀ r ∈ answersOn h es, r = .status .ok)
    {ds' es' : List Ev} {c2 c3 : Conf} (hc' : CallIn strerror full t' (.newRandomAccess name) (.opened .ok (some h')) c ds' c2)
    (hr' : Run strerror full c2 es' c3) (hg : Gentle name (ds' ++ es')) {u offset len : Nat} {r : PRes} (hoff : offset + len < 2 ^ 64)
    (hm : (POp.randRead h' offset len, r) ∈ exchanges u es') :
    ReadOf c3.w.k (∃ o, c3.has h' o) (base ++ appended ws) offset len r := by
  obtain ⟨es1, ext, extm, L, ino, h1, h2⟩ := written hs h0 hx hop hc hr he hw hcl hall hok
  exact load_reads hs h1 h2 hc' hr' hg hoff hm

/-- C98: and if a thread opens it as a sequential file, the calls on the new object read just that from the beginning in order, without
gap or repetition. -/
theorem C98_sequential {w : World} {L1 L2 : Int} {n : Nat} (hs : Setting w L1 L2 n) {es0 : List Ev} {c0 : Conf}
    (h0 : Run strerror full (Conf.init w L1 L2 n) es0 c0) (hx : Ready c0 name D) (hop : Creates name D op base) {ds : List Ev} {c1 : Conf}
    (hc : CallIn strerror full t op (.opened .ok (some h)) c0 ds c1) {es : List Ev} {c : Conf} (hr : Run strerror full c1 es c)
    (he : ∀ u op, Ev.call u op ∈ ds ++ es → Elsewhere name op) {ws : List WOp}
    (hw : callsOn h es = (ws ++ [WOp.close]).map (.write h)) (hcl : WOp.close ∉ ws)
    (hall : (answersOn h es).length = ws.length + 1) (hok : ∀ r ∈ answersOn h es, r = .status .ok)
    {ds' es' : List Ev} {c2 c3 : Conf} (hc' : CallIn strerror full t' (.newSequential name) (.opened .ok (some h')) c ds' c2)
    (hr' : Run strerror full c2 es' c3) (hg : Gentle name (ds' ++ es')) {ops : List SOp} (hq : callsOn h' es' = ops.map (callOf h'))
    (hn : ∀ n, SOp.skip n ∈ ops → n < 2 ^ 63) :
    ∃ f, c2.has h' (.seq f) ∧ (c3.has h' (.seq f) →
      ∃ as q, answersOn h' es' = List.zipWith answerOf ops as ∧ Walk (base ++ appended ws) (base ++ appended ws) 0 ops as q) := by
  obtain ⟨es1, ext, extm, L, ino, h1, h2⟩ := written hs h0 hx hop hc hr he hw hcl hall hok
  exact (load_sequential hs h1 h2 hc' hr' hg hq hn).2.2

/-- C98: and a thread that asks for the size gets the number of these bytes, or an error. -/
theorem C98_size {w : World} {L1 L2 : Int} {n : Nat} (hs : Setting w L1 L2 n) {es0 : List Ev} {c0 : Conf}
    (h0 : Run strerror full (Conf.init w L1 L2 n) es0 c0) (hx : Ready c0 name D) (hop : Creates name D op base) {ds : List Ev} {c1 : Conf}
    (hc : CallIn strerror full t op (.opened .ok (some h)) c0 ds c1) {es : List Ev} {c : Conf} (hr : Run strerror full c1 es c)
    (he : ∀ u op, Ev.call u op ∈ ds ++ es → Elsewhere name op) {ws : List WOp}
    (hw : callsOn h es = (ws ++ [WOp.close]).map (.write h)) (hcl : WOp.close ∉ ws)
    (hall : (answersOn h es).length = ws.length + 1) (hok : ∀ r ∈ answersOn h es, r = .status .ok)
    {ds' : List Ev} {c2 : Conf} {r : PRes} (hc' : CallIn strerror full t' (.getFileSize name) r c ds' c2) (hg : Gentle name ds') :
    ∃ st n, r = .size st n ∧ (st = .ok → n = (base ++ appended ws).length) ∧ (st ≠ .ok → n = 0) := by
  obtain ⟨es1, ext, extm, L, ino, h1, h2⟩ := written hs h0 hx hop hc hr he hw hcl hall hok
  exact load_size hs h2 hc' hg

/-! ## Concrete runs -/

/-- Thread 1 creates "/db/b" while thread 0 creates "/db/a". -/
def tripCreate : Option (List Ev × PRes × Conf) :=
  playCallIn (fun _ => []) false 9 [.call 0 (.newWritable (lit "/db/a"))] 1 (.newWritable (lit "/db/b")) [.move 1, .move 0] concStart

/-- Threads 1 and 2 append to it, thread 2 closes it, while thread 0 removes "/db/a". -/
def tripWrite (c : Conf) : Option (List Ev × Conf) :=
  play (fun _ => []) false 9 [.call 1 (.write 0 (.append (Slice.ofBytes [1, 2]))), .ret 0, .ret 1, .call 0 (.removeFile (lit "/db/a")),
    .call 2 (.write 0 (.append (Slice.ofBytes [3]))), .ret 2, .call 2 (.write 0 .close), .move 0, .move 2, .move 2, .ret 2] c

/-- Thread 0, still in its call, returns; thread 2 opens the file, and maps it, while thread 0 deletes the writable file. -/
def tripOpen (c : Conf) : Option (List Ev × PRes × Conf) :=
  playCallIn (fun _ => []) false 9 [.ret 0] 2 (.newRandomAccess (lit "/db/b"))
    [.move 2, .call 0 (.delete 0), .move 2, .move 2, .ret 0, .move 2, .move 2] c

/-- Threads 0 and 1 read. -/
def tripRead (c : Conf) : Option (List Ev × Conf) :=
  play (fun _ => []) false 9 [.call 0 (.randRead 2 1 2), .call 1 (.randRead 2 2 2), .ret 0, .ret 1] c

/-- All that is to be seen of this. -/
example : ((tripCreate.bind fun x => (tripWrite x.2.2).bind fun y => (tripOpen y.2).bind fun z => (tripRead z.2.2).map fun v =>
    (x.2.1, answersOn 0 y.1, z.2.1, (exchanges 0 v.1).map (·.2), (exchanges 1 v.1).map (·.2)))) =
    some (.opened .ok (some 0), [.status .ok, .status .ok, .status .ok], .opened .ok (some 2),
      [.view .ok (.view 0 1 2)], [.view (.err .ioError (lit "/db/b") []) .empty]) := by rfl

/-- The calls that write. -/
def tripOps : List WOp := [.append (Slice.ofBytes [1, 2]), .append (Slice.ofBytes [3])]

/-- The first two parts satisfy the hypotheses. -/
theorem trip : ∃ ds es c1 c, tripCreate = some (ds, .opened .ok (some 0), c1) ∧ tripWrite c1 = some (es, c) ∧
    (∀ u op, Ev.call u op ∈ ds ++ es → Elsewhere (lit "/db/b") op) ∧ callsOn 0 es = (tripOps ++ [WOp.close]).map (.write 0) ∧
    answersOn 0 es = [.status .ok, .status .ok, .status .ok] := by
  have hex : (tripCreate.bind fun x => (tripWrite x.2.2).map fun y =>
      (x.2.1, callsB false (lit "/db/b") (x.1 ++ y.1), callsOn 0 y.1, answersOn 0 y.1)) =
      some (.opened .ok (some 0), true, (tripOps ++ [WOp.close]).map (.write 0), [.status .ok, .status .ok, .status .ok]) := by rfl
  cases hp : tripCreate with
  | none => rw [hp] at hex; exact nomatch hex
  | some x =>
    obtain ⟨ds, r, c1⟩ := x
    rw [hp] at hex
    simp only [Option.bind_some] at hex
    cases hp1 : tripWrite c1 with
    | none => rw [hp1] at hex; exact nomatch hex
    | some y =>
      obtain ⟨es, c⟩ := y
      rw [hp1] at hex
      injection hex with hex
      injection hex with hr hex
      injection hex with hB hex
      injection hex with hw ha
      dsimp only at hr hB hw ha
      subst hr
      exact ⟨ds, es, c1, c, rfl, hp1, fun t op hm => (calls_of_B hB t op hm).elim id fun h => (nomatch h.1), hw, ha⟩

/-- What thread 0 reads of the mapping is what threads 1 and 2 have appended. -/
example : ∃ c3 : Conf, viewBytes c3.w.k (.view 0 1 2) = some [2, 3] := by
  obtain ⟨ds, es, c1, c, h1, h2, he, hw, ha⟩ := trip
  have hex : (tripCreate.bind fun x => (tripWrite x.2.2).bind fun y => (tripOpen y.2).bind fun z => (tripRead z.2.2).map fun v =>
      (z.2.1, callsB true (lit "/db/b") (z.1 ++ v.1), (exchanges 0 v.1).head?, v.2.objs[2]?)) =
      some (.opened .ok (some 2), true, some (POp.randRead 2 1 2, PRes.view .ok (.view 0 1 2)), some (some (.mmap ⟨0, 3, lit "/db/b"⟩))) := by rfl
  rw [h1] at hex
  simp only [Option.bind_some, h2] at hex
  cases hp : tripOpen c with
  | none => rw [hp] at hex; exact nomatch hex
  | some z =>
    obtain ⟨ds', r, c2⟩ := z
    rw [hp] at hex
    simp only [Option.bind_some] at hex
    cases hp1 : tripRead c2 with
    | none => rw [hp1] at hex; exact nomatch hex
    | some v =>
      obtain ⟨es', c3⟩ := v
      rw [hp1] at hex
      injection hex with hex
      injection hex with hr hex
      injection hex with hB hex
      injection hex with hm ho
      dsimp only at hr hB hm ho
      subst hr
      have h3 := C98_reads readsSetting (.nil _) freshReady .writable (playCallIn_call h1) (play_run _ _ _ _ h2) he hw (by simp [tripOps]) (by rw [ha]; rfl)
        (by rw [ha]; simp) (playCallIn_call hp) (play_run _ _ _ _ hp1) (gentle_of_B hB) (by decide) (List.mem_of_mem_head? hm)
      cases h3 with
      | view _ _ _ h4 =>
        refine ⟨c3, (h4 ⟨_, ho⟩).trans ?_⟩
        decide

/-- Thread 1 asks for the size while thread 0 opens the file. -/
example : ∃ ds es c1 c ds' c2, CallIn (fun _ => []) false 1 (.newWritable (lit "/db/b")) (.opened .ok (some 0)) concStart ds c1 ∧
    Run (fun _ => []) false c1 es c ∧ CallIn (fun _ => []) false 1 (.getFileSize (lit "/db/b")) (.size .ok 3) c ds' c2 ∧
    3 = ([] ++ appended tripOps).length := by
  obtain ⟨ds, es, c1, c, h1, h2, he, hw, ha⟩ := trip
  have hex : (tripCreate.bind fun x => (tripWrite x.2.2).bind fun y =>
      (playCallIn (fun _ => []) false 9 [.ret 0, .call 0 (.newRandomAccess (lit "/db/b")), .move 0] 1 (.getFileSize (lit "/db/b")) [.move 0, .move 1, .move 0]
        y.2).map fun z => (callsB true (lit "/db/b") z.1, z.2.1)) = some (true, .size .ok 3) := by rfl
  rw [h1] at hex
  simp only [Option.bind_some, h2] at hex
  generalize hp : playCallIn (fun _ => []) false 9 _ _ _ _ c = z at hex
  cases z with
  | none => exact nomatch hex
  | some z =>
    obtain ⟨ds', r, c2⟩ := z
    injection hex with hex
    injection hex with hB hr
    dsimp only at hr hB
    subst hr
    obtain ⟨st, n, h3, h4, -⟩ := C98_size readsSetting (.nil _) freshReady .writable (playCallIn_call h1) (play_run _ _ _ _ h2) he hw (by simp [tripOps]) (by rw [ha]; rfl)
        (by rw [ha]; simp) (playCallIn_call hp) (gentle_of_B hB)
    cases h3
    refine ⟨ds, es, c1, c, ds', c2, playCallIn_call h1, play_run _ _ _ _ h2, playCallIn_call hp, h4 rfl⟩

/-- Thread 2 opens the file as a sequential file; threads 1 and 2 read from it. -/
example : ∃ c2 c3 es', CallIn (fun _ => []) false 2 (.newSequential (lit "/db/b")) (.opened .ok (some 2)) (((tripCreate.bind fun x => tripWrite x.2.2).map (·.2)).getD concStart)
      [.ret 0 (.status .ok)] c2 ∧ Run (fun _ => []) false c2 es' c3 ∧
    answersOn 2 es' = [.data .ok (some [1]), .status .ok, .data .ok (some [3])] ∧
    ∃ as q, answersOn 2 es' = List.zipWith answerOf [SOp.read 1, .skip 1, .read 5] as ∧ Walk [1, 2, 3] [1, 2, 3] 0 [.read 1, .skip 1, .read 5] as q := by
  obtain ⟨ds, es, c1, c, h1, h2, he, hw, ha⟩ := trip
  have hex : (tripCreate.bind fun x => (tripWrite x.2.2).bind fun y =>
      (playCallIn (fun _ => []) false 9 [.ret 0] 2 (.newSequential (lit "/db/b")) [.move 2] y.2).bind fun z =>
      (play (fun _ => []) false 9 [.call 2 (.seqRead 2 1), .call 0 (.fileExists (lit "/db/b")), .move 2, .ret 2, .call 1 (.seqSkip 2 1), .move 0, .move 1,
        .ret 1, .call 2 (.seqRead 2 5), .move 2, .ret 2] z.2.2).map fun v =>
      (z.1, z.2.1, callsB true (lit "/db/b") (z.1 ++ v.1), callsOn 2 v.1, answersOn 2 v.1, z.2.2.objs[2]?, v.2.objs[2]?)) =
      some ([.ret 0 (.status .ok)], .opened .ok (some 2), true, [SOp.read 1, .skip 1, .read 5].map (callOf 2),
        [.data .ok (some [1]), .status .ok, .data .ok (some [3])], some (some (.seq ⟨1, lit "/db/b"⟩)), some (some (.seq ⟨1, lit "/db/b"⟩))) := by rfl
  rw [h1]
  simp only [Option.bind_some, h2, Option.map_some, Option.getD_some]
  rw [h1] at hex
  simp only [Option.bind_some, h2] at hex
  generalize hp : playCallIn (fun _ => []) false 9 _ _ _ _ c = z at hex
  cases z with
  | none => exact nomatch hex
  | some z =>
    obtain ⟨ds', r, c2⟩ := z
    simp only [Option.bind_some] at hex
    generalize hp1 : play (fun _ => []) false 9 _ c2 = v at hex
    cases v with
    | none => exact nomatch hex
    | some v =>
      obtain ⟨es', c3⟩ := v
      injection hex with hex
      injection hex with hds hex
      injection hex with hr hex
      injection hex with hB hex
      injection hex with hw' hex
      injection hex with ha' hex
      injection hex with ho1 ho
      dsimp only at hds hr hB hw' ha' ho1 ho
      subst hr hds
      obtain ⟨f, g1, g2⟩ := C98_sequential readsSetting (.nil _) freshReady .writable (playCallIn_call h1) (play_run _ _ _ _ h2) he hw (by simp [tripOps]) (by rw [ha]; rfl)
        (by rw [ha]; simp) (playCallIn_call hp) (play_run _ _ _ _ hp1) (gentle_of_B hB) hw' (by simp)
      rw [show c2.objs[2]? = _ from g1] at ho1
      cases ho1
      exact ⟨c2, c3, es', playCallIn_call hp, play_run _ _ _ _ hp1, ha', g2 ho⟩

end Conc
end Posix
end Lsmdb
