import Verif.Proof.PosixReads2
import Verif.Props.PosixSolo

/-!
# Threads that read one random-access file at the same time (C94)
-/

namespace Lsmdb
namespace Posix
namespace Conc

open MemEnv (St lit)

variable {strerror : Strerror} {full : Bool} {h ino : Nat} {name D : Bytes} {o : Obj}

theorem shape_of_serves {k : Kernel} (hs : Serves k name ino D o) : Shape name D o := by
  cases o with
  | rand f =>
    obtain ⟨-, h2, h3⟩ := hs
    refine ⟨h2, ?_⟩
    by_cases hp : f.has_permanent_fd = true
    · rw [if_pos hp] at h3
      obtain ⟨-, q, hq, -⟩ := h3
      exact .inl ⟨hp, (toNat_lt_of_ofd hq).1⟩
    · rw [if_neg hp] at h3
      exact .inr ⟨by simpa using hp, h3.1⟩
  | mmap f => exact hs.2.2.2
  | _ => exact hs.elim

theorem here_of_serves {c : Conf} (ho : c.has h o) (hs : Serves c.w.k name ino D o) : Here h ino name D o c := by
  cases o with
  | rand f =>
    obtain ⟨h1, h2, h3⟩ := hs
    refine ⟨⟨D, h1, List.prefix_refl _⟩, fun hb => ?_, .inl ⟨ho, fun hp => ?_⟩⟩
    · have hp : f.has_permanent_fd = false := by simpa [byName] using hb
      rw [if_neg (by simp [hp])] at h3
      exact h3.2.1
    · rw [if_pos hp] at h3
      exact h3.2
  | mmap f => exact ⟨⟨D, hs.1, List.prefix_refl _⟩, (fun hb => nomatch hb), .inl ⟨ho, hs.2.2.1⟩⟩
  | _ => exact hs.elim

theorem regular_unique {k : Kernel} {D1 D2 : Bytes} (a : RegularFile k ino D1) (b : RegularFile k ino D2) : D1 = D2 := by
  obtain ⟨n, h1, -, h2⟩ := a
  obtain ⟨n', h3, -, h4⟩ := b
  rw [h1] at h3
  injection h3 with h3
  subst h3
  exact h2.symm.trans h4

/-- C94: many threads use one Env; at the moment `c0` a client has a random-access file object that reads file `ino`, whose contents
are `D`; from then on nobody shortens or overwrites the file (and, if the object has to open it by name for each read, nobody gives
the name to another file), up to the moment `c`.  Then each finished read of the object, by any thread, while other threads read from
the same object, open, use and delete others: if it succeeded it returned bytes that are in the file at that offset, at most as many
as asked for, and at least one unless none was asked for or the offset is beyond `D`; if it failed it returned none. -/
theorem C94_reads {w : World} {L1 L2 : Int} {m : Nat} (hs : Setting w L1 L2 m) {es0 : List Ev} {c0 : Conf}
    (h0 : Run strerror full (Conf.init w L1 L2 m) es0 c0) {f : RandFile} (hf : c0.has h (.rand f))
    (hv : Serves c0.w.k name ino D (.rand f)) (hp : ∀ x ∈ c0.w.choices, Private x) {es : List Ev} {c : Conf}
    (hr : StillRun strerror full (.rand f) name ino c0 es c) {t offset n : Nat} {r : PRes} (hoff : offset < 2 ^ 64)
    (hx : (POp.randRead h offset n, r) ∈ exchanges t es) :
    ∃ D' st d, RegularFile c.w.k ino D' ∧ D <+: D' ∧ r = .data st d ∧ GoodRead D D' offset n st (d.getD []) := by
  obtain ⟨fo, mo, lo, gs, H0⟩ := hs.inv h0
  obtain ⟨_, _, _, _, -, -, J, T⟩ := Reads.all hr H0 (shape_of_serves hv) (here_of_serves hf hv) hp
  obtain ⟨st, d, D1, h1, h2, h3⟩ := ((T t).past offset n r hx hoff).1 f rfl
  obtain ⟨D2, h4, h5⟩ := J.reg
  obtain rfl := regular_unique h2 h4
  exact ⟨D1, st, d, h2, h5, h1, h3⟩

/-- C94: if the file has not been extended either, each successful read returned exactly bytes of `D`. -/
theorem C94_reads_fixed {w : World} {L1 L2 : Int} {m : Nat} (hs : Setting w L1 L2 m) {es0 : List Ev} {c0 : Conf}
    (h0 : Run strerror full (Conf.init w L1 L2 m) es0 c0) {f : RandFile} (hf : c0.has h (.rand f))
    (hv : Serves c0.w.k name ino D (.rand f)) (hp : ∀ x ∈ c0.w.choices, Private x) {es : List Ev} {c : Conf}
    (hr : StillRun strerror full (.rand f) name ino c0 es c) (hD : Contents c.w.k ino = some D) {t offset n : Nat} {r : PRes}
    (hoff : offset < 2 ^ 64) (hx : (POp.randRead h offset n, r) ∈ exchanges t es) :
    ∃ st d, r = .data st d ∧
      (st = .ok → d.getD [] <+: D.drop offset ∧ (d.getD []).length ≤ n ∧ (d.getD [] = [] ↔ n = 0 ∨ D.length ≤ offset)) ∧
      (st ≠ .ok → d.getD [] = []) := by
  obtain ⟨D', st, d, h1, -, h3, h4⟩ := C94_reads hs h0 hf hv hp hr hoff hx
  have : D' = D := by
    obtain ⟨n, g1, -, g2⟩ := h1
    unfold Contents at hD
    rw [g1] at hD
    injection hD with hD
    exact g2.symm.trans hD
  subst this
  refine ⟨st, d, h3, fun e => ⟨h4.bytes e, h4.most, h4.least e, fun hn => ?_⟩, h4.failed⟩
  rcases hn with rfl | hn
  · exact List.length_eq_zero_iff.1 (Nat.le_zero.1 h4.most)
  · have := h4.bytes e
    rw [List.drop_eq_nil_of_le hn] at this
    exact List.prefix_nil.1 this

/-- C94: two successful reads of the same offset, by any threads and at any time, agree on what both return. -/
theorem C94_agree {w : World} {L1 L2 : Int} {m : Nat} (hs : Setting w L1 L2 m) {es0 : List Ev} {c0 : Conf}
    (h0 : Run strerror full (Conf.init w L1 L2 m) es0 c0) {f : RandFile} (hf : c0.has h (.rand f))
    (hv : Serves c0.w.k name ino D (.rand f)) (hp : ∀ x ∈ c0.w.choices, Private x) {es : List Ev} {c : Conf}
    (hr : StillRun strerror full (.rand f) name ino c0 es c) {t u offset n n' : Nat} {d d' : Bytes} (hoff : offset < 2 ^ 64)
    (hx : (POp.randRead h offset n, PRes.data .ok (some d)) ∈ exchanges t es)
    (hy : (POp.randRead h offset n', PRes.data .ok (some d')) ∈ exchanges u es) : d <+: d' ∨ d' <+: d := by
  obtain ⟨D1, st, e, h1, -, h3, h4⟩ := C94_reads hs h0 hf hv hp hr hoff hx
  obtain ⟨D2, st', e', k1, -, k3, k4⟩ := C94_reads hs h0 hf hv hp hr hoff hy
  obtain rfl := regular_unique h1 k1
  cases h3
  cases k3
  exact List.prefix_or_prefix_of_prefix (h4.bytes rfl) (k4.bytes rfl)

/-- C94, mapped files: as long as the object exists each finished read, by any thread, succeeded exactly if the file had all the bytes
asked for when it was mapped, and its slice shows these bytes. -/
theorem C94_views {w : World} {L1 L2 : Int} {m : Nat} (hs : Setting w L1 L2 m) {es0 : List Ev} {c0 : Conf}
    (h0 : Run strerror full (Conf.init w L1 L2 m) es0 c0) {f : MmapFile} (hf : c0.has h (.mmap f))
    (hv : Serves c0.w.k name ino D (.mmap f)) (hp : ∀ x ∈ c0.w.choices, Private x) {es : List Ev} {c : Conf}
    (hr : StillRun strerror full (.mmap f) name ino c0 es c) (hc : c.has h (.mmap f)) {t offset n : Nat} {r : PRes}
    (hoff : offset + n < 2 ^ 64) (hx : (POp.randRead h offset n, r) ∈ exchanges t es) :
    ∃ st v, r = .view st v ∧ (st = .ok ↔ offset + n ≤ D.length) ∧
      viewBytes c.w.k v = some (if st = .ok then (D.drop offset).take n else []) := by
  obtain ⟨fo, mo, lo, gs, H0⟩ := hs.inv h0
  obtain ⟨_, _, _, _, -, -, J, T⟩ := Reads.all hr H0 (shape_of_serves hv) (here_of_serves hf hv) hp
  have h1 := ((T t).past offset n r hx (by omega)).2 f rfl
  obtain ⟨D', h2, h3⟩ := J.reg
  have hm : c.w.k.maps[f.mmap_base]? = some (some (ino, f.length)) := by
    rcases J.obj with ⟨-, hg⟩ | ⟨hg, -⟩
    · exact hg
    · rw [show c.objs[h]? = _ from hc] at hg; cases hg
  have hl : f.length = D.length := hv.2.2.2
  have hle := h3.length_le
  by_cases hc : offset + n > f.length
  · have hread : f.Read strerror offset n = (PosixError strerror f.filename EINVAL, .empty) := by
      unfold MmapFile.Read
      rw [Nat.mod_eq_of_lt hoff, if_pos hc]
    rw [hread] at h1
    have hne : PosixError strerror f.filename EINVAL ≠ .ok := by
      unfold PosixError; split <;> (intro e; cases e)
    refine ⟨_, _, h1, ⟨fun e => (hne e).elim, fun e => by omega⟩, ?_⟩
    simp only [if_neg hne]
    rfl
  · have hread : f.Read strerror offset n = (.ok, .view f.mmap_base offset n) := by
      unfold MmapFile.Read
      rw [Nat.mod_eq_of_lt hoff, if_neg hc]
    rw [hread] at h1
    refine ⟨_, _, h1, ⟨fun _ => by omega, fun _ => rfl⟩, ?_⟩
    simp only [↓reduceIte, viewBytes, hm, Option.join_some, h2.data]
    rw [if_pos (by omega)]
    obtain ⟨x, rfl⟩ := h3
    rw [List.drop_append_of_le_length (by omega), List.take_append_of_le_length (by rw [List.length_drop]; omega)]

/-! ## Concrete runs -/

theorem StillRun.append {c c' c'' : Conf} {es fs : List Ev} (a : StillRun strerror full o name ino c es c')
    (b : StillRun strerror full o name ino c' fs c'') : StillRun strerror full o name ino c (es ++ fs) c'' := by
  induction b with
  | nil => rw [List.append_nil]; exact a
  | step _ hs hg hn ih => rw [← List.append_assoc]; exact .step ih hs hg hn

/-- The file only grows. -/
def growthB (a b : Option Inode) : Bool :=
  match a, b with
  | some n, some n' => n'.dir == n.dir && n.data.isPrefixOf n'.data
  | none, _ => true
  | _, none => false

theorem growth_of_B {a b : Option Inode} (hb : growthB a b = true) : Growth a b := by
  intro n hn
  subst hn
  cases b with
  | none => exact nomatch hb
  | some n' =>
    have hb : (n'.dir == n.dir && n.data.isPrefixOf n'.data) = true := hb
    rw [Bool.and_eq_true] at hb
    exact ⟨n', rfl, by simpa using hb.1, List.isPrefixOf_iff_prefix.1 hb.2⟩

/-- Follow a schedule in which nobody shortens or overwrites file `ino`, or takes away the name if it matters. -/
def playStill (strerror : Strerror) (full : Bool) (fuel : Nat) (o : Obj) (name : Bytes) (ino : Nat) : List Act → Conf → Option (List Ev × Conf)
  | [], c => some ([], c)
  | a :: as, c =>
    match play strerror full fuel [a] c with
    | some (es, c') =>
      if growthB (c.w.k.inodes[ino]?) (c'.w.k.inodes[ino]?) && (!byName o || decide (c'.w.k.lookup (cstr name) = c.w.k.lookup (cstr name))) then
        match playStill strerror full fuel o name ino as c' with
        | some (es', c'') => some (es ++ es', c'')
        | none => none
      else none
    | none => none

theorem playStill_run {fuel : Nat} : ∀ (as : List Act) (c c' : Conf) (es : List Ev),
    playStill strerror full fuel o name ino as c = some (es, c') → StillRun strerror full o name ino c es c' := by
  intro as
  induction as with
  | nil => intro c c' es hp; injection hp with hp; injection hp with h1 h2; subst h1 h2; exact .nil _
  | cons a as ih =>
    intro c c' es hp
    unfold playStill at hp
    split at hp
    · rename_i es1 c1 h1
      split at hp
      · rename_i hc
        split at hp
        · rename_i es2 c2 h2
          injection hp with hp; injection hp with h3 h4; subst h3 h4
          obtain ⟨e, rfl, hstep, -⟩ := play_one h1
          rw [Bool.and_eq_true] at hc
          refine StillRun.append (.step (es := []) (.nil c) hstep (growth_of_B hc.1) fun hb => ?_) (ih _ _ _ h2)
          simpa [hb] using hc.2
        · exact nomatch hp
      · exact nomatch hp
    · exact nomatch hp

/-- What threads 0, 1 and 2 got, and the files. -/
structure SeenReads where
  got : List (List PRes)
  files : List Bytes
  deriving DecidableEq

def seenReads (o : Option (List Ev × Conf)) : Option SeenReads :=
  match o with
  | some (es, c) => some ⟨[(exchanges 0 es).map (·.2), (exchanges 1 es).map (·.2), (exchanges 2 es).map (·.2)], c.w.k.inodes.map (·.data)⟩
  | none => none

/-- The moment after three threads have opened the file "/db/t" (C92): object 0 has a permanent descriptor, object 1 opens the
file by name, object 2 has mapped it. -/
def readsStart : Option (List Ev × Conf) := play (fun _ => []) false 9 openThree concStart

def readsConf : Conf := (readsStart.map (·.2)).getD concStart

theorem reads_start : ∃ es, readsStart = some (es, readsConf) := by
  have h : readsStart.isSome = true := by decide +kernel
  obtain ⟨⟨es, c⟩, hx⟩ := Option.isSome_iff_exists.1 h
  refine ⟨es, ?_⟩
  unfold readsConf
  rw [hx]
  rfl

/-- Threads 0 and 1 read from objects 0 and 2 while thread 2 removes the file and creates another one with its name. -/
def removed : List Act :=
  [.call 0 (.randRead 0 1 2), .call 2 (.removeFile (lit "/db/t")), .call 1 (.randRead 2 0 2), .move 2, .ret 1, .move 0, .ret 2,
   .call 2 (.newWritable (lit "/db/t")), .ret 0, .call 1 (.randRead 0 0 9), .move 2, .call 0 (.randRead 0 7 1), .move 1, .move 0, .ret 2,
   .ret 1, .ret 0, .call 0 (.randRead 2 1 3), .ret 0]

/-- Threads 0 and 1 read from object 1 while thread 2 opens the file and appends to it. -/
def grown : List Act :=
  [.call 2 (.newAppendable (lit "/db/t")), .move 2, .ret 2, .call 0 (.randRead 1 2 4), .move 0,
   .call 2 (.write 3 (.append (Slice.ofBytes [4, 5]))), .ret 2, .call 1 (.randRead 1 2 4), .move 1, .move 1, .call 2 (.write 3 .flush), .move 2,
   .move 1, .move 0, .ret 1, .ret 2, .move 0, .ret 0]

/-- Object 0. -/
def permFile : RandFile := ⟨true, 1, lit "/db/t"⟩

/-- Object 1. -/
def nameFile : RandFile := ⟨false, -1, lit "/db/t"⟩

/-- Object 2. -/
def mappedFile : MmapFile := ⟨0, 3, lit "/db/t"⟩

example : seenReads (playStill (fun _ => []) false 9 (.rand permFile) (lit "/db/t") 2 removed readsConf) =
    some ⟨[[.data .ok (some [2, 3]), .data .ok (some []), .view (.err .ioError (lit "/db/t") []) .empty],
      [.view .ok (.view 0 0 2), .data .ok (some [1, 2, 3])], [.status .ok, .opened .ok (some 3)]], [[], [], [1, 2, 3], []]⟩ := by
  decide +kernel

/-- For the object that opens the file by name this run is not one of those the theorem speaks of. -/
example : playStill (fun _ => []) false 9 (.rand nameFile) (lit "/db/t") 2 removed readsConf = none := by rfl

/-- Thread 1 has read before, thread 0 after the file has grown. -/
example : seenReads (playStill (fun _ => []) false 9 (.rand nameFile) (lit "/db/t") 2 grown readsConf) =
    some ⟨[[.data .ok (some [3, 4, 5])], [.data .ok (some [3])], [.opened .ok (some 3), .status .ok, .status .ok]],
      [[], [], [1, 2, 3, 4, 5]]⟩ := by
  decide +kernel

theorem reads_private : ∀ x ∈ readsConf.w.choices, Private x := by
  have : readsConf.w.choices = List.replicate 33 calm := by rfl
  rw [this]
  intro x hx
  rw [List.eq_of_mem_replicate hx]
  exact fun k => ⟨rfl, rfl⟩

theorem reads_regular : RegularFile readsConf.w.k 2 [1, 2, 3] := ⟨⟨false, [1, 2, 3], []⟩, by rfl, rfl, rfl⟩

theorem permServes : readsConf.has 0 (.rand permFile) ∧ Serves readsConf.w.k (lit "/db/t") 2 [1, 2, 3] (.rand permFile) :=
  ⟨by rfl, reads_regular, rfl, by decide, ⟨2, 0, false, true, false⟩, by rfl, rfl, rfl⟩

theorem nameServes : readsConf.has 1 (.rand nameFile) ∧ Serves readsConf.w.k (lit "/db/t") 2 [1, 2, 3] (.rand nameFile) :=
  ⟨by rfl, reads_regular, rfl, rfl, by rfl, by decide⟩

theorem mapServes : readsConf.has 2 (.mmap mappedFile) ∧ Serves readsConf.w.k (lit "/db/t") 2 [1, 2, 3] (.mmap mappedFile) :=
  ⟨by rfl, reads_regular, rfl, by rfl, rfl⟩

theorem readsSetting : Setting concStart.w 1 1 3 :=
  ⟨rfl, fun x hx => by
    rw [List.eq_of_mem_replicate hx]
    exact fun k => ⟨fun _ => Iff.rfl, fun _ => Iff.rfl⟩, by decide, by decide⟩

theorem reads_run : ∃ es, Run (fun _ => []) false (Conf.init concStart.w 1 1 3) es readsConf :=
  ⟨_, play_run _ _ _ _ reads_start.choose_spec⟩

/-- All hypotheses of C94_reads hold of the first run, for a read that returned something. -/
example : ∃ es c, StillRun (fun _ => []) false (.rand permFile) (lit "/db/t") 2 readsConf es c ∧
    (POp.randRead 0 1 2, PRes.data .ok (some [2, 3])) ∈ exchanges 0 es ∧
    ∃ D' st d, RegularFile c.w.k 2 D' ∧ [1, 2, 3] <+: D' ∧ PRes.data .ok (some [2, 3]) = .data st d ∧
      GoodRead [1, 2, 3] D' 1 2 st (d.getD []) := by
  have hex : ((playStill (fun _ => []) false 9 (.rand permFile) (lit "/db/t") 2 removed readsConf).map fun x => (exchanges 0 x.1).head?) =
      some (some (POp.randRead 0 1 2, PRes.data .ok (some [2, 3]))) := by rfl
  cases hp : playStill (fun _ => []) false 9 (.rand permFile) (lit "/db/t") 2 removed readsConf with
  | none => rw [hp] at hex; exact nomatch hex
  | some x =>
    obtain ⟨es, c⟩ := x
    rw [hp] at hex
    injection hex with hex
    have hm := List.mem_of_mem_head? hex
    have hr := playStill_run _ _ _ _ hp
    obtain ⟨es0, h0⟩ := reads_run
    exact ⟨es, c, hr, hm, C94_reads readsSetting h0 permServes.1 permServes.2 reads_private hr (by decide) hm⟩

/-- And those of C94_views, of the same run. -/
example : ∃ es c, StillRun (fun _ => []) false (.mmap mappedFile) (lit "/db/t") 2 readsConf es c ∧ c.has 2 (.mmap mappedFile) ∧
    (POp.randRead 2 0 2, PRes.view .ok (.view 0 0 2)) ∈ exchanges 1 es ∧ viewBytes c.w.k (.view 0 0 2) = some [1, 2] := by
  have hex : ((playStill (fun _ => []) false 9 (.mmap mappedFile) (lit "/db/t") 2 removed readsConf).map fun x =>
      ((exchanges 1 x.1).head?, x.2.objs[2]?)) =
      some (some (POp.randRead 2 0 2, PRes.view .ok (.view 0 0 2)), some (some (.mmap mappedFile))) := by rfl
  cases hp : playStill (fun _ => []) false 9 (.mmap mappedFile) (lit "/db/t") 2 removed readsConf with
  | none => rw [hp] at hex; exact nomatch hex
  | some x =>
    obtain ⟨es, c⟩ := x
    rw [hp] at hex
    injection hex with hex
    injection hex with hm hc
    have hm := List.mem_of_mem_head? hm
    have hr := playStill_run _ _ _ _ hp
    obtain ⟨es0, h0⟩ := reads_run
    obtain ⟨st, v, h1, h2, h3⟩ := C94_views readsSetting h0 mapServes.1 mapServes.2 reads_private hr hc (by decide) hm
    cases h1
    exact ⟨es, c, hr, hc, hm, h3⟩

end Conc
end Posix
end Lsmdb
