import Verif.Proof.PosixMaps
import Verif.Props.PosixEnv

/-!
# Properties of reading POSIX files (C55, C56, C69, C70)
-/

namespace Lsmdb
namespace Posix

open MemEnv (St lit)

variable (strerror : Strerror) (full : Bool)

/-! ## C69: sequential files -/

/-- C69: NewSequentialFile that returns OK on a regular file hands out a reader at its beginning. -/
theorem C69_open (e e' : PEnv) (name : Bytes) (w w' : World) (h : Option Nat)
    (ho : e.NewSequentialFile strerror name w = .done (.ok, h, e') w') :
    ∃ c i f ino, w.choices = c :: w'.choices ∧ h = some i ∧ e'.has i (.seq f) ∧ f.filename = name ∧
      (c.other w.k).lookup (cstr name) = some ino ∧
      ∀ D, RegularFile (c.other w.k) ino D → ReadableAt w'.k f.fd ino D 0 := by
  unfold PEnv.NewSequentialFile at ho
  rw [bind_eq] at ho
  unfold sysOpen sys at ho
  cases hc : w.choices with
  | nil => rw [hc] at ho; exact nomatch ho
  | cons c cs =>
    rw [hc] at ho
    simp only [] at ho
    cases hf : c.fail with
    | some err =>
      simp only [hf] at ho
      injection ho with h1 h2
      injection h1 with h1
      exact absurd h1 (PosixError_ne_ok _ _ _)
    | none =>
      simp only [hf] at ho
      generalize hk : kopen .rdonly (cstr name) (c.other w.k) = r at ho
      obtain ⟨r, k1⟩ := r
      cases r with
      | error err =>
        simp only [] at ho
        injection ho with h1 h2
        injection h1 with h1
        exact absurd h1 (PosixError_ne_ok _ _ _)
      | ok fd =>
        simp only [PEnv.alloc, pure_eq] at ho
        injection ho with h1 h2
        simp only [Prod.mk.injEq, true_and] at h1
        obtain ⟨h1, h3⟩ := h1
        subst h1 h3 h2
        unfold kopen at hk
        by_cases h0 : cstr name = []
        · rw [if_pos h0] at hk; injection hk with hk _; exact nomatch hk
        · rw [if_neg h0] at hk
          simp only [] at hk
          cases hl : (c.other w.k).lookup (cstr name) with
          | none =>
            rw [hl] at hk
            simp only [Mode.creat, Bool.false_eq_true, if_false] at hk
            injection hk with hk _; exact nomatch hk
          | some ino =>
            refine ⟨c, _, ⟨fd, name⟩, ino, rfl, rfl, by simp [PEnv.has], rfl, hl, ?_⟩
            intro D hD
            obtain ⟨n, d1, d2, d3⟩ := hD
            rw [hl] at hk
            simp only [d1, d2, Bool.false_eq_true, false_and, if_false, reduceCtorEq] at hk
            injection hk with hk1 hk2
            injection hk1 with hk1
            subst hk1 hk2
            refine ⟨Mode.rdonly.ofd ino, n, ?_, rfl, rfl, rfl, d1, d2, d3⟩
            unfold Kernel.ofd
            simp only []
            rw [if_neg (by omega)]
            simp [putFd_get_same]

/-- C69: any history of reads and skips, whatever system calls fail or are interrupted or deliver only part
of what was asked for, and while others may append to the file, is a walk over its contents (see `Walk`). -/
theorem C69_history (f : SeqFile) (ino : Nat) (D : Bytes) (p : Nat) (ops : List SOp) (hn : ∀ n, SOp.skip n ∈ ops → n < 2 ^ 63)
    (w w' : World) (rs : List (St × Option Bytes)) (hg : ∀ c ∈ w.choices, Grows ino f.fd c)
    (hr : ReadableAt w.k f.fd ino D p) (h : f.run strerror ops w = .done rs w') :
    ∃ D' q, D <+: D' ∧ ((∀ c ∈ w.choices, Alone ino f.fd c) → D' = D) ∧ Walk D D' p ops rs q ∧
      ReadableAt w'.k f.fd ino D' q :=
  ((seq_run strerror f ino ops w D p hn hg hr).done h).2

/-- C69: no such history has undefined behaviour. -/
theorem C69_safe (f : SeqFile) (ino : Nat) (D : Bytes) (p : Nat) (ops : List SOp) (hn : ∀ n, SOp.skip n ∈ ops → n < 2 ^ 63)
    (w : World) (hg : ∀ c ∈ w.choices, Grows ino f.fd c) (hr : ReadableAt w.k f.fd ino D p) (e : Fault) :
    f.run strerror ops w ≠ .fault e :=
  (seq_run strerror f ino ops w D p hn hg hr).fault

/-- C69: so reads alone deliver the contents in order, without gap or repetition, across failed reads, and
an empty result of a read for at least one byte means that everything was delivered. -/
theorem C69_stream (f : SeqFile) (ino : Nat) (D : Bytes) (p : Nat) (ns : List Nat)
    (w w' : World) (rs : List (St × Option Bytes)) (hg : ∀ c ∈ w.choices, Alone ino f.fd c)
    (hr : ReadableAt w.k f.fd ino D p) (h : f.run strerror (ns.map .read) w = .done rs w') :
    received rs <+: D.drop p ∧ ReadableAt w'.k f.fd ino D (p + (received rs).length) ∧
    ∀ n w'' , 0 < n → f.Read strerror n n w' = .done (.ok, some []) w'' → received rs = D.drop p := by
  have hns : ∀ n, SOp.skip n ∉ ns.map .read := by
    intro n hn; rw [List.mem_map] at hn; obtain ⟨m, _, hm⟩ := hn; exact nomatch hm
  obtain ⟨hsuf, D', q, h1, h2, h3, h4⟩ := (seq_run strerror f ino (ns.map .read) w D p
    (fun n hn => absurd hn (hns n)) (fun c hc => (hg c hc).grows) hr).done h
  have := h2 hg
  subst this
  obtain ⟨g1, g2⟩ := h3.received hns
  rw [← g2]
  refine ⟨g1, h4, ?_⟩
  intro n w'' hn hlast
  have hg' : ∀ c ∈ w'.choices, Alone ino f.fd c := fun c hc => hg c (hsuf.subset hc)
  obtain ⟨_, D2, k1, k2, k3⟩ := (seqRead_at strerror f ino n n (Nat.le_refl _) w' D' q
    (fun c hc => (hg' c hc).grows) h4).done hlast
  have := k2 hg'
  subst this
  rcases k3 with ⟨d, e1, _, _, e4, _⟩ | ⟨e1, _⟩
  · injection e1 with _ e1
    injection e1 with e1
    subst e1
    have := e4.1 rfl
    have hq : D2.length ≤ q := by omega
    obtain ⟨t, ht⟩ := g1
    have hlen : (received rs).length + t.length = D2.length - p := by
      rw [← List.length_append, ht, List.length_drop]
    have : t = [] := List.length_eq_zero_iff.1 (by omega)
    rw [← ht, this, List.append_nil]
  · exact absurd rfl e1

/-- A kernel in which descriptor 1 reads file 2, of five bytes, from the start. -/
def readKernel : Kernel :=
  ⟨[(lit "/db", 1), (lit "/db/t", 2)], [], [⟨true, [], []⟩, ⟨true, [], []⟩, ⟨false, [1, 2, 3, 4, 5], []⟩],
    [none, some ⟨2, 0, false, true, false⟩], []⟩

/-- Results of a history. -/
def results {α : Type} : Out α → Option α
  | .done a _ => some a
  | _ => none

/-- Two bytes at a time, once interrupted, one failing read, and a file that grows at the end. -/
example : results (SeqFile.run (fun _ => []) ⟨1, lit "/db/t"⟩ [.read 3, .read 9, .read 9, .skip 1, .read 9, .read 9]
      ⟨readKernel, [{ count := 2 }, { fail := some EINTR }, { count := 1 }, { fail := some EIO }, calm, { count := 7 }, calm], []⟩) =
    some [(.ok, some [1, 2]), (.ok, some [3]), (.err .ioError (lit "/db/t") [], none), (.ok, none), (.ok, some [5]),
      (.ok, some [])] := by
  decide +kernel

example : ReadableAt readKernel 1 2 [1, 2, 3, 4, 5] 0 := ⟨_, _, rfl, rfl, rfl, rfl, rfl, rfl, rfl⟩
example : Alone 2 1 calm := fun _ => ⟨fun _ h => h, rfl⟩

/-- Others may create files. -/
example : Alone 2 1 { other := fun k => { k with inodes := k.inodes ++ [⟨false, [7], []⟩] } } := fun _ => ⟨fun _ h => push_get h, rfl⟩

/-! ## C56: Skip -/

/-- C56: within the file, Skip moves by exactly `n` (or fails and does not move). -/
theorem C56_skip_partial (f : SeqFile) (ino n : Nat) (D : Bytes) (p : Nat) (hp : p + n ≤ D.length)
    (hD : D.length < 2 ^ 63) (w w' : World) (st : St)
    (hg : ∀ c ∈ w.choices, Alone ino f.fd c) (hr : ReadableAt w.k f.fd ino D p) (h : f.Skip strerror n w = .done st w') :
    (st = .ok ∧ ReadableAt w'.k f.fd ino D (p + n)) ∨ (st ≠ .ok ∧ ReadableAt w'.k f.fd ino D p) := by
  obtain ⟨_, D', h1, h2, h3⟩ := (seqSkip_at strerror f ino n w D p (fun c hc => (hg c hc).grows) hr).done h
  have := h2 hg
  subst this
  rcases h3 with ⟨q, e1, e2, e3⟩ | h3
  · rw [toOff_small (by omega)] at e2
    have : q = p + n := by omega
    subst this
    exact .inl ⟨e1, e3⟩
  · exact .inr h3

/-- What Skip does when no system call fails, for every `n`. -/
theorem Skip_exact (f : SeqFile) (ino n : Nat) (D : Bytes) (p : Nat) (w : World) (c : Choice) (cs : List Choice)
    (hc : w.choices = c :: cs) (hf : c.fail = none) (hg : Alone ino f.fd c) (hr : ReadableAt w.k f.fd ino D p)
    (q : Nat) (hq : (q : Int) = p + toOff n) (hq' : q < 2 ^ 63) :
    ∃ w', f.Skip strerror n w = .done .ok w' ∧ w'.choices = cs ∧ ReadableAt w'.k f.fd ino D q := by
  obtain ⟨o, i, h1, h2, h3, h4, h5, h6, h7⟩ := hr.alone hg
  unfold SeqFile.Skip
  rw [bind_eq]
  unfold sysLseekCur sys
  rw [hc]
  simp only [hf, h1, h4]
  rw [if_neg (by omega), if_neg (by omega)]
  refine ⟨_, rfl, rfl, _, i, ofd_set_same h1, h2, h3, ?_, h5, h6, h7⟩
  simp only []
  omega

/-- C56 is false: Skip beyond the end returns OK and leaves the position beyond the end. -/
theorem C56_skips_past_the_end (f : SeqFile) (ino n : Nat) (D : Bytes) (p : Nat) (hp : D.length < p + n) (hn : p + n < 2 ^ 63)
    (w : World) (c : Choice) (cs : List Choice) (hc : w.choices = c :: cs) (hf : c.fail = none) (hg : Alone ino f.fd c)
    (hr : ReadableAt w.k f.fd ino D p) :
    ∃ w' q, f.Skip strerror n w = .done .ok w' ∧ ReadableAt w'.k f.fd ino D q ∧ D.length < q := by
  obtain ⟨w', h1, _, h2⟩ := Skip_exact strerror f ino n D p w c cs hc hf hg hr (p + n) (by rw [toOff_small (by omega)]; omega) hn
  exact ⟨w', p + n, h1, h2, hp⟩

/-- C56 is false: Skip of 2^63 or more bytes moves backwards. -/
theorem C56_huge_skip_moves_back (f : SeqFile) (ino n : Nat) (D : Bytes) (p : Nat) (hn : 2 ^ 63 ≤ n) (hn' : n < 2 ^ 64)
    (hp : 2 ^ 64 - n ≤ p) (hp' : p < 2 ^ 63)
    (w : World) (c : Choice) (cs : List Choice) (hc : w.choices = c :: cs) (hf : c.fail = none) (hg : Alone ino f.fd c)
    (hr : ReadableAt w.k f.fd ino D p) :
    ∃ w', f.Skip strerror n w = .done .ok w' ∧ ReadableAt w'.k f.fd ino D (p - (2 ^ 64 - n)) := by
  obtain ⟨w', h1, _, h2⟩ := Skip_exact strerror f ino n D p w c cs hc hf hg hr (p - (2 ^ 64 - n))
    (by rw [toOff_big hn hn']; omega) (by omega)
  exact ⟨w', h1, h2⟩

/-- The effects a client sees: after Skip(6) of a file of 5 bytes and an append by the writer of the file, the
reader misses the byte 6; Skip(2^64 - 1) makes it read a byte twice. -/
example : results (SeqFile.run (fun _ => []) ⟨1, lit "/db/t"⟩ [.skip 6, .read 9, .read 9]
      ⟨readKernel, [calm, calm, { other := fun k => { k with inodes := k.inodes.set 2 ⟨false, [1, 2, 3, 4, 5, 6, 7], []⟩ } }], []⟩) =
    some [(.ok, none), (.ok, some []), (.ok, some [7])] := by decide +kernel
example : results (SeqFile.run (fun _ => []) ⟨1, lit "/db/t"⟩ [.read 2, .skip (2 ^ 64 - 1), .read 2]
      ⟨readKernel, [{ count := 9 }, calm, { count := 9 }], []⟩) =
    some [(.ok, some [1, 2]), (.ok, none), (.ok, some [2, 3])] := by decide +kernel

/-! ## C55: memory-mapped reads -/

/-- C55: after any history of calls on a new Env a read of a memory-mapped file with `offset + n < 2^64` gives
an error and no data, or a slice inside the mapping that the object owns. -/
theorem C55_read_partial (L1 L2 : Int) (w w' w'' : World) (hk : ∀ c ∈ w.choices, KeepsMaps c) (ops : List POp) (e e' : PEnv)
    (rs : List PRes) (hr : (PEnv.init L1 L2).run strerror full ops w = .done (e, rs) w')
    (h offset n : Nat) (f : MmapFile) (hh : e.has h (.mmap f)) (hn : offset + n < 2 ^ 64) (r : PRes)
    (hs : e.step strerror full (.randRead h offset n) w' = .done (e', r) w'') :
    (∃ st, r = .view st .empty ∧ st ≠ .ok) ∨
    (r = .view .ok (.view f.mmap_base offset n) ∧ InMapping w''.k (.view f.mmap_base offset n)) := by
  have h0 : MapsOk (PEnv.init L1 L2) w := by
    refine ⟨fun i f hf => ?_, fun i j f g hf => ?_⟩ <;> simp [PEnv.init, PEnv.has] at hf
  obtain ⟨hm, _⟩ := run_mapsOk strerror full ops _ w h0 hk e rs w' hr
  simp only [PEnv.step, bind_eq, get_has hh, pureM, pure_eq] at hs
  injection hs with h1 h2
  injection h1 with _ h1
  subst h1 h2
  unfold MmapFile.Read
  rw [Nat.mod_eq_of_lt hn]
  by_cases hle : offset + n > f.length
  · rw [if_pos hle]; exact .inl ⟨_, rfl, PosixError_ne_ok strerror f.filename EINVAL⟩
  · rw [if_neg hle]
    obtain ⟨ino, hi⟩ := hm.len h f hh
    exact .inr ⟨rfl, ino, f.length, hi, by omega⟩

/-- C55 is false: the bound check overflows.  Reading one byte at offset 2^64 - 1 of any memory-mapped file
returns OK with a slice outside of the mapping. -/
theorem C55_wraps (f : MmapFile) (k : Kernel) (hm : ∃ ino, k.maps[f.mmap_base]? = some (some (ino, f.length)))
    (hlen : f.length < 2 ^ 64) :
    (f.Read strerror (2 ^ 64 - 1) 1).1 = .ok ∧ ¬ InMapping k (f.Read strerror (2 ^ 64 - 1) 1).2 := by
  have hr : f.Read strerror (2 ^ 64 - 1) 1 = (.ok, .view f.mmap_base (2 ^ 64 - 1) 1) := by
    unfold MmapFile.Read
    rw [if_neg]
    have : (2 ^ 64 - 1 + 1) % 2 ^ 64 = 0 := by decide
    omega
  rw [hr]
  refine ⟨rfl, ?_⟩
  rintro ⟨ino, len, h1, h2⟩
  obtain ⟨ino', hm⟩ := hm
  rw [hm] at h1
  injection h1 with h1
  injection h1 with h1
  injection h1 with _ h1
  omega

/-- C55: with the name and the file unchanged since before it was opened, the slice shows the bytes of the
file. -/
theorem C55_bytes_partial (k : Kernel) (name : Bytes) (ino : Nat) (D : Bytes) (f : MmapFile) (offset n : Nat)
    (hn : offset + n < 2 ^ 64) (h : Serves k name ino D (.mmap f)) (hok : (f.Read strerror offset n).1 = .ok) :
    viewBytes k (f.Read strerror offset n).2 = some ((D.drop offset).take n) ∧ offset + n ≤ D.length := by
  rcases MmapRead_serves strerror offset n hn h with ⟨h1, _, h2⟩ | ⟨_, h1⟩
  · exact ⟨h2, h1⟩
  · rw [h1] at hok; exact absurd hok (PosixError_ne_ok strerror name EINVAL)

/-- The other process: renames the file `/db/u` of 9000 bytes to `/db/t`. -/
def replaceFile (k : Kernel) : Kernel := (k.setName (lit "/db/t") (some 3)).setName (lit "/db/u") none

/-- A kernel with the files `/db/t` of one byte and `/db/u` of 9000 bytes. -/
def raceKernel : Kernel :=
  ⟨[(lit "/db", 1), (lit "/db/t", 2), (lit "/db/u", 3)], [], [⟨true, [], []⟩, ⟨true, [], []⟩, ⟨false, [1], []⟩,
    ⟨false, List.replicate 9000 7, []⟩], [], []⟩

/-- C55 is false: the size comes from a second look at the name.  If another process renames a larger file to
that name between `open` and `stat`, the mapping of the small file has the length of the large one, and a
read that returns OK gives bytes beyond the end of the file (a SIGBUS). -/
theorem C55_size_race : ∃ (w w' : World) (e : PEnv) (v : MmapSlice),
    (PEnv.init 1 1).run (fun _ => []) false [.newRandomAccess (lit "/db/t"), .randRead 0 8192 1] w =
      .done (e, [.opened .ok (some 0), .view .ok v]) w' ∧ InMapping w'.k v ∧ viewBytes w'.k v = none := by
  let w : World := ⟨raceKernel, [calm, { other := replaceFile }, calm, calm], []⟩
  have hex : ∀ o : Out (PEnv × List PRes), (match o with
      | .done (_, rs) w' => some (rs, w'.k.maps, (w'.k.data 2).length)
      | _ => none) = some ([.opened .ok (some 0), .view .ok (.view 0 8192 1)], [some (2, 9000)], 1) →
      ∃ w' e v, o = .done (e, [.opened .ok (some 0), .view .ok v]) w' ∧ InMapping w'.k v ∧
        viewBytes w'.k v = none := by
    intro o ho
    cases o with
    | crash w => exact nomatch ho
    | fault f => exact nomatch ho
    | done r w' =>
      simp only [Option.some.injEq, Prod.mk.injEq] at ho
      obtain ⟨h1, h2, h3⟩ := ho
      refine ⟨w', r.1, .view 0 8192 1, by rw [← h1], ⟨2, 9000, by rw [h2]; rfl, by omega⟩, ?_⟩
      simp [viewBytes, h2, h3]
  obtain ⟨w', e, v, h⟩ := hex ((PEnv.init 1 1).run (fun _ => []) false [.newRandomAccess (lit "/db/t"), .randRead 0 8192 1] w)
    (by decide +kernel)
  exact ⟨w, w', e, v, h⟩

/-! ## C70: random-access files -/

/-- C70: NewRandomAccessFile that returns OK hands out a reader of the file the name means, if nobody changes
its meaning or the file meanwhile; otherwise it stores null.  It has no undefined behaviour. -/
theorem C70_open_partial (e : PEnv) (name : Bytes) (ino : Nat) (D : Bytes) (w : World)
    (hs : ∀ c ∈ w.choices, Steady name ino c) (hl : w.k.lookup (cstr name) = some ino) (hr : RegularFile w.k ino D) :
    (∀ f, e.NewRandomAccessFile strerror name w ≠ .fault f) ∧
    ∀ st h e' w', e.NewRandomAccessFile strerror name w = .done (st, h, e') w' →
      (st = .ok ∧ ∃ i o, h = some i ∧ e'.has i o ∧ Serves w'.k name ino D o) ∨ (st ≠ .ok ∧ h = none) := by
  have hsat := NewRandom_serves strerror e hs hl hr
  refine ⟨fun f => hsat.fault, ?_⟩
  intro st h e' w' hd
  rcases (hsat.done hd).post with ⟨i, o, h1, h2, h3, h4⟩ | h1
  · exact .inl ⟨h1, i, o, h2, h3, h4⟩
  · exact .inr h1

/-- C70: then every Read that returns OK gives the bytes of the file at the offset, as many as asked for or
fewer, but at least one if one was asked for and the offset is inside the file; a Read that fails gives no
data.  The object keeps reading the same file. -/
theorem C70_read_partial (e e' : PEnv) (name : Bytes) (ino : Nat) (D : Bytes) (w w' : World) (h offset n : Nat) (o : Obj)
    (r : PRes) (hs : ∀ c ∈ w.choices, Steady name ino c) (hh : e.has h o) (hv : Serves w.k name ino D o)
    (hoff : offset < 2 ^ 63) (hn : offset + n < 2 ^ 64)
    (hr : e.step strerror full (.randRead h offset n) w = .done (e', r) w') :
    e' = e ∧ Serves w'.k name ino D o ∧ ∃ st d, r.status? = some st ∧ readBytes w'.k r = some d ∧
      (st = .ok → d <+: D.drop offset ∧ d.length ≤ n ∧ (d = [] ↔ n = 0 ∨ D.length ≤ offset)) ∧
      (st ≠ .ok → d = []) := by
  simp only [PEnv.step, bind_eq, get_has hh, pureM] at hr
  cases o with
  | rand f =>
    simp only [bind_eq] at hr
    have hsat := RandRead_serves strerror offset n n (Nat.le_refl _) hoff hs hv
    cases hx : f.Read strerror offset n n w with
    | crash w1 => rw [hx] at hr; exact nomatch hr
    | fault g => rw [hx] at hr; exact nomatch hr
    | done x w1 =>
      rw [hx] at hr
      simp only [pure_eq] at hr
      injection hr with h1 h2
      injection h1 with h0 h1
      subst h0 h1 h2
      obtain ⟨_, g1, g2⟩ := hsat.done hx
      refine ⟨rfl, g1, x.1, x.2.getD [], rfl, rfl, ?_, ?_⟩
      · intro hok
        rcases g2 with ⟨d, rfl, g3, g4, g5⟩ | ⟨g3, _⟩
        · exact ⟨g3, g4, g5⟩
        · exact absurd hok g3
      · intro hne
        rcases g2 with ⟨d, rfl, _⟩ | ⟨_, g3⟩
        · exact absurd rfl hne
        · exact g3
  | mmap f =>
    simp only [pure_eq] at hr
    injection hr with h1 h2
    injection h1 with h0 h1
    subst h0 h1 h2
    refine ⟨rfl, hv, ?_⟩
    rcases MmapRead_serves strerror offset n hn hv with ⟨g1, g2, g3⟩ | ⟨g1, g2⟩
    · refine ⟨_, _, rfl, g3, fun _ => ⟨List.take_prefix _ _, by simp; omega, ?_⟩, fun hne => absurd g2 hne⟩
      rw [← List.length_eq_zero_iff]
      simp only [List.length_take, List.length_drop]
      omega
    · refine ⟨_, [], rfl, by rw [g2]; rfl, fun hok => ?_, fun _ => rfl⟩
      rw [g2] at hok
      exact absurd hok (PosixError_ne_ok strerror name EINVAL)
  | seq f => exact hv.elim
  | wr f => exact hv.elim
  | lock fd n => exact hv.elim
  | logger fd => exact hv.elim

/-- C70, false in general: a memory-mapped file does not return fewer bytes at the end of the file, but the
error EINVAL. -/
theorem C70_mmap_no_short_read (k : Kernel) (name : Bytes) (ino : Nat) (D : Bytes) (f : MmapFile) (offset n : Nat)
    (h : Serves k name ino D (.mmap f)) (hn : offset + n < 2 ^ 64) (hend : D.length < offset + n) :
    f.Read strerror offset n = (PosixError strerror name EINVAL, .empty) := by
  rcases MmapRead_serves strerror offset n hn h with ⟨h1, _⟩ | ⟨_, h1⟩
  · omega
  · exact h1

/-- C70, false in general: an empty file cannot be opened for random access while a mapping slot is free. -/
theorem C70_empty_file_fails (e : PEnv) (name : Bytes) (ino : Nat) (w : World) (hs : ∀ c ∈ w.choices, Steady name ino c)
    (hl : w.k.lookup (cstr name) = some ino) (hr : RegularFile w.k ino []) (hlim : 0 < e.mmap_limiter)
    (st : St) (h : Option Nat) (e' : PEnv) (w' : World)
    (hd : e.NewRandomAccessFile strerror name w = .done (st, h, e') w') : st ≠ .ok := by
  have key : (e.NewRandomAccessFile strerror name w).Sat (fun r _ => r.1 ≠ .ok) (fun _ => True) := by
    unfold PEnv.NewRandomAccessFile
    apply Out.Sat.bind
    refine true_mono (sysOpen_kept hs hl hr) ?_
    rintro r w1 ⟨g1, g2, g3⟩
    rcases g3 with ⟨err, rfl, _⟩ | ⟨fd, rfl, hne, g4, g5, _⟩
    · exact Out.Sat.pure (PosixError_ne_ok _ _ _)
    · simp only []
      have hs1 : ∀ c ∈ w1.choices, Steady name ino c := fun c hc => hs c (g1.subset hc)
      have hacq : (Limiter.Acquire e.mmap_limiter).1 = true := by
        unfold Limiter.Acquire; simp only [gt_iff_lt, hlim, if_true]
      rw [hacq]
      simp only [if_true]
      apply Out.Sat.bind
      unfold GetFileSize
      apply Out.Sat.bind
      refine true_mono (sysStat_kept hs1 (g2.name.trans hl) (hr.kept g2)) ?_
      rintro r w2 ⟨k1, k2, k3, k4⟩
      have hs2 : ∀ c ∈ w2.choices, Steady name ino c := fun c hc => hs1 c (k1.subset hc)
      rcases k4 with ⟨err, rfl⟩ | rfl
      · simp only []
        apply Out.Sat.pure
        simp only [PosixError_ne_ok, if_false]
        apply Out.Sat.bind
        apply Out.Sat.pure
        apply Out.Sat.bind
        refine true_mono (sysClose_kept hs2 fd) ?_
        rintro _ w3 _
        simp only [ne_eq, PosixError_ne_ok, not_false_eq_true, if_true]
        exact Out.Sat.pure (PosixError_ne_ok _ _ _)
      · simp only []
        apply Out.Sat.pure
        simp only [if_true]
        apply Out.Sat.bind
        have ho2 : w2.k.ofd fd = some (Mode.rdonly.ofd ino) := by
          unfold Kernel.ofd at g4 ⊢; rw [k3]; exact g4
        refine true_mono (sysMmap_kept hs2 ho2 rfl _) ?_
        rintro r w3 ⟨n1, n2, n3, n4, n5⟩
        have hs3 : ∀ c ∈ w3.choices, Steady name ino c := fun c hc => hs2 c (n1.subset hc)
        rcases n5 with ⟨err, rfl, _⟩ | ⟨n5, _⟩
        · simp only []
          apply Out.Sat.bind
          apply Out.Sat.pure
          apply Out.Sat.bind
          refine true_mono (sysClose_kept hs3 fd) ?_
          rintro _ w4 _
          simp only [ne_eq, PosixError_ne_ok, not_false_eq_true, if_true]
          exact Out.Sat.pure (PosixError_ne_ok _ _ _)
        · exact absurd rfl n5
  exact key.done hd

/-- A kernel with the files `/db/t` and `/db/u`. -/
def twoFiles : Kernel :=
  ⟨[(lit "/db", 1), (lit "/db/t", 2), (lit "/db/u", 3)], [], [⟨true, [], []⟩, ⟨true, [], []⟩, ⟨false, [1, 2, 3], []⟩,
    ⟨false, [7, 8, 9], []⟩], [], []⟩

/-- C70, false in general: which file a reader reads after a rename depends on how many files are open: the
memory-mapped one and the one with its own descriptor keep reading the file that was opened, the third reads
the file that now has the name, and NotFound once the name is gone. -/
theorem C70_readers_disagree_after_rename :
    results ((fun w => match (PEnv.init 1 1).run (fun _ => []) false
      [.newRandomAccess (lit "/db/t"), .newRandomAccess (lit "/db/t"), .newRandomAccess (lit "/db/t"),
       .renameFile (lit "/db/u") (lit "/db/t"), .randRead 0 1 2, .randRead 1 1 2, .randRead 2 1 2,
       .removeFile (lit "/db/t"), .randRead 1 1 2, .randRead 2 1 2] w with
      | .done (_, rs) w' => .done (rs, rs.map (readBytes w'.k)) w'
      | .crash w' => .crash w'
      | .fault f => .fault f) ⟨twoFiles, List.replicate 20 { count := 9 }, []⟩) =
    some ([.opened .ok (some 0), .opened .ok (some 1), .opened .ok (some 2), .status .ok,
        .view .ok (.view 0 1 2), .data .ok (some [2, 3]), .data .ok (some [8, 9]), .status .ok, .data .ok (some [2, 3]),
        .data (.err .notFound (lit "/db/t") []) none],
      [none, none, none, none, some [2, 3], some [2, 3], some [8, 9], none, some [2, 3], some []]) := by
  decide +kernel

example : Steady (lit "/db/t") 2 calm ∧ twoFiles.lookup (cstr (lit "/db/t")) = some 2 ∧ RegularFile twoFiles 2 [1, 2, 3] :=
  ⟨fun _ => ⟨rfl, fun _ h => h, rfl, rfl⟩, by decide +kernel, _, rfl, rfl, rfl⟩

end Posix
end Lsmdb
