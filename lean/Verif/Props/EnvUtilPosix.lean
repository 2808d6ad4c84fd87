import Verif.Proof.EnvUtilPosix2
import Verif.Proof.EnvUtilBlame

/-!
# C46 on the POSIX Env: WriteStringToFile and ReadFileToString

`fuel` bounds the iterations of the loop of ReadFileToString; the theorems hold for every bound greater than the length
of the file, so the loop ends by itself.
-/

namespace Lsmdb
namespace Iface

open MemEnv (St lit)
open Posix

section
variable (strerror : Strerror) (full : Bool) (pr : Process)

/-- C46: WriteStringToFile (and ...Sync) that returns OK has left a file with exactly the data; after ...Sync a crash cannot change it. -/
theorem C46_posix_write (e e' : PEnv) (data : Slice) (hd : data.WF) (name : Bytes) (sync : Bool) (w w' : World)
    (hq : ∀ c ∈ w.choices, Undisturbed name c)
    (h : (DoWriteStringToFile (PosixEnv strerror pr) (posixFiles strerror full) data name sync).run e w = .done (.ok, e') w') :
    Holds w'.k name data.bytes ∧ (sync = true → Durable w'.k name data.bytes) := by
  have := posix_write_sat strerror full pr e data hd name sync w hq
  rw [h] at this
  exact this.2.1 rfl

/-- C46: WriteStringToFile has no undefined behaviour, and ends. -/
theorem C46_posix_write_safe (e : PEnv) (data : Slice) (hd : data.WF) (name : Bytes) (sync : Bool) (w : World)
    (hq : ∀ c ∈ w.choices, Undisturbed name c) (er : Fault) :
    (DoWriteStringToFile (PosixEnv strerror pr) (posixFiles strerror full) data name sync).run e w ≠ .fault er := by
  intro h
  have := posix_write_sat strerror full pr e data hd name sync w hq
  rw [h] at this
  exact this

/-- C46: WriteStringToFile fails only if a system call failed; a `write` that was interrupted does not count. -/
theorem C46_posix_write_blame (e e' : PEnv) (data : Slice) (name : Bytes) (sync : Bool) (w w' : World) (st : St) (hst : st ≠ .ok)
    (h : (DoWriteStringToFile (PosixEnv strerror pr) (posixFiles strerror full) data name sync).run e w = .done (st, e') w') :
    ∃ made, w'.calls = w.calls ++ made ∧ ∃ c ∈ made, c.Failed := by
  obtain ⟨l, h1, h2⟩ := posix_write_unless strerror full pr e data name sync w _ _ h
  exact ⟨l, h1, h2.resolve_left hst⟩

/-- C46: when WriteStringToFile fails, then it could not open the file and has done nothing, or it has removed the file, or
unlink, its last system call, failed too. -/
theorem C46_posix_failed_write (e e' : PEnv) (data : Slice) (hd : data.WF) (name : Bytes) (sync : Bool) (w w' : World)
    (hq : ∀ c ∈ w.choices, Undisturbed name c) (st : St) (hst : st ≠ .ok)
    (h : (DoWriteStringToFile (PosixEnv strerror pr) (posixFiles strerror full) data name sync).run e w = .done (st, e') w') :
    (∃ c, w.choices = c :: w'.choices ∧ w'.k = c.other w.k) ∨
      ∃ used c, w.choices = used ++ c :: w'.choices ∧ (w'.k.lookup (cstr name) = none ∨ c.fail ≠ none) := by
  have := posix_write_sat strerror full pr e data hd name sync w hq
  rw [h] at this
  exact this.2.2 hst

/-- C46: ReadFileToString of a regular file: what it delivers is a prefix of the contents, and all of it if it returns OK; the file
is not changed.  If it does not return OK, then opening the file failed, or a system call failed for another reason than an interruption. -/
theorem C46_posix_read (e e' : PEnv) (name D d : Bytes) (fuel : Nat) (hf : D.length < fuel) (w w' : World) (st : St)
    (hh : Holds w.k name D) (hq : ∀ c ∈ w.choices, Undisturbed name c)
    (h : (ReadFileToString (PosixEnv strerror pr) (posixFiles strerror full) fuel name).run e w = .done ((st, d), e') w') :
    d <+: D ∧ (st = .ok → d = D) ∧ Holds w'.k name D ∧
      (st ≠ .ok → (∃ c ∈ w.choices.head?, c.fail ≠ none) ∨ ∃ c ∈ w.choices, ∃ er, c.fail = some er ∧ er ≠ EINTR) := by
  have := posix_read_sat strerror full pr e name D fuel hf w hh hq
  rw [h] at this
  exact ⟨this.2.2.1, this.2.2.2.1, this.2.1, this.2.2.2.2⟩

/-- C46: ReadFileToString of a regular file has no undefined behaviour, and ends. -/
theorem C46_posix_read_safe (e : PEnv) (name D : Bytes) (fuel : Nat) (hf : D.length < fuel) (w : World)
    (hh : Holds w.k name D) (hq : ∀ c ∈ w.choices, Undisturbed name c) (er : Fault) :
    (ReadFileToString (PosixEnv strerror pr) (posixFiles strerror full) fuel name).run e w ≠ .fault er := by
  intro h
  have := posix_read_sat strerror full pr e name D fuel hf w hh hq
  rw [h] at this
  exact this

/-- Write, then read back. -/
def writeAndRead (data : Slice) (name : Bytes) (sync : Bool) (fuel : Nat) : StateT PEnv P (St × St × Bytes) := do
  let s0 ← DoWriteStringToFile (PosixEnv strerror pr) (posixFiles strerror full) data name sync
  let (s1, d) ← ReadFileToString (PosixEnv strerror pr) (posixFiles strerror full) fuel name
  return (s0, s1, d)

/-- C46: after WriteStringToFile returned OK, ReadFileToString that returns OK returns exactly the data; and it does return OK if no
system call fails.  (`C46_posix_read` says which failures it survives: all interruptions except that of `open`.) -/
theorem C46_posix_roundtrip (e e' : PEnv) (data : Slice) (hd : data.WF) (name d : Bytes) (sync : Bool) (fuel : Nat)
    (hf : data.bytes.length < fuel) (w w' : World) (s1 : St) (hq : ∀ c ∈ w.choices, Undisturbed name c)
    (h : (writeAndRead strerror full pr data name sync fuel).run e w = .done ((.ok, s1, d), e') w') :
    (s1 = .ok → d = data.bytes) ∧ ((∀ c ∈ w.choices, c.fail = none) → s1 = .ok) := by
  change ((do
    let r ← (DoWriteStringToFile (PosixEnv strerror pr) (posixFiles strerror full) data name sync).run e
    let r2 ← (ReadFileToString (PosixEnv strerror pr) (posixFiles strerror full) fuel name).run r.2
    return ((r.1, r2.1.1, r2.1.2), r2.2) : P _) w) = _ at h
  rw [bind_eq] at h
  have hsat := posix_write_sat strerror full pr e data hd name sync w hq
  cases h1 : (DoWriteStringToFile (PosixEnv strerror pr) (posixFiles strerror full) data name sync).run e w with
  | crash w1 => rw [h1] at h; exact nomatch h
  | fault er => rw [h1] at h; exact nomatch h
  | done r w1 =>
    rw [h1] at h hsat
    obtain ⟨st, e1⟩ := r
    dsimp only at h hsat
    rw [bind_eq] at h
    cases h2 : (ReadFileToString (PosixEnv strerror pr) (posixFiles strerror full) fuel name).run e1 w1 with
    | crash w1 => rw [h2] at h; exact nomatch h
    | fault er => rw [h2] at h; exact nomatch h
    | done r2 w2 =>
      rw [h2] at h
      dsimp only [pure_eq] at h
      injection h with h3 h4
      injection h3 with h3 h5
      injection h3 with h3 h6
      injection h6 with h6 h7
      have hq1 : ∀ c ∈ w1.choices, Undisturbed name c := fun c hc => hq c (hsat.1.subset hc)
      have hr := posix_read_sat strerror full pr e1 name data.bytes fuel hf w1 (hsat.2.1 h3).1 hq1
      rw [h2] at hr
      obtain ⟨a1, a2, a3, a4, a5⟩ := hr
      rw [h6, h7] at a4
      refine ⟨a4, fun hno => ?_⟩
      by_contra hs1
      rw [h6] at a5
      rcases a5 hs1 with ⟨c, hc, hf⟩ | ⟨c, hc, er, hf, _⟩
      · exact hf (hno c (hsat.1.subset (List.mem_of_mem_head? hc)))
      · rw [hno c (hsat.1.subset hc)] at hf; exact nomatch hf

end

/-! ### Concrete runs -/

/-- A process whose other methods are not used. -/
def demoProcess : Process := ⟨none, 0, pure (0, 0), fun _ => pure (), fun _ => pure (), fun _ => pure ()⟩

/-- What a client sees, and the file afterwards. -/
def outcome {α : Type} (name : Bytes) (o : Out (α × PEnv)) : Option (α × Option Bytes) :=
  match o with
  | .done r w => some (r.1, (w.k.lookup name).bind (Contents w.k))
  | _ => none

/-- The hypotheses hold in a concrete world: calls that are interrupted or transfer little, and others who create files. -/
example : ∀ c ∈ [({ fail := some EINTR } : Choice), { count := 1 }, { other := fun k => { k with maps := [] } },
    { other := fun k => { k with inodes := k.inodes ++ [⟨false, [7], []⟩] } }], Undisturbed (lit "/db/f") c := by
  intro c hc k
  simp only [List.mem_cons, List.not_mem_nil, or_false] at hc
  rcases hc with rfl | rfl | rfl | rfl
  · exact ⟨rfl, fun _ _ h => h, rfl⟩
  · exact ⟨rfl, fun _ _ h => h, rfl⟩
  · exact ⟨rfl, fun _ _ h => h, rfl⟩
  · exact ⟨rfl, fun _ _ h => push_get h, rfl⟩

/-- Written in three pieces with an interruption, read in four with an interruption. -/
example : outcome (lit "/db/f") ((writeAndRead (fun _ => []) false demoProcess (Slice.ofBytes (lit "hello")) (lit "/db/f") true 6).run
      (PEnv.init 0 0) ⟨demoKernel, [calm, { count := 1 }, { fail := some EINTR }, { count := 2 }, calm, calm, calm, calm,
        { fail := some EINTR }, { count := 2 }, { count := 1 }, { count := 9 }, { count := 1 }, calm], []⟩) =
    some ((.ok, .ok, lit "hello"), some (lit "hello")) := by decide +kernel

/-- The `write` fails: the error is returned, and the file is gone. -/
example : outcome (lit "/db/f") ((WriteStringToFile (PosixEnv (fun _ => []) demoProcess) (posixFiles (fun _ => []) false)
      (Slice.ofBytes (lit "hello")) (lit "/db/f")).run (PEnv.init 0 0)
      ⟨demoKernel, [calm, { count := 1 }, { fail := some 28 }, calm, calm, calm], []⟩) =
    some (.err .ioError (lit "/db/f") [], none) := by decide +kernel

/-- C46: if unlink fails too, part of the data stays behind under the name, and the caller is not told (only the first error). -/
theorem C46_posix_leftover : ∃ cs, (∀ c ∈ cs, Undisturbed (lit "/db/f") c) ∧
    outcome (lit "/db/f") ((WriteStringToFile (PosixEnv (fun _ => []) demoProcess) (posixFiles (fun _ => []) false)
      (Slice.ofBytes (lit "hello")) (lit "/db/f")).run (PEnv.init 0 0) ⟨demoKernel, cs, []⟩) =
    some (.err .ioError (lit "/db/f") [], some (lit "he")) := by
  refine ⟨[calm, { count := 2 }, { fail := some 28 }, calm, { fail := some 13 }], ?_, by decide +kernel⟩
  intro c hc k
  simp only [List.mem_cons, List.not_mem_nil, or_false] at hc
  rcases hc with rfl | rfl | rfl | rfl | rfl <;> exact ⟨rfl, fun _ _ h => h, rfl⟩

/-- C46: WriteStringToFileSync makes the contents durable, not the name: after a crash the file may not be there. -/
theorem C46_posix_sync_name_lost : ∃ cs w' e', (∀ c ∈ cs, Undisturbed (lit "/db/f") c) ∧
    (WriteStringToFileSync (PosixEnv (fun _ => []) demoProcess) (posixFiles (fun _ => []) false)
      (Slice.ofBytes (lit "hello")) (lit "/db/f")).run (PEnv.init 0 0) ⟨demoKernel, cs, []⟩ = .done (.ok, e') w' ∧
    Durable w'.k (lit "/db/f") (lit "hello") ∧ w'.k.NameAfterCrash (lit "/db/f") none := by
  have hq : ∀ c ∈ [calm, calm, calm, calm], Undisturbed (lit "/db/f") c := by
    intro c hc k
    simp only [List.mem_cons, List.not_mem_nil, or_false] at hc
    rcases hc with rfl | rfl | rfl | rfl <;> exact ⟨rfl, fun _ _ h => h, rfl⟩
  cases h : (WriteStringToFileSync (PosixEnv (fun _ => []) demoProcess) (posixFiles (fun _ => []) false)
      (Slice.ofBytes (lit "hello")) (lit "/db/f")).run (PEnv.init 0 0) ⟨demoKernel, [calm, calm, calm, calm], []⟩ with
  | done r w' =>
    obtain ⟨st, e'⟩ := r
    have hc : (match (WriteStringToFileSync (PosixEnv (fun _ => []) demoProcess) (posixFiles (fun _ => []) false)
        (Slice.ofBytes (lit "hello")) (lit "/db/f")).run (PEnv.init 0 0) ⟨demoKernel, [calm, calm, calm, calm], []⟩ with
      | .done r w' => decide (r.1 = .ok ∧ w'.k.NameAfterCrash (lit "/db/f") none)
      | _ => false) = true := by decide +kernel
    rw [h] at hc
    obtain ⟨h1, h2⟩ := of_decide_eq_true hc
    dsimp only at h1
    subst h1
    exact ⟨_, w', e', hq, h, (C46_posix_write _ _ _ _ _ _ (by simp [Slice.WF, Slice.ofBytes]) _ _ _ _ hq h).2 rfl, h2⟩
  | crash w' =>
    have hc : (match (WriteStringToFileSync (PosixEnv (fun _ => []) demoProcess) (posixFiles (fun _ => []) false)
        (Slice.ofBytes (lit "hello")) (lit "/db/f")).run (PEnv.init 0 0) ⟨demoKernel, [calm, calm, calm, calm], []⟩ with
      | .done _ _ => true
      | _ => false) = true := by decide +kernel
    rw [h] at hc; exact nomatch hc
  | fault er =>
    have hc : (match (WriteStringToFileSync (PosixEnv (fun _ => []) demoProcess) (posixFiles (fun _ => []) false)
        (Slice.ofBytes (lit "hello")) (lit "/db/f")).run (PEnv.init 0 0) ⟨demoKernel, [calm, calm, calm, calm], []⟩ with
      | .done _ _ => true
      | _ => false) = true := by decide +kernel
    rw [h] at hc; exact nomatch hc

end Iface
end Lsmdb
