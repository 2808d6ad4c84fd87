import Verif.Proof.Replace
import Verif.Props.EnvUtilPosix

/-!
# C83: replacing a file by way of a synced temporary file is atomic, also in a crash
-/

namespace Lsmdb
namespace Iface

open MemEnv (St lit)
open Posix

section
variable (strerror : Strerror) (full : Bool) (pr : Process)

/-- The client on the POSIX Env, with `WriteStringToFileSync`. -/
def posixReplace (data : Slice) (tmp target : Bytes) : StateT PEnv P St :=
  ReplaceFile (WriteStringToFileSync (PosixEnv strerror pr) (posixFiles strerror full)) (PosixEnv strerror pr).RenameFile data tmp target

theorem Guard.reads {k0 k : Kernel} {target : Bytes} (h : Guard k0 (cstr target) k) {x : Option Bytes} (hx : CrashReads k target x) :
    CrashReads k0 target x := by
  have hn : ∀ v, k.NameAfterCrash (cstr target) v → k0.NameAfterCrash (cstr target) v := by
    rintro v (h1 | h1)
    · exact .inl (h1.trans h.look)
    · exact .inr (h.pend v h1)
  cases x with
  | none => exact hn _ hx
  | some c =>
    obtain ⟨i, h1, n, h2, h3⟩ := hx
    have h1 := hn _ h1
    obtain ⟨n0, n', a1, a2, _, a4, a5⟩ := h.ino i h1
    rw [h2] at a2
    injection a2 with a2
    subst a2
    exact ⟨i, h1, n0, a1, h3.imp (fun h => h.trans a4) (a5 c)⟩

/-- What the rename does to the target. -/
theorem rename_reads {k0 : Kernel} {fd : Int} {data tmp target : Bytes} {w : World} (hne : cstr tmp ≠ cstr target)
    (hi : Inv k0 tmp target fd w) (hd : Durable w.k tmp data) (hh : Holds w.k tmp data) :
    (RenameFile strerror tmp target w).Sat
      (fun st w' => (∀ x, CrashReads w'.k target x → CrashReads k0 target x ∨ x = some data) ∧ (st = .ok → Holds w'.k target data) ∧
        (st ≠ .ok → Guard k0 (cstr target) w'.k))
      (fun w' => ∀ x, CrashReads w'.k target x → CrashReads k0 target x ∨ x = some data) := by
  refine Out.Sat.bind (Out.Sat.sys (fun _ x hx => .inl (hi.guard.reads hx)) fun c cs hcs => Out.Sat.pure ?_)
  have hc := hi.quiet c (by rw [hcs]; exact List.mem_cons_self)
  have hg := Guard.other (t := tmp) hi.guard hc
  have hl : (c.other w.k).lookup (cstr tmp) = w.k.lookup (cstr tmp) := (hc.1 w.k).1
  have hin := (hc.1 w.k).2.1
  obtain ⟨i, hd1, hd2⟩ := hd
  obtain ⟨_, i', hh1, n, hh2, hh3, hh4⟩ := hh
  rw [hd1] at hh1
  injection hh1 with hh1
  subst hh1
  have hin : (c.other w.k).inodes[i]? = some n := hin i n hh2
  have same : ∀ e : Errno, (∀ x, CrashReads (c.other w.k) target x → CrashReads k0 target x ∨ x = some data) ∧
      (statusOf strerror tmp (.error e) = .ok → Holds (c.other w.k) target data) ∧
      (statusOf strerror tmp (.error e) ≠ .ok → Guard k0 (cstr target) (c.other w.k)) :=
    fun e => ⟨fun x hx => .inl (hg.reads hx), fun h => absurd h statusOf_error, fun _ => hg⟩
  generalize c.other w.k = k at *
  cases hcf : c.fail with
  | some e => exact same e
  | none =>
    dsimp only []
    rw [hl, hd1]
    dsimp only []
    by_cases ht : cstr target = []
    · rw [if_pos ht]; exact same _
    · rw [if_neg ht, hin]
      simp only [Option.map_some, Option.getD_some, hh3, Bool.false_eq_true, ↓reduceIte]
      have done : (∀ x, CrashReads ((k.setName (cstr target) (some i)).setName (cstr tmp) none) target x →
            CrashReads k0 target x ∨ x = some data) ∧
          (statusOf strerror tmp (.ok ()) = .ok → Holds ((k.setName (cstr target) (some i)).setName (cstr tmp) none) target data) ∧
          (statusOf strerror tmp (.ok ()) ≠ .ok → Guard k0 (cstr target) ((k.setName (cstr target) (some i)).setName (cstr tmp) none)) := by
        have hlook : ((k.setName (cstr target) (some i)).setName (cstr tmp) none).lookup (cstr target) = some i := by
          rw [lookup_setName, if_neg (Ne.symm hne), lookup_setName, if_pos rfl]
        refine ⟨?_, fun _ => ⟨ht, i, hlook, n, ?_, hh3, hh4⟩, fun h => absurd rfl h⟩
        · have hname : ∀ v, ((k.setName (cstr target) (some i)).setName (cstr tmp) none).NameAfterCrash (cstr target) v →
              v = some i ∨ k.NameAfterCrash (cstr target) v := by
            rintro v (h | h)
            · exact .inl (h.trans hlook)
            · rcases List.mem_cons.1 h with h | h
              · injection h with h _; exact absurd h.symm hne
              · rcases List.mem_cons.1 h with h | h
                · injection h with _ h; exact .inr (.inl h)
                · exact .inr (.inr h)
          intro x hx
          cases x with
          | none =>
            rcases hname _ hx with h | h
            · exact nomatch h
            · exact .inl (hg.reads (x := none) h)
          | some c =>
            obtain ⟨j, h1, h2⟩ := hx
            rcases hname _ h1 with h | h
            · injection h with h
              subst h
              have h2 : CouldBe w.k j c := by
                obtain ⟨n', b1, b2⟩ := h2
                exact ⟨n', hh2.trans (hin.symm.trans b1), b2⟩
              exact .inr (congrArg some ((hd2 c).1 h2))
            · exact .inl (hg.reads (x := some c) ⟨j, h, h2⟩)
        · exact hin
      cases hlt : k.lookup (cstr target) with
      | none => exact done
      | some j =>
        dsimp only []
        by_cases hij : i = j
        · rw [if_pos hij]
          subst hij
          refine ⟨fun x hx => .inl (hg.reads hx), fun _ => ⟨ht, i, hlt, n, hin, hh3, hh4⟩, fun h => absurd rfl h⟩
        · rw [if_neg hij]
          split
          · exact same _
          · exact done

/-- Everything about the client. -/
theorem replace_sat (e : PEnv) (data : Slice) (hd : data.WF) (tmp target : Bytes) (w : World) (hs : Separate w.k tmp target)
    (hq : ∀ c ∈ w.choices, QuietPair tmp target c) :
    ((posixReplace strerror full pr data tmp target).run e w).Sat
      (fun r w' => (∀ x, CrashReads w'.k target x → CrashReads w.k target x ∨ x = some data.bytes) ∧
        (r.1 = .ok → Holds w'.k target data.bytes) ∧ (r.1 ≠ .ok → Guard w.k (cstr target) w'.k))
      (fun w' => ∀ x, CrashReads w'.k target x → CrashReads w.k target x ∨ x = some data.bytes) := by
  have h1 := posix_write_sat strerror full pr e data hd tmp true w (fun c hc => (hq c hc).1)
  have h2 := write_guarded strerror full pr e data true hs hq
  unfold posixReplace ReplaceFile WriteStringToFileSync
  apply sat_bindS
  generalize (DoWriteStringToFile (PosixEnv strerror pr) (posixFiles strerror full) data tmp true).run e w = o at h1 h2
  cases o with
  | fault er => exact h1
  | crash w' =>
    obtain ⟨fd, h2⟩ := h2
    exact fun x hx => .inl (h2.guard.reads hx)
  | done r w1 =>
    obtain ⟨fd, h2⟩ := h2
    obtain ⟨st, e1⟩ := r
    obtain ⟨_, h1, _⟩ := h1
    show (((if st = .ok then (PosixEnv strerror pr).RenameFile tmp target else pure st) : StateT PEnv P St).run e1 w1).Sat _ _
    by_cases hst : st = .ok
    · rw [if_pos hst]
      obtain ⟨b1, b2⟩ := h1 hst
      show ((do let a ← RenameFile strerror tmp target; pure (a, e1) : P (St × PEnv)) w1).Sat _ _
      refine Out.Sat.bind ((rename_reads strerror hs.1 h2 (b2 rfl) b1).mono ?_ ?_)
      · rintro s w2 ⟨c1, c2, c3⟩
        exact ⟨c1, c2, c3⟩
      · exact fun w2 h => h
    · rw [if_neg hst]
      exact ⟨fun x hx => .inl (h2.guard.reads hx), fun h => absurd h hst, fun _ => h2.guard⟩

/-- C83: whenever the machine crashes, and after the end of the call, the target reads as it could have been read after a crash before
the call, or as the new contents: never as a mixture, a prefix or an empty file. -/
theorem C83_crash_atomic (e : PEnv) (data : Slice) (hd : data.WF) (tmp target : Bytes) (w w' : World) (hs : Separate w.k tmp target)
    (hq : ∀ c ∈ w.choices, QuietPair tmp target c) (hl : Leaves ((posixReplace strerror full pr data tmp target).run e w) w')
    (x : Option Bytes) (hx : CrashReads w'.k target x) : CrashReads w.k target x ∨ x = some data.bytes := by
  have h := replace_sat strerror full pr e data hd tmp target w hs hq
  rcases hl with ⟨a, hl⟩ | hl <;> rw [hl] at h
  · exact h.1 x hx
  · exact h x hx

/-- C83: if the client is told OK, the target has the new contents; if it is told of an error, the target means the same file as before with
the same contents. -/
theorem C83_all_or_nothing (e e' : PEnv) (data : Slice) (hd : data.WF) (tmp target : Bytes) (w w' : World) (st : St)
    (hs : Separate w.k tmp target) (hq : ∀ c ∈ w.choices, QuietPair tmp target c)
    (hr : (posixReplace strerror full pr data tmp target).run e w = .done (st, e') w') :
    (st = .ok → Holds w'.k target data.bytes) ∧
    (st ≠ .ok → w'.k.lookup (cstr target) = w.k.lookup (cstr target) ∧
      ∀ ino, w.k.lookup (cstr target) = some ino → Contents w'.k ino = Contents w.k ino) := by
  have h := replace_sat strerror full pr e data hd tmp target w hs hq
  rw [hr] at h
  refine ⟨h.2.1, fun hst => ⟨(h.2.2 hst).look, fun ino hi => ?_⟩⟩
  obtain ⟨n0, n, a1, a2, _, a4, _⟩ := (h.2.2 hst).ino ino (.inl hi.symm)
  unfold Contents
  rw [a1, a2, Option.map_some, Option.map_some, a4]

/-- C83: the call has no undefined behaviour, and ends. -/
theorem C83_safe (e : PEnv) (data : Slice) (hd : data.WF) (tmp target : Bytes) (w : World) (hs : Separate w.k tmp target)
    (hq : ∀ c ∈ w.choices, QuietPair tmp target c) (er : Fault) : (posixReplace strerror full pr data tmp target).run e w ≠ .fault er :=
  (replace_sat strerror full pr e data hd tmp target w hs hq).fault

end

/-! ### Concrete runs -/

/-- A directory, and the file to be replaced, both durable. -/
def replaceKernel : Kernel :=
  ⟨[(lit "/db", 0), (lit "/db/CURRENT", 1)], [], [⟨true, [], []⟩, ⟨false, lit "old", []⟩], [], []⟩

/-- The hypotheses of the theorems hold there, for calls that fail and calls that transfer little. -/
example : Separate replaceKernel (lit "/db/tmp") (lit "/db/CURRENT") ∧
    (∀ c ∈ [calm, { count := 1 }, { fail := some EINTR }, { fail := some 28 }], QuietPair (lit "/db/tmp") (lit "/db/CURRENT") c) ∧
    CrashReads replaceKernel (lit "/db/CURRENT") (some (lit "old")) ∧ ¬ CrashReads replaceKernel (lit "/db/CURRENT") (some []) := by
  have hn : ∀ ino, replaceKernel.NameAfterCrash (cstr (lit "/db/CURRENT")) (some ino) → ino = 1 := by
    rintro ino (h | h)
    · have : replaceKernel.lookup (cstr (lit "/db/CURRENT")) = some 1 := by decide +kernel
      rw [this] at h
      injection h
    · exact nomatch h
  refine ⟨⟨by decide +kernel, fun ino h => ?_⟩, ?_, ⟨1, by decide +kernel, ⟨false, lit "old", []⟩, rfl, .inl rfl⟩, ?_⟩
  · rw [hn ino h]
    exact ⟨by decide +kernel, by decide +kernel⟩
  · intro c hc
    simp only [List.mem_cons, List.not_mem_nil, or_false] at hc
    rcases hc with rfl | rfl | rfl | rfl <;> exact ⟨fun _ => ⟨rfl, fun _ _ h => h, rfl⟩, fun _ => ⟨rfl, fun _ _ h => h, rfl⟩, fun _ _ => Iff.rfl⟩
  · rintro ⟨ino, h1, n, h2, h3⟩
    rw [hn ino h1] at h2
    have : replaceKernel.inodes[1]? = some ⟨false, lit "old", []⟩ := rfl
    rw [this] at h2
    injection h2 with h2
    subst h2
    rcases h3 with h3 | h3
    · exact absurd h3 (by decide +kernel)
    · exact nomatch h3

/-- What the target and its possible contents after a crash are. -/
def targetAfter {α : Type} (name : Bytes) (o : Out α) : Option (Option Bytes × List (Option Nat) × List Bytes) :=
  match o with
  | .done _ w | .crash w =>
    some ((w.k.lookup name).bind (Contents w.k), (w.k.pend.filter (fun e => e.1 = name)).map (·.2),
      (((w.k.lookup name).bind (fun i => w.k.inodes[i]?)).map (·.old)).getD [])
  | .fault _ => none

/-- A run to the end: the new contents, and only the new contents, while the name could still mean the old file (number 1). -/
example : targetAfter (lit "/db/CURRENT") ((posixReplace (fun _ => []) false demoProcess (Slice.ofBytes (lit "new")) (lit "/db/tmp")
    (lit "/db/CURRENT")).run (PEnv.init 0 0) ⟨replaceKernel, [calm, { count := 2 }, { count := 2 }, calm, calm, calm], []⟩) =
    some (some (lit "new"), [some 1], []) := by decide +kernel

/-- A crash before the rename: nothing has happened to the target. -/
example : targetAfter (lit "/db/CURRENT") ((posixReplace (fun _ => []) false demoProcess (Slice.ofBytes (lit "new")) (lit "/db/tmp")
    (lit "/db/CURRENT")).run (PEnv.init 0 0) ⟨replaceKernel, [calm, { count := 2 }, { count := 2 }, calm, calm], []⟩) =
    some (some (lit "old"), [], []) := by decide +kernel

/-- C83 needs the sync: with `WriteStringToFile` instead of `WriteStringToFileSync` a crash after the (successful) call can leave the
target empty. -/
theorem C83_unsynced_violated : ∃ cs e' w', (∀ c ∈ cs, QuietPair (lit "/db/tmp") (lit "/db/CURRENT") c) ∧
    (ReplaceFile (WriteStringToFile (PosixEnv (fun _ => []) demoProcess) (posixFiles (fun _ => []) false))
      (PosixEnv (fun _ => []) demoProcess).RenameFile (Slice.ofBytes (lit "new")) (lit "/db/tmp") (lit "/db/CURRENT")).run
        (PEnv.init 0 0) ⟨replaceKernel, cs, []⟩ = .done (.ok, e') w' ∧
    CrashReads w'.k (lit "/db/CURRENT") (some []) := by
  have hq : ∀ c ∈ [calm, calm, calm, calm], QuietPair (lit "/db/tmp") (lit "/db/CURRENT") c := by
    intro c hc
    simp only [List.mem_cons, List.not_mem_nil, or_false] at hc
    rcases hc with rfl | rfl | rfl | rfl <;> exact ⟨fun _ => ⟨rfl, fun _ _ h => h, rfl⟩, fun _ => ⟨rfl, fun _ _ h => h, rfl⟩, fun _ _ => Iff.rfl⟩
  have hc : (match (ReplaceFile (WriteStringToFile (PosixEnv (fun _ => []) demoProcess) (posixFiles (fun _ => []) false))
      (PosixEnv (fun _ => []) demoProcess).RenameFile (Slice.ofBytes (lit "new")) (lit "/db/tmp") (lit "/db/CURRENT")).run
        (PEnv.init 0 0) ⟨replaceKernel, [calm, calm, calm, calm], []⟩ with
      | .done r w' => decide (r.1 = .ok ∧ w'.k.lookup (cstr (lit "/db/CURRENT")) = some 2 ∧
          w'.k.inodes[2]? = some ⟨false, lit "new", [[], [], lit "n", lit "ne"]⟩)
      | _ => false) = true := by decide +kernel
  cases h : (ReplaceFile (WriteStringToFile (PosixEnv (fun _ => []) demoProcess) (posixFiles (fun _ => []) false))
      (PosixEnv (fun _ => []) demoProcess).RenameFile (Slice.ofBytes (lit "new")) (lit "/db/tmp") (lit "/db/CURRENT")).run
        (PEnv.init 0 0) ⟨replaceKernel, [calm, calm, calm, calm], []⟩ with
  | done r w' =>
    rw [h] at hc
    obtain ⟨st, e'⟩ := r
    obtain ⟨h1, h2, h3⟩ := of_decide_eq_true hc
    dsimp only at h1
    subst h1
    exact ⟨_, e', w', hq, h, 2, .inl h2.symm, _, h3, .inr (by simp)⟩
  | crash w' => rw [h] at hc; exact nomatch hc
  | fault er => rw [h] at hc; exact nomatch hc

end Iface
end Lsmdb
