import Verif.Proof.PosixLock

/-!
# C57, C58: LockFile excludes

`Run es s`: some interleaving of the threads of all processes, in which the clients saw the events `es` and which led
to `s`.  `held es` are the locks that `LockFile` has granted and that were not given back.
-/

namespace Lsmdb
namespace PLock

/-! ## C57: within a process -/

/-- At most one lock per name is outstanding in a process, for every interleaving of the calls, including failing
ones, and with the kernel's locks coming and going as they like. -/
theorem C57_excludes {es : List Ev} {s : Sys} (h : Run es s) :
    (held es).Pairwise (fun a b => ¬ (a.proc = b.proc ∧ a.name = b.name)) := (tab_run h).pw

/-- So `LockFile` never returns OK while the process holds the name. -/
theorem C57_no_second {es : List Ev} {s : Sys} {t : Nat × Nat} {h : Handle} (hr : Run (es ++ [.lockOk t h]) s) :
    ∀ a ∈ held es, a.proc = h.proc → a.name ≠ h.name := by
  intro a ha h1 h2
  have := C57_excludes hr
  simp only [held, List.foldl_append, List.foldl, heldStep, List.pairwise_cons] at this
  exact this.1 a ha ⟨h1.symm, h2.symm⟩

/-- Nothing stays behind: when the process does not hold the name and is in no call, `LockFile` can be granted again
(if no other process has locked the file), whatever failed before. -/
theorem C57_again {es : List Ev} {s : Sys} (h : Run es s) (p : Nat) (n : Bytes) (ino : Nat)
    (hidle : ∀ k, s.pc (p, k) = .idle) (hn : ∀ a ∈ held es, a.proc = p → a.name ≠ n)
    (hl : s.locks ino = none ∨ s.locks ino = some p) (k : Nat) :
    ∃ fd s', fd.ino = ino ∧ Run (es ++ [.callLock (p, k) n, .lockOk (p, k) ⟨p, n, fd⟩]) s' := by
  have hfree : s.table p n = false := by
    cases hb : s.table p n with
    | false => rfl
    | true =>
      rcases (tab_run h).back p n hb with ⟨j, hj⟩ | ⟨a, ha, h1, h2⟩
      · rw [hidle] at hj; exact nomatch hj
      · exact absurd h2 (hn a ha h1)
  have r1 := Run.step h (Step.callLock s (p, k) n (hidle k)) (by simp)
  have r2 := Run.step r1 (Step.openOk _ (p, k) n ino (by simp [at_pc])) (by simp)
  have r3 := Run.step r2 (Step.insert _ (p, k) n ⟨s.fresh, ino⟩ (by simp [at_pc])) (by simp)
  have r4 := Run.step r3 (Step.setlkOk _ (p, k) n ⟨s.fresh, ino⟩ (by simp [at_pc, hfree]) (by simpa using hl)) (by simp)
  have r5 := Run.step r4 (Step.lockOk _ (p, k) n ⟨s.fresh, ino⟩ (by simp [at_pc])) (by simp)
  exact ⟨⟨s.fresh, ino⟩, _, rfl, by simpa using r5⟩

/-- Two threads of process 1 race for a name, one wins; it unlocks and the other gets it. -/
example : ∃ s, Run [.callLock (1, 0) [97], .callLock (1, 1) [97], .lockFails (1, 1) [97], .lockOk (1, 0) ⟨1, [97], ⟨0, 5⟩⟩,
    .callUnlock (1, 0) ⟨1, [97], ⟨0, 5⟩⟩, .unlockOk (1, 0) ⟨1, [97], ⟨0, 5⟩⟩,
    .callLock (1, 1) [97], .lockOk (1, 1) ⟨1, [97], ⟨2, 5⟩⟩] s := by
  have r := Run.nil
  have r := Run.step r (Step.callLock _ (1, 0) [97] rfl) (by simp)
  have r := Run.step r (Step.callLock _ (1, 1) [97] rfl) (by simp)
  have r := Run.step r (Step.openOk _ (1, 0) [97] 5 rfl) (by simp)
  have r := Run.step r (Step.openOk _ (1, 1) [97] 5 rfl) (by simp)
  have r := Run.step r (Step.insert _ (1, 0) [97] ⟨0, 5⟩ rfl) (by simp)
  have r := Run.step r (Step.insert _ (1, 1) [97] ⟨1, 5⟩ rfl) (by simp)
  have r := Run.step r (Step.dupClose _ (1, 1) [97] ⟨1, 5⟩ rfl) (by simp)
  have r := Run.step r (Step.lockFails _ (1, 1) [97] rfl) (by simp)
  have r := Run.step r (Step.setlkOk _ (1, 0) [97] ⟨0, 5⟩ rfl (Or.inl rfl)) (by simp)
  have r := Run.step r (Step.lockOk _ (1, 0) [97] ⟨0, 5⟩ rfl) (by simp)
  have r := Run.step r (Step.callUnlock _ (1, 0) ⟨1, [97], ⟨0, 5⟩⟩ rfl) (by simp [held, heldStep])
  have r := Run.step r (Step.unlckOk _ (1, 0) ⟨1, [97], ⟨0, 5⟩⟩ rfl) (by simp)
  have r := Run.step r (Step.remove _ (1, 0) ⟨1, [97], ⟨0, 5⟩⟩ rfl) (by simp)
  have r := Run.step r (Step.close _ (1, 0) ⟨1, [97], ⟨0, 5⟩⟩ rfl) (by simp)
  have r := Run.step r (Step.unlockOk _ (1, 0) ⟨1, [97], ⟨0, 5⟩⟩ rfl) (by simp)
  have r := Run.step r (Step.callLock _ (1, 1) [97] rfl) (by simp)
  have r := Run.step r (Step.openOk _ (1, 1) [97] 5 rfl) (by simp)
  have r := Run.step r (Step.insert _ (1, 1) [97] ⟨2, 5⟩ rfl) (by simp)
  have r := Run.step r (Step.setlkOk _ (1, 1) [97] ⟨2, 5⟩ rfl (Or.inl rfl)) (by simp)
  have r := Run.step r (Step.lockOk _ (1, 1) [97] ⟨2, 5⟩ rfl) (by simp)
  exact ⟨_, r⟩

/-! ## C58: across processes -/

/-- Violated: a refused second `LockFile` of the holder closes its descriptor, and with it the process loses the
kernel's lock.  Another process then gets the file. -/
theorem C58_failed_lock_releases : ∃ s, Run [.callLock (1, 0) [97], .lockOk (1, 0) ⟨1, [97], ⟨0, 5⟩⟩,
    .callLock (1, 0) [97], .lockFails (1, 0) [97], .callLock (2, 0) [97], .lockOk (2, 0) ⟨2, [97], ⟨2, 5⟩⟩] s := by
  have r := Run.nil
  have r := Run.step r (Step.callLock _ (1, 0) [97] rfl) (by simp)
  have r := Run.step r (Step.openOk _ (1, 0) [97] 5 rfl) (by simp)
  have r := Run.step r (Step.insert _ (1, 0) [97] ⟨0, 5⟩ rfl) (by simp)
  have r := Run.step r (Step.setlkOk _ (1, 0) [97] ⟨0, 5⟩ rfl (Or.inl rfl)) (by simp)
  have r := Run.step r (Step.lockOk _ (1, 0) [97] ⟨0, 5⟩ rfl) (by simp)
  have r := Run.step r (Step.callLock _ (1, 0) [97] rfl) (by simp)
  have r := Run.step r (Step.openOk _ (1, 0) [97] 5 rfl) (by simp)
  have r := Run.step r (Step.insert _ (1, 0) [97] ⟨1, 5⟩ rfl) (by simp)
  have r := Run.step r (Step.dupClose _ (1, 0) [97] ⟨1, 5⟩ rfl) (by simp)
  have r := Run.step r (Step.lockFails _ (1, 0) [97] rfl) (by simp)
  have r := Run.step r (Step.callLock _ (2, 0) [97] rfl) (by simp)
  have r := Run.step r (Step.openOk _ (2, 0) [97] 5 rfl) (by simp)
  have r := Run.step r (Step.insert _ (2, 0) [97] ⟨2, 5⟩ rfl) (by simp)
  have r := Run.step r (Step.setlkOk _ (2, 0) [97] ⟨2, 5⟩ rfl (Or.inl rfl)) (by simp)
  have r := Run.step r (Step.lockOk _ (2, 0) [97] ⟨2, 5⟩ rfl) (by simp)
  exact ⟨_, r⟩

/-- Both processes hold file 5 after that run. -/
example : held [.callLock (1, 0) [97], .lockOk (1, 0) ⟨1, [97], ⟨0, 5⟩⟩,
    .callLock (1, 0) [97], .lockFails (1, 0) [97], .callLock (2, 0) [97], .lockOk (2, 0) ⟨2, [97], ⟨2, 5⟩⟩] =
    [⟨2, [97], ⟨2, 5⟩⟩, ⟨1, [97], ⟨0, 5⟩⟩] := rfl

/-- Violated also when no process locks what it holds: `UnlockFile` takes the name out of the table before it closes
the descriptor.  A second thread locks the file in between, and the close takes its lock away. -/
theorem C58_unlock_race : ∃ s, Run [.callLock (1, 0) [97], .lockOk (1, 0) ⟨1, [97], ⟨0, 5⟩⟩,
    .callUnlock (1, 0) ⟨1, [97], ⟨0, 5⟩⟩, .callLock (1, 1) [97], .lockOk (1, 1) ⟨1, [97], ⟨1, 5⟩⟩,
    .unlockOk (1, 0) ⟨1, [97], ⟨0, 5⟩⟩, .callLock (2, 0) [97], .lockOk (2, 0) ⟨2, [97], ⟨2, 5⟩⟩] s := by
  have r := Run.nil
  have r := Run.step r (Step.callLock _ (1, 0) [97] rfl) (by simp)
  have r := Run.step r (Step.openOk _ (1, 0) [97] 5 rfl) (by simp)
  have r := Run.step r (Step.insert _ (1, 0) [97] ⟨0, 5⟩ rfl) (by simp)
  have r := Run.step r (Step.setlkOk _ (1, 0) [97] ⟨0, 5⟩ rfl (Or.inl rfl)) (by simp)
  have r := Run.step r (Step.lockOk _ (1, 0) [97] ⟨0, 5⟩ rfl) (by simp)
  have r := Run.step r (Step.callUnlock _ (1, 0) ⟨1, [97], ⟨0, 5⟩⟩ rfl) (by simp [held, heldStep])
  have r := Run.step r (Step.unlckOk _ (1, 0) ⟨1, [97], ⟨0, 5⟩⟩ rfl) (by simp)
  have r := Run.step r (Step.remove _ (1, 0) ⟨1, [97], ⟨0, 5⟩⟩ rfl) (by simp)
  have r := Run.step r (Step.callLock _ (1, 1) [97] rfl) (by simp)
  have r := Run.step r (Step.openOk _ (1, 1) [97] 5 rfl) (by simp)
  have r := Run.step r (Step.insert _ (1, 1) [97] ⟨1, 5⟩ rfl) (by simp)
  have r := Run.step r (Step.setlkOk _ (1, 1) [97] ⟨1, 5⟩ rfl (Or.inl rfl)) (by simp)
  have r := Run.step r (Step.lockOk _ (1, 1) [97] ⟨1, 5⟩ rfl) (by simp)
  have r := Run.step r (Step.close _ (1, 0) ⟨1, [97], ⟨0, 5⟩⟩ rfl) (by simp)
  have r := Run.step r (Step.unlockOk _ (1, 0) ⟨1, [97], ⟨0, 5⟩⟩ rfl) (by simp)
  have r := Run.step r (Step.callLock _ (2, 0) [97] rfl) (by simp)
  have r := Run.step r (Step.openOk _ (2, 0) [97] 5 rfl) (by simp)
  have r := Run.step r (Step.insert _ (2, 0) [97] ⟨2, 5⟩ rfl) (by simp)
  have r := Run.step r (Step.setlkOk _ (2, 0) [97] ⟨2, 5⟩ rfl (Or.inl rfl)) (by simp)
  have r := Run.step r (Step.lockOk _ (2, 0) [97] ⟨2, 5⟩ rfl) (by simp)
  exact ⟨_, r⟩

/-- Both processes hold file 5 after that run. -/
example : held [.callLock (1, 0) [97], .lockOk (1, 0) ⟨1, [97], ⟨0, 5⟩⟩,
    .callUnlock (1, 0) ⟨1, [97], ⟨0, 5⟩⟩, .callLock (1, 1) [97], .lockOk (1, 1) ⟨1, [97], ⟨1, 5⟩⟩,
    .unlockOk (1, 0) ⟨1, [97], ⟨0, 5⟩⟩, .callLock (2, 0) [97], .lockOk (2, 0) ⟨2, [97], ⟨2, 5⟩⟩] =
    [⟨2, [97], ⟨2, 5⟩⟩, ⟨1, [97], ⟨1, 5⟩⟩] := by decide +kernel

/-- Violated when the holder opens and closes the lock file in another way, for example to read it. -/
theorem C58_other_close_releases : ∃ s, Run [.callLock (1, 0) [97], .lockOk (1, 0) ⟨1, [97], ⟨0, 5⟩⟩, .otherClose 1 5,
    .callLock (2, 0) [97], .lockOk (2, 0) ⟨2, [97], ⟨1, 5⟩⟩] s := by
  have r := Run.nil
  have r := Run.step r (Step.callLock _ (1, 0) [97] rfl) (by simp)
  have r := Run.step r (Step.openOk _ (1, 0) [97] 5 rfl) (by simp)
  have r := Run.step r (Step.insert _ (1, 0) [97] ⟨0, 5⟩ rfl) (by simp)
  have r := Run.step r (Step.setlkOk _ (1, 0) [97] ⟨0, 5⟩ rfl (Or.inl rfl)) (by simp)
  have r := Run.step r (Step.lockOk _ (1, 0) [97] ⟨0, 5⟩ rfl) (by simp)
  have r := Run.step r (Step.otherClose _ 1 5) (by simp)
  have r := Run.step r (Step.callLock _ (2, 0) [97] rfl) (by simp)
  have r := Run.step r (Step.openOk _ (2, 0) [97] 5 rfl) (by simp)
  have r := Run.step r (Step.insert _ (2, 0) [97] ⟨1, 5⟩ rfl) (by simp)
  have r := Run.step r (Step.setlkOk _ (2, 0) [97] ⟨1, 5⟩ rfl (Or.inl rfl)) (by simp)
  have r := Run.step r (Step.lockOk _ (2, 0) [97] ⟨1, 5⟩ rfl) (by simp)
  exact ⟨_, r⟩

/-- No two processes hold a file, as long as no process calls `LockFile` on a file that it holds or is locking or
unlocking, or closes another descriptor of it.  Processes may race, fail, and end at any step.  Missing from the full
claim: exactly these calls. -/
theorem C58_excludes_partial {es : List Ev} {s : Sys} (h : CarefulRun es s) {a b : Handle} (ha : a ∈ held es) (hb : b ∈ held es)
    (hp : a.proc ≠ b.proc) : a.fd.ino ≠ b.fd.ino := by
  intro hi
  have h1 := (car_run h).hold a ha
  have h2 := (car_run h).hold b hb
  rw [hi, h2] at h1
  exact hp (Option.some.inj h1).symm

/-- Process 2 is refused while process 1 holds the file, and gets it when process 1 ends. -/
example : ∃ s, CarefulRun [.callLock (1, 0) [97], .lockOk (1, 0) ⟨1, [97], ⟨0, 5⟩⟩, .callLock (2, 0) [98], .lockFails (2, 0) [98],
    .exit 1, .callLock (2, 0) [98], .lockOk (2, 0) ⟨2, [98], ⟨2, 5⟩⟩] s := by
  have r := CarefulRun.nil
  have r := CarefulRun.step r (Step.callLock _ (1, 0) [97] rfl) (by simp) (careful_at rfl (by simp) (by simp))
  have r := CarefulRun.step r (Step.openOk _ (1, 0) [97] 5 rfl) (by simp)
    (careful_at rfl (by simp [Away, held, heldStep, at_pc, Sys.init]; intro k; by_cases h : k = 0 <;> simp [h, Pc.file]) (by simp))
  have r := CarefulRun.step r (Step.insert _ (1, 0) [97] ⟨0, 5⟩ rfl) (by simp) (careful_at rfl (by simp [Sys.init]) (by simp))
  have r := CarefulRun.step r (Step.setlkOk _ (1, 0) [97] ⟨0, 5⟩ rfl (Or.inl rfl)) (by simp) (careful_at rfl (by simp) (by simp))
  have r := CarefulRun.step r (Step.lockOk _ (1, 0) [97] ⟨0, 5⟩ rfl) (by simp) (careful_at rfl (by simp) (by simp))
  have r := CarefulRun.step r (Step.callLock _ (2, 0) [98] rfl) (by simp) (careful_at rfl (by simp) (by simp))
  have r := CarefulRun.step r (Step.openOk _ (2, 0) [98] 5 rfl) (by simp)
    (careful_at rfl (by simp [Away, held, heldStep, at_pc, Sys.init]; intro k; by_cases h : k = 0 <;> simp [h, Pc.file]) (by simp))
  have r := CarefulRun.step r (Step.insert _ (2, 0) [98] ⟨1, 5⟩ rfl) (by simp) (careful_at rfl (by simp [Sys.init, setTable_table]) (by simp))
  have r := CarefulRun.step r (Step.setlkFails _ (2, 0) [98] ⟨1, 5⟩ rfl) (by simp) (careful_at rfl (by simp) (by simp))
  have r := CarefulRun.step r (Step.failClose _ (2, 0) [98] ⟨1, 5⟩ rfl) (by simp) (careful_at (by simp) (by simp) (by simp))
  have r := CarefulRun.step r (Step.failRemove _ (2, 0) [98] ⟨1, 5⟩ rfl) (by simp) (careful_at rfl (by simp) (by simp))
  have r := CarefulRun.step r (Step.lockFails _ (2, 0) [98] rfl) (by simp) (careful_at rfl (by simp) (by simp))
  have r := CarefulRun.step r (Step.exit _ 1) (by simp) (careful_exit rfl)
  have r := CarefulRun.step r (Step.callLock _ (2, 0) [98] rfl) (by simp) (careful_at rfl (by simp) (by simp))
  have r := CarefulRun.step r (Step.openOk _ (2, 0) [98] 5 rfl) (by simp)
    (careful_at rfl (by simp [Away, held, heldStep, at_pc, Sys.init]; intro k; by_cases h : k = 0 <;> simp [h, Pc.file]) (by simp))
  have r := CarefulRun.step r (Step.insert _ (2, 0) [98] ⟨2, 5⟩ rfl) (by simp) (careful_at rfl (by simp [Sys.init, setTable_table]) (by simp))
  have r := CarefulRun.step r (Step.setlkOk _ (2, 0) [98] ⟨2, 5⟩ rfl (Or.inl rfl)) (by simp) (careful_at rfl (by simp) (by simp))
  have r := CarefulRun.step r (Step.lockOk _ (2, 0) [98] ⟨2, 5⟩ rfl) (by simp) (careful_at rfl (by simp) (by simp))
  exact ⟨_, r⟩

end PLock
end Lsmdb
