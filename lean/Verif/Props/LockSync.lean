import Verif.Proof.LockSync

/-!
# C109: a lock orders the threads of its process

The mutual exclusion of C57 is of use to threads that share memory only if who gets the lock also sees what its last
holder wrote.  `HappensBefore` is program order, and mutexes; locking the file itself orders nothing.
-/

namespace Lsmdb
namespace PLock

/-- Whatever the threads of all processes do: the call of `UnlockFile` (step `i`) happens before every later return of `LockFile`
(step `j`) that grants the same name to a thread of the same process; so everything that the one thread did before the call is visible
to the other after the return.  Unless `UnlockFile` fails, or a process exits, in between. -/
theorem C109_lock_publishes {N : Nat} (x : Exec N) {i j : Nat} {t u : Nat × Nat} {a h : Handle} (hj : j < N) (hi : i < j)
    (hcall : x.ev i = some (.callUnlock t a)) (hret : x.ev j = some (.lockOk u h))
    (hproc : h.proc = a.proc) (hname : h.name = a.name)
    (hexit : ∀ k, i < k → k < j → ∀ p, x.ev k ≠ some (.exit p))
    (hok : ∀ k, i < k → k < j → x.ev k ≠ some (.unlockFails t a)) : HappensBefore x.sync i j :=
  x.lock_after hj hi hcall hret hproc hname hexit hok

/-- The critical sections of two threads that hold the same name, one after the other: the holder of the lock called `UnlockFile`
(step `i`) before the next one got it (step `j`), in this order and in the order of happens-before. -/
theorem C109_sections {N : Nat} (x : Exec N) {g j : Nat} {t u : Nat × Nat} {a h : Handle} (hj : j < N) (hg : g < j)
    (hgot : x.ev g = some (.lockOk t a)) (hret : x.ev j = some (.lockOk u h))
    (hproc : h.proc = a.proc) (hname : h.name = a.name)
    (hexit : ∀ k, g < k → k < j → ∀ p, x.ev k ≠ some (.exit p))
    (hok : ∀ k, g < k → k < j → ∀ t, x.ev k ≠ some (.unlockFails t a)) :
    ∃ i t', g < i ∧ i < j ∧ x.ev i = some (.callUnlock t' a) ∧ HappensBefore x.sync i j := by
  obtain ⟨i, t', h1, h2, h3⟩ := x.given_back hj hg hgot hret hproc hname hexit
  exact ⟨i, t', h1, h2, h3, x.lock_after hj h2 h3 hret hproc hname (fun k hk => hexit k (by omega))
    (fun k hk hkj => hok k (by omega) hkj t')⟩

/-- Two threads of process 1 race for a name, one wins; it unlocks and the other gets it. -/
example : ∃ (N : Nat) (x : Exec N) (i j : Nat), i < j ∧ x.ev i = some (.callUnlock (1, 0) ⟨1, [97], ⟨0, 5⟩⟩) ∧
    x.ev j = some (.lockOk (1, 1) ⟨1, [97], ⟨2, 5⟩⟩) ∧ HappensBefore x.sync i j := by
  have r := Run.nil
  have r := Run.step r (Step.callLock _ (1, 0) [97] rfl) (by simp)
  have r := Run.step r (Step.callLock _ (1, 1) [97] rfl) (by simp)
  have r := Run.step r (Step.openOk _ (1, 0) [97] 5 rfl) (by simp)
  have r := Run.step r (Step.openOk _ (1, 1) [97] 5 rfl) (by simp)
  have r := Run.step r (Step.insert _ (1, 0) [97] ⟨0, 5⟩ rfl) (by simp)
  have r := Run.step r (Step.insert _ (1, 1) [97] ⟨1, 5⟩ rfl) (by simp)
  have r := Run.step r (Step.dupClose _ (1, 1) [97] ⟨1, 5⟩ rfl) (by simp)
  have r := Run.step r (Step.lockFails _ (1, 1) [97] rfl) (by simp)
  have r := Run.step r (Step.setlkOk _ (1, 0) [97] ⟨0, 5⟩ rfl (Or.inl rfl)) (by simp)
  have r := Run.step r (Step.lockOk _ (1, 0) [97] ⟨0, 5⟩ rfl) (by simp)
  have r := Run.step r (Step.callUnlock _ (1, 0) ⟨1, [97], ⟨0, 5⟩⟩ rfl) (by simp [held, heldStep])
  have r := Run.step r (Step.unlckOk _ (1, 0) ⟨1, [97], ⟨0, 5⟩⟩ rfl) (by simp)
  have r := Run.step r (Step.remove _ (1, 0) ⟨1, [97], ⟨0, 5⟩⟩ rfl) (by simp)
  have r := Run.step r (Step.close _ (1, 0) ⟨1, [97], ⟨0, 5⟩⟩ rfl) (by simp)
  have r := Run.step r (Step.unlockOk _ (1, 0) ⟨1, [97], ⟨0, 5⟩⟩ rfl) (by simp)
  have r := Run.step r (Step.callLock _ (1, 1) [97] rfl) (by simp)
  have r := Run.step r (Step.openOk _ (1, 1) [97] 5 rfl) (by simp)
  have r := Run.step r (Step.insert _ (1, 1) [97] ⟨2, 5⟩ rfl) (by simp)
  have r := Run.step r (Step.setlkOk _ (1, 1) [97] ⟨2, 5⟩ rfl (Or.inl rfl)) (by simp)
  have r := Run.step r (Step.lockOk _ (1, 1) [97] ⟨2, 5⟩ rfl) (by simp)
  obtain ⟨N, x, -, he⟩ := r.exec
  simp only [List.nil_append, List.append_nil, Option.toList, List.cons_append] at he
  obtain ⟨i, hi, hie, hil⟩ := evs_split (l1 := [.callLock (1, 0) [97], .callLock (1, 1) [97], .lockFails (1, 1) [97],
    .lockOk (1, 0) ⟨1, [97], ⟨0, 5⟩⟩]) he
  obtain ⟨j, hj, hje, hjl⟩ := evs_split (l1 := [.callLock (1, 0) [97], .callLock (1, 1) [97], .lockFails (1, 1) [97],
    .lockOk (1, 0) ⟨1, [97], ⟨0, 5⟩⟩, .callUnlock (1, 0) ⟨1, [97], ⟨0, 5⟩⟩, .unlockOk (1, 0) ⟨1, [97], ⟨0, 5⟩⟩,
    .callLock (1, 1) [97]]) he
  have hij : i < j := by
    rcases Nat.lt_or_ge i j with h | h
    · exact h
    · have := evs_length x.ev h
      rw [hil, hjl] at this
      simp at this
  have no : ∀ k, k < j → (∀ p, x.ev k ≠ some (.exit p)) ∧ ∀ t a, x.ev k ≠ some (.unlockFails t a) := by
    intro k hk
    refine ⟨fun p h => ?_, fun t a h => ?_⟩ <;>
    · have := evs_mem h hk
      rw [hjl] at this
      simp at this
  exact ⟨N, x, i, j, hij, hie, hje, C109_lock_publishes x hj hij hie hje rfl rfl (fun k _ h => (no k h).1)
    (fun k _ h => (no k h).2 _ _)⟩

end PLock
end Lsmdb
