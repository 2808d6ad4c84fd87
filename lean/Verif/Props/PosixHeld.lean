import Verif.Proof.PosixHeld
import Verif.Props.PosixEnv

/-!
# C57: the locks of one Env, together with everything else a client does with it

`heldLocks ops rs` are the locks that the answers `rs` to the calls `ops` have granted and not taken back.  The calls may
fail at any system call.
-/

namespace Lsmdb
namespace Posix

open MemEnv (St lit)

variable (strerror : Strerror) (full : Bool)

/-- C57: a client never holds two locks with the same name. -/
theorem C57_env_excludes (a b : Int) (ops : List POp) (w w' : World) (e : PEnv) (rs : List PRes)
    (hr : (PEnv.init a b).run strerror full ops w = .done (e, rs) w') :
    (heldLocks ops rs).Pairwise (fun x y => x.2 ≠ y.2) :=
  (run_held strerror full ops (HeldInv.init a b) w _ w' hr).pw

/-- C57: LockFile of a name that is held is refused, stores null and leaves the Env as it is; the status is the
"already held" error unless the file could not even be opened. -/
theorem C57_env_refused (a b : Int) (ops : List POp) (w w' w'' : World) (e e' : PEnv) (rs : List PRes)
    (hr : (PEnv.init a b).run strerror full ops w = .done (e, rs) w') (h : Nat) (n : Bytes) (hn : (h, n) ∈ heldLocks ops rs)
    (st : St) (p : Option Nat) (hl : e.LockFile strerror n w' = .done (st, p, e') w'') :
    p = none ∧ e' = e ∧ (st = .err .ioError (lit "lock " ++ n) (lit "already held by process") ∨
      ∃ err w1, sysOpen .rdwr n w' = .done (.error err) w1 ∧ ReportsErr strerror n err st) := by
  have hi := run_held strerror full ops (HeldInv.init a b) w _ w' hr
  have ht : n ∈ e.locks := (hi.table n).2 ⟨h, hn⟩
  unfold PEnv.LockFile at hl
  rw [bind_eq] at hl
  cases ho : sysOpen .rdwr n w' with
  | crash w1 => rw [ho] at hl; exact nomatch hl
  | fault f => rw [ho] at hl; exact nomatch hl
  | done r w1 =>
    rw [ho] at hl
    cases r with
    | error err =>
      dsimp only at hl
      rw [pure_eq] at hl
      injection hl with h1 h2
      injection h1 with h1 h3
      injection h3 with h3 h4
      subst h1 h3 h4
      exact ⟨rfl, rfl, .inr ⟨err, w1, rfl, PosixError_reports _ _ _⟩⟩
    | ok fd =>
      unfold lockInsert at hl
      simp only [ht, if_true, Bool.false_eq_true, if_false] at hl
      rw [bind_eq] at hl
      cases hc : sysClose fd w1 with
      | crash w2 => rw [hc] at hl; exact nomatch hl
      | fault f => rw [hc] at hl; exact nomatch hl
      | done r w2 =>
        rw [hc] at hl
        dsimp only at hl
        rw [pure_eq] at hl
        injection hl with h1 h2
        injection h1 with h1 h3
        injection h3 with h3 h4
        subst h1 h3 h4
        exact ⟨rfl, rfl, .inl rfl⟩

/-- C57: a name that is not held - never locked, unlocked, or whose LockFile failed - can be locked: if the file opens
and the kernel grants the lock, LockFile returns OK and a new lock. -/
theorem C57_env_again (a b : Int) (ops : List POp) (w w' w1 w2 : World) (e : PEnv) (rs : List PRes)
    (hr : (PEnv.init a b).run strerror full ops w = .done (e, rs) w') (n : Bytes) (hn : ∀ h, (h, n) ∉ heldLocks ops rs)
    (fd : Int) (ho : sysOpen .rdwr n w' = .done (.ok fd) w1) (hf : sysOther w1 = .done (.ok ()) w2) :
    ∃ h e', e.LockFile strerror n w' = .done (.ok, some h, e') w2 ∧ e'.has h (.lock fd n) ∧ ∀ o, ¬ e.has h o := by
  have hi := run_held strerror full ops (HeldInv.init a b) w _ w' hr
  have ht : n ∉ e.locks := fun hm => by
    obtain ⟨h, hh⟩ := (hi.table n).1 hm
    exact hn h hh
  refine ⟨e.objs.length, ({ e with locks := n :: e.locks }.alloc (.lock fd n)).2, ?_, ?_, ?_⟩
  · unfold PEnv.LockFile
    rw [bind_eq, ho]
    unfold lockInsert
    simp only [ht, if_true, if_false]
    rw [bind_eq, hf]
    rfl
  · exact (has_alloc _ _ _ _).2 (.inr ⟨rfl, rfl⟩)
  · intro o h
    unfold PEnv.has at h
    rw [List.getElem?_eq_none (le_refl _)] at h
    exact nomatch h

/-- C57: UnlockFile that returns OK frees the name, and one that fails keeps it: what is held afterwards is what the
answers say. -/
theorem C57_env_unlock (a b : Int) (ops : List POp) (w w' w'' : World) (e e' : PEnv) (rs : List PRes)
    (hr : (PEnv.init a b).run strerror full ops w = .done (e, rs) w') (h : Nat) (st : St)
    (hu : e.UnlockFile strerror h w' = .done (st, e') w'') :
    ∃ n, (h, n) ∈ heldLocks ops rs ∧
      (st = .ok → n ∉ e'.locks ∧ (∀ o, ¬ e'.has h o)) ∧ (st ≠ .ok → e' = e ∧ n ∈ e'.locks) := by
  have hi := run_held strerror full ops (HeldInv.init a b) w _ w' hr
  have hi' := UnlockFile_held strerror hi h w' _ w'' hu
  have hq : Ret (fun r => ∃ fd n, e.has h (.lock fd n) ∧ (r.1 = .ok → r.2.objs = e.objs.set h none ∧ n ∉ r.2.locks) ∧
      (r.1 ≠ .ok → r.2 = e)) (e.UnlockFile strerror h) := by
    unfold PEnv.UnlockFile
    refine Ret.bind (Ret.pureM (Q := fun o => e.has h o) fun o ho => get_has' ho) fun o ho => ?_
    split
    · refine Ret.then fun r => ?_
      split
      · exact Ret.pure ⟨_, _, ho, fun h => absurd h (PosixError_ne_ok _ _ _), fun _ => rfl⟩
      · exact Ret.then fun r => Ret.pure ⟨_, _, ho, fun _ => ⟨rfl, by simp [lockRemove]⟩, fun h => absurd rfl h⟩
    · exact Ret.pureM fun _ hh => nomatch hh
  obtain ⟨fd, n, h1, h2, h3⟩ := hq w' _ w'' hu
  have hin : (h, n) ∈ heldLocks ops rs := (hi.objs h n).2 ⟨fd, h1⟩
  refine ⟨n, hin, fun hs => ⟨(h2 hs).2, fun o ho => ?_⟩, fun hs => ?_⟩
  · unfold PEnv.has at ho
    rw [(h2 hs).1, List.getElem?_set] at ho
    simp only [if_true] at ho
    split at ho <;> exact nomatch ho
  · have := h3 hs
    dsimp only at this
    refine ⟨this, ?_⟩
    rw [this]
    exact (hi.table n).2 ⟨h, hin⟩

/-- Two names; the second LockFile of one is refused, a third fails in `fcntl`, then it is unlocked and locked again. -/
def lockOps : List POp :=
  [.lockFile (lit "/db/t"), .lockFile (lit "/db/t"), .lockFile (lit "/db/u"), .lockFile (lit "/db/u"), .unlockFile 0,
   .lockFile (lit "/db/t")]

example : (match (PEnv.init 1 1).run (fun _ => []) false lockOps ⟨tableKernel,
      [calm, calm, calm, calm, calm, { fail := some 11 }, calm, calm, calm, calm, calm, calm, calm], []⟩ with
    | .done (e, rs) _ => some (rs, heldLocks lockOps rs, e.locks)
    | _ => none) =
    some ([.opened .ok (some 0), .opened (.err .ioError (lit "lock /db/t") (lit "already held by process")) none,
      .opened (.err .ioError (lit "lock /db/u") []) none, .opened .ok (some 1), .status .ok, .opened .ok (some 2)],
      [(2, lit "/db/t"), (1, lit "/db/u")], [lit "/db/t", lit "/db/u"]) := by
  decide +kernel

end Posix
end Lsmdb
