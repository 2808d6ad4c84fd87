import Verif.Proof.EnvI
import Verif.Proof.EnvMem

/-!
# The `Env` interface: C62 (a failing open stores null), C63 (EnvWapper and ErrorEnv)
-/

namespace Lsmdb
namespace Iface

open MemEnv (St lit)

/-! ## C62 -/

/-- C62: an open call of the in-memory Env that fails stores null, one that succeeds stores an object, whatever
was in the variable. -/
theorem C62_memenv (base : Env M) (c : Call) (hc : c.isOpen = true) (s s' : MemState) (st : St) (p : Ptr)
    (h : (InMemoryEnv base).call c s = .ok (.opened st p, s')) : if st = .ok then ∃ x, p = .obj x else p = .null := by
  cases c with
  | newSequentialFile f r => exact open_call (fun e => openRes_seq e f) h
  | newRandomAccessFile f r => exact open_call (fun e => openRes_rand e f) h
  | newWritableFile f r => exact open_call (fun e => openRes_wr e f) h
  | newAppendableFile f r => exact open_call (fun e => openRes_app e f) h
  | _ => exact nomatch hc

/-- C62 is violated by the default implementation of `NewAppendableFile`, which an Env that does not support
appending inherits: it fails and leaves in `*result` what was there. -/
theorem C62_default_leaves_result (filename : Bytes) (result : Ptr) :
    ∃ st, (baseNewAppendableFile filename result : M (St × Ptr)) = .ok (st, result) ∧ st ≠ .ok := ⟨_, rfl, by simp⟩

/-- Both cases occur: opening a missing file, and creating a file, over a variable that was never set. -/
example : ((InMemoryEnv brokenEnv).call (.newSequentialFile [97] .uninit) MemState.init).map (fun r => r.1) =
    .ok (.opened (.err .ioError [97] (lit "File not found")) .null) := by decide +kernel
example : ((InMemoryEnv brokenEnv).call (.newWritableFile [97] .uninit) MemState.init).map (fun r => r.1) =
    .ok (.opened .ok (.obj 0)) := by decide +kernel

/-! ## C63 -/

/-- C63: any number of wrappers around an Env is the same as the Env, for every method. -/
theorem C63_wrapper {m : Type → Type} (target : Env m) (n : Nat) : Nat.repeat EnvWapper n target = target := by
  induction n with
  | zero => rfl
  | succ n ih => rw [Nat.repeat, ih]; rfl

variable {m : Type → Type} [Monad m] [LawfulMonad m] [Faults m]

/-- C63: for every history of calls and settings of the flag (fewer than 2^31 of them), an `ErrorEnv` gives the replies
of its target, except that it fails `NewWritableFile` and `NewAppendableFile` without asking the target while the
flag is set; it counts exactly these. -/
theorem C63_error_env (target : Env m) (acts : List Act) (hn : acts.length < 2 ^ 31) :
    (runActs (ErrorEnv target) acts).run ErrState.init = (do
      let (rs, b, n) ← fakes target false acts
      return (rs, ⟨b, (n : Nat)⟩)) := by
  have := error_acts target acts ErrState.init (by simp [ErrState.init]; omega)
  simpa [ErrState.init] using this

/-- A history on an `ErrorEnv` around an in-memory Env: real calls, two faked failures (the files are not created), and real calls
again. -/
example : ((runActs (ErrorEnv (InMemoryEnv brokenEnv))
      [.call (.newWritableFile [97] .uninit), .setError true, .call (.newWritableFile [98] .uninit), .call (.newAppendableFile [99] (.obj 7)),
       .call (.fileExists [98]), .call (.fileExists [97]), .setError false, .call (.newWritableFile [98] .null),
       .call (.fileExists [98])]).run ErrState.init MemState.init).map (fun r => r.1) =
    .ok ([.opened .ok (.obj 0), .opened (.err .ioError [98] (lit "fake error")) .null, .opened (.err .ioError [99] (lit "fake error")) .null,
      .bool false, .bool true, .opened .ok (.obj 1), .bool true], ⟨false, 2⟩) := by decide +kernel

end Iface
end Lsmdb
