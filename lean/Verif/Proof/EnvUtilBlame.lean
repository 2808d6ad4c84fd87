import Verif.Model.EnvPosix
import Verif.Proof.PosixBlame

/-!
# WriteStringToFile on the POSIX Env: a status that is not OK comes from a system call that failed
-/

namespace Lsmdb
namespace Iface

open MemEnv (St lit)
open Posix

section
variable (strerror : Strerror) (full : Bool)

theorem write_unless (p : Ptr) (op : WOp) (e : PEnv) : Unless (fun r => r.1 = .ok) ((posixFiles.write strerror full p op).run e) := by
  show Unless _ (do
    let h ← Posix.pureM p.deref
    match ← Posix.pureM (e.get h) with
    | .wr f => do
      let (s, f) ← f.step strerror full op
      return (s, { e with objs := e.objs.set h (some (.wr f)) })
    | _ => Posix.pureM (.error .outOfBounds) : P (St × PEnv))
  refine Unless.bind (Unless.pureM (Q := fun _ => True) fun _ _ => trivial) fun h => ?_
  refine Unless.bind (Unless.pureM (Q := fun _ => True) fun _ _ => trivial) fun o => ?_
  cases o with
  | wr f => exact Unless.bind (wstep_unless strerror full f op) fun _ => Unless.pure fun h _ _ => h
  | _ => exact Unless.pureM fun _ h => nomatch h

theorem sysClose_any (fd : Int) : Unless (fun _ => True) (sysClose fd) := (sysClose_unless fd).mono fun _ _ => trivial

theorem true_mono' {α : Type} {Q : α → Prop} {x : P α} (h : Unless Q x) : Unless (fun _ => True) x := h.mono fun _ _ => trivial

theorem true_bind {α β : Type} {x : P α} {f : α → P β} (hx : Unless (fun _ => True) x) (hf : ∀ a, Unless (fun _ => True) (f a)) :
    Unless (fun _ => True) (x >>= f) := Unless.bind hx fun a => (hf a).mono fun _ _ _ => trivial

theorem pdelete_unless (e : PEnv) (h : Nat) : Unless (fun _ => True) (e.delete strerror h) := by
  unfold PEnv.delete
  refine true_bind (Unless.pureM fun _ _ => trivial) fun o => ?_
  have hp : ∀ e' : PEnv, Unless (fun _ => True) (do
      let e ← pure e'
      pure { e with objs := e.objs.set h none } : P PEnv) := fun e' => true_bind (Unless.pure trivial) fun _ => Unless.pure trivial
  cases o with
  | seq f => exact true_bind (sysClose_any _) fun _ => hp _
  | rand f =>
    refine true_bind ?_ fun _ => hp _
    unfold RandFile.destroy
    split
    · exact true_bind (Unless.pureM fun _ _ => trivial) fun _ => true_bind (sysClose_any _) fun _ => Unless.pure trivial
    · exact Unless.pure trivial
  | mmap f =>
    refine true_bind ?_ fun _ => hp _
    unfold MmapFile.destroy
    exact true_bind (Unless.sys fun _ => .inl trivial) fun _ => Unless.pure trivial
  | wr f => exact true_bind (wdestroy_unless strerror f) fun _ => hp _
  | logger fd => exact true_bind (sysClose_any _) fun _ => hp _
  | lock _ _ => exact Unless.bind (Unless.pureM (Q := fun _ => False) fun _ h => nomatch h) fun _ => Unless.pure fun h => h.elim

theorem delete_unless (p : Ptr) (e : PEnv) : Unless (fun _ => True) (((posixFiles strerror full).delete p).run e) := by
  have hd : Unless (fun _ => True) (do
      let h ← Posix.pureM p.deref
      return ((), ← e.delete strerror h) : P (Unit × PEnv)) :=
    true_bind (Unless.pureM fun _ _ => trivial) fun _ => true_bind (pdelete_unless strerror e _) fun _ => Unless.pure trivial
  cases p with
  | null => exact Unless.pure trivial
  | uninit => exact hd
  | obj h => exact hd

theorem unless_bindS {α β : Type} {x : StateT PEnv P α} {f : α → StateT PEnv P β} {e : PEnv} {Q : α × PEnv → Prop} {R : β × PEnv → Prop}
    (hx : Unless Q (x.run e)) (hf : ∀ p : α × PEnv, Unless (fun b => Q p → R b) ((f p.1).run p.2)) : Unless R ((x >>= f).run e) :=
  Unless.bind hx hf

/-- WriteStringToFile. -/
theorem posix_write_unless (pr : Process) (e : PEnv) (data : Slice) (name : Bytes) (sync : Bool) :
    Unless (fun r => r.1 = .ok) ((DoWriteStringToFile (PosixEnv strerror pr) (posixFiles strerror full) data name sync).run e) := by
  unfold DoWriteStringToFile
  refine unless_bindS (Q := fun r => r.1.1 = .ok) ?_ fun p => ?_
  · show Unless _ (do
      let (s, h, e) ← e.NewWritableFile strerror name
      return ((s, Ptr.of h), e) : P ((St × Ptr) × PEnv))
    exact Unless.bind (newWFile_unless strerror e .trunc name) fun _ => Unless.pure fun h => h.1
  obtain ⟨⟨s, file⟩, e1⟩ := p
  dsimp only []
  have hend : ∀ (s : St) (e : PEnv), Unless (fun r => s = .ok → r.1 = .ok) ((do
        (posixFiles strerror full).delete file
        if s ≠ .ok then do
          let _ ← (PosixEnv strerror pr).RemoveFile name
          return s
        else return s : StateT PEnv P St).run e) := by
    intro s e
    refine unless_bindS (delete_unless strerror full file e) fun p => ?_
    split
    · refine unless_bindS (Q := fun _ => True) ?_ fun _ => Unless.pure fun _ _ h => h
      exact true_bind (RemoveFile_unless strerror name) fun _ => Unless.pure trivial
    · exact Unless.pure fun _ h => h
  have hclose : ∀ (s : St) (e : PEnv), Unless (fun r => s = .ok → r.1 = .ok) ((do
        let s ← if s = .ok then (posixFiles strerror full).close file else pure s
        (posixFiles strerror full).delete file
        if s ≠ .ok then do
          let _ ← (PosixEnv strerror pr).RemoveFile name
          return s
        else return s : StateT PEnv P St).run e) := by
    intro s e
    by_cases hs : s = .ok
    · simp only [hs, if_true]
      exact unless_bindS (write_unless strerror full file .close e) fun p => (hend p.1 p.2).mono fun _ h hq _ => h hq
    · simp only [hs, if_false]
      exact (hend s e).mono fun _ _ h => h.elim
  split
  · exact Unless.pure fun h => h
  · refine unless_bindS (write_unless strerror full file (.append data) e1) fun p => ?_
    obtain ⟨s2, e2⟩ := p
    dsimp only []
    by_cases hc : s2 = .ok ∧ sync = true
    · rw [if_pos hc]
      exact unless_bindS (write_unless strerror full file .sync e2) fun p => (hclose p.1 p.2).mono fun _ h hq _ _ => h hq
    · rw [if_neg hc]
      exact (hclose s2 e2).mono fun _ h hq _ => h hq

end

end Iface
end Lsmdb
