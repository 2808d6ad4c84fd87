import Verif.Proof.PosixSolo4
import Verif.Proof.PosixRun2

/-! From the machine of threads to the model of one thread. -/

namespace Lsmdb
namespace Posix

open MemEnv (St lit)

namespace Conc

open Prog

variable {strerror : Strerror} {full : Bool}

/-- What the end of a call says about the code of the model of one thread. -/
theorem done_of_sim {α : Type} {p : Prog α} {s : Shared} {x : P α} {w w' : World} {a : α} {s' : Shared}
    (h : Sim w.choices.length p s x (Same s)) (hp : p.run s w = .done (a, s') w') : x w = .done a w' := by
  have h1 := h w (Nat.le_refl _)
  rw [hp] at h1
  cases hx : x w with
  | done b w1 =>
    rw [hx] at h1
    obtain ⟨⟨h2, -⟩, h3, -⟩ := h1
    rw [← h3, ← show a = b from h2]
  | crash w1 => rw [hx] at h1; exact h1.elim
  | fault e => rw [hx] at h1; exact h1.elim

theorem onward_done {α β : Type} {o : Out α} {f : α → World → Out β} {b : β} {w : World} (h : onward o f = .done b w) :
    ∃ a w1, o = .done a w1 ∧ f a w1 = .done b w := by
  cases o with
  | done a w1 => exact ⟨a, w1, rfl, h⟩
  | crash w1 => exact nomatch h
  | fault e => exact nomatch h

/-- Some shared state. -/
def anyShared : Shared := ⟨[], 0, 0⟩

/-- A call on a writable file. -/
theorem Trail.write {a fuel : Nat} {op : WOp} {f : WFile} {k k' : Kernel} {cs : List Choice} {o' : Option Obj} {r : PRes}
    (h : Trail (body strerror full fuel (.write a op) (some (.wr f))) k cs (.ret (.back o' r)) k') :
    ∃ st f' calls, o' = some (.wr f') ∧ r = .status st ∧
      ∀ rest l, f.step strerror full op ⟨k, cs ++ rest, l⟩ = .done (st, f') ⟨k', rest, l ++ calls⟩ := by
  obtain ⟨calls, h⟩ := h.ret (q0 := .spin)
  have key : ∀ rest l, ∃ st f', o' = some (.wr f') ∧ r = .status st ∧
      f.step strerror full op ⟨k, cs ++ rest, l⟩ = .done (st, f') ⟨k', rest, l ++ calls⟩ := by
    intro rest l
    have hle : fuel ≤ fuel + ((cs ++ rest).length + 2) := Nat.le_add_right _ _
    have h1 := h _ (le_body strerror full hle (.write a op) (some (.wr f))) rest anyShared l
    have h1 : (wstep strerror full (fuel + ((cs ++ rest).length + 2)) f op >>= fun x : St × WFile =>
        (Prog.ret (Fin.back (some (.wr x.2)) (.status x.1)) : Prog Fin)).run anyShared ⟨k, cs ++ rest, l⟩ = _ := h1
    rw [run_bind] at h1
    obtain ⟨x, w1, hx, h2⟩ := onward_done h1
    obtain ⟨⟨st, f'⟩, s'⟩ := x
    injection h2 with h2 h3
    injection h2 with h2 h4
    injection h2 with h2 h5
    refine ⟨st, f', h2.symm, h5.symm, ?_⟩
    subst h3
    exact done_of_sim (sim_wstep strerror full (by simp only; omega) f op) hx
  obtain ⟨st, f', e1, e2, -⟩ := key [] []
  refine ⟨st, f', calls, e1, e2, fun rest l => ?_⟩
  obtain ⟨st', f'', e3, e4, h5⟩ := key rest l
  rw [e1] at e3; rw [e2] at e4
  cases e3; cases e4
  exact h5

/-- A call on a writable file that has not come to its end. -/
theorem Trail.midway {a fuel : Nat} {op : WOp} {f : WFile} {k k' : Kernel} {cs : List Choice} {p : Prog Fin}
    (h : Trail (body strerror full fuel (.write a op) (some (.wr f))) k cs p k') :
    ∃ calls, ∀ l, Leaves (f.step strerror full op ⟨k, cs, l⟩) ⟨k', [], l ++ calls⟩ ∨ ∃ e, f.step strerror full op ⟨k, cs, l⟩ = .fault e := by
  obtain ⟨calls, h⟩ := h
  refine ⟨calls, fun l => ?_⟩
  have hle : fuel ≤ fuel + (cs.length + 2) := Nat.le_add_right _ _
  obtain ⟨q, -, hq⟩ := h _ (le_body strerror full hle (.write a op) (some (.wr f)))
  have h1 := hq [] anyShared l
  rw [List.append_nil] at h1
  have h1 : (wstep strerror full (fuel + (cs.length + 2)) f op >>= fun x : St × WFile =>
        (Prog.ret (Fin.back (some (.wr x.2)) (.status x.1)) : Prog Fin)).run anyShared ⟨k, cs, l⟩ = _ := h1
  rw [run_bind] at h1
  have hs := sim_wstep (s := anyShared) strerror full (N := cs.length) (fuel := fuel + (cs.length + 2)) (by omega) f op ⟨k, cs, l⟩ (Nat.le_refl _)
  have hq := run_stop q anyShared k' (l ++ calls)
  rw [← h1] at hq
  generalize (wstep strerror full (fuel + (cs.length + 2)) f op).run anyShared ⟨k, cs, l⟩ = o at hs hq
  cases hx : f.step strerror full op ⟨k, cs, l⟩ with
  | fault e => exact .inr ⟨e, rfl⟩
  | done b w1 =>
    left; left
    rw [hx] at hs
    cases o with
    | done c w2 =>
      obtain ⟨-, rfl, -⟩ := hs
      rcases hq with ⟨a, hq⟩ | hq | ⟨e, hq⟩
      · injection hq with _ hq; exact ⟨b, by rw [hq]⟩
      · exact nomatch hq
      · exact nomatch hq
    | crash w2 => exact hs.elim
    | fault e => exact hs.elim
  | crash w1 =>
    left; right
    rw [hx] at hs
    cases o with
    | done c w2 => exact hs.elim
    | crash w2 =>
      have hs : w2 = w1 := hs
      subst hs
      rcases hq with ⟨a, hq⟩ | hq | ⟨e, hq⟩
      · exact nomatch hq
      · injection hq with hq; rw [hq]
      · exact nomatch hq
    | fault e => exact hs.elim

/-- A call on a sequential file. -/
theorem Trail.seqRead {a fuel n : Nat} {f : SeqFile} {k k' : Kernel} {cs : List Choice} {o' : Option Obj} {r : PRes}
    (h : Trail (body strerror full fuel (.seqRead a n) (some (.seq f))) k cs (.ret (.back o' r)) k') :
    ∃ st d calls, o' = some (.seq f) ∧ r = .data st d ∧
      ∀ rest l, f.Read strerror n n ⟨k, cs ++ rest, l⟩ = .done (st, d) ⟨k', rest, l ++ calls⟩ := by
  obtain ⟨calls, h⟩ := h.ret (q0 := .spin)
  have key : ∀ rest l, ∃ st d, o' = some (.seq f) ∧ r = .data st d ∧
      f.Read strerror n n ⟨k, cs ++ rest, l⟩ = .done (st, d) ⟨k', rest, l ++ calls⟩ := by
    intro rest l
    have hle : fuel ≤ fuel + ((cs ++ rest).length + 2) := Nat.le_add_right _ _
    have h1 := h _ (le_body strerror full hle (.seqRead a n) (some (.seq f))) rest anyShared l
    have h1 : (Conc.seqRead strerror (fuel + ((cs ++ rest).length + 2)) f n n >>= fun x : St × Option Bytes =>
        (Prog.ret (Fin.back (some (.seq f)) (.data x.1 x.2)) : Prog Fin)).run anyShared ⟨k, cs ++ rest, l⟩ = _ := h1
    rw [run_bind] at h1
    obtain ⟨x, w1, hx, h2⟩ := onward_done h1
    obtain ⟨⟨st, d⟩, s'⟩ := x
    injection h2 with h2 h3
    injection h2 with h2 h4
    injection h2 with h2 h5
    refine ⟨st, d, h2.symm, h5.symm, ?_⟩
    subst h3
    exact done_of_sim (sim_seqRead strerror (by simp only; omega) f n) hx
  obtain ⟨st, d, e1, e2, -⟩ := key [] []
  refine ⟨st, d, calls, e1, e2, fun rest l => ?_⟩
  obtain ⟨st', d', e3, e4, h5⟩ := key rest l
  rw [e2] at e4
  cases e4
  exact h5

theorem Trail.seqSkip {a fuel n : Nat} {f : SeqFile} {k k' : Kernel} {cs : List Choice} {o' : Option Obj} {r : PRes}
    (h : Trail (body strerror full fuel (.seqSkip a n) (some (.seq f))) k cs (.ret (.back o' r)) k') :
    ∃ st calls, o' = some (.seq f) ∧ r = .status st ∧
      ∀ rest l, f.Skip strerror n ⟨k, cs ++ rest, l⟩ = .done st ⟨k', rest, l ++ calls⟩ := by
  obtain ⟨calls, h⟩ := h.ret (q0 := .spin)
  have key : ∀ rest l, ∃ st, o' = some (.seq f) ∧ r = .status st ∧
      f.Skip strerror n ⟨k, cs ++ rest, l⟩ = .done st ⟨k', rest, l ++ calls⟩ := by
    intro rest l
    have h1 := h _ (Le.refl _) rest anyShared l
    have h1 : (Conc.seqSkip strerror f n >>= fun x : St =>
        (Prog.ret (Fin.back (some (.seq f)) (.status x)) : Prog Fin)).run anyShared ⟨k, cs ++ rest, l⟩ = _ := h1
    rw [run_bind] at h1
    obtain ⟨x, w1, hx, h2⟩ := onward_done h1
    obtain ⟨st, s'⟩ := x
    injection h2 with h2 h3
    injection h2 with h2 h4
    injection h2 with h2 h5
    refine ⟨st, h2.symm, h5.symm, ?_⟩
    subst h3
    exact done_of_sim (sim_seqSkip strerror f n) hx
  obtain ⟨st, e1, e2, -⟩ := key [] []
  refine ⟨st, calls, e1, e2, fun rest l => ?_⟩
  obtain ⟨st', e3, e4, h5⟩ := key rest l
  rw [e2] at e4
  cases e4
  exact h5

/-- Deleting the object. -/
theorem Trail.delete {a fuel : Nat} {o : Obj} {k k' : Kernel} {cs : List Choice} {o' : Option Obj} {r : PRes}
    (h : Trail (body strerror full fuel (.delete a) (some o)) k cs (.ret (.back o' r)) k') :
    o' = none ∧ r = .unit := by
  obtain ⟨calls, h⟩ := h.ret (q0 := .spin)
  have h1 := h _ (Le.refl _) [] anyShared []
  have h1 : (Conc.destroy strerror fuel o >>= fun _ : Unit =>
        (Prog.ret (Fin.back Option.none .unit) : Prog Fin)).run anyShared ⟨k, cs ++ [], []⟩ = _ := h1
  rw [run_bind] at h1
  obtain ⟨x, w1, hx, h2⟩ := onward_done h1
  injection h2 with h2 h3
  injection h2 with h2 h4
  injection h2 with h2 h5
  exact ⟨h2.symm, h5.symm⟩

/-- ... of a writable file. -/
theorem Trail.destroy {a fuel : Nat} {f : WFile} {k k' : Kernel} {cs : List Choice} {o' : Option Obj} {r : PRes}
    (h : Trail (body strerror full fuel (.delete a) (some (.wr f))) k cs (.ret (.back o' r)) k') :
    ∃ calls, ∀ rest l, f.destroy strerror ⟨k, cs ++ rest, l⟩ = .done () ⟨k', rest, l ++ calls⟩ := by
  obtain ⟨calls, h⟩ := h.ret (q0 := .spin)
  refine ⟨calls, fun rest l => ?_⟩
  have hle : fuel ≤ fuel + ((cs ++ rest).length + 2) := Nat.le_add_right _ _
  have h1 := h _ (le_body strerror full hle (.delete a) (some (.wr f))) rest anyShared l
  have h1 : (Conc.wDestroy strerror (fuel + ((cs ++ rest).length + 2)) f >>= fun _ : Unit =>
        (Prog.ret (Fin.back Option.none .unit) : Prog Fin)).run anyShared ⟨k, cs ++ rest, l⟩ = _ := h1
  rw [run_bind] at h1
  obtain ⟨x, w1, hx, h2⟩ := onward_done h1
  injection h2 with h2 h3
  subst h3
  refine done_of_sim (a := ()) (s' := x.2) ?_ hx
  unfold wDestroy WFile.destroy
  by_cases hp : f.fd ≥ 0
  · simp only [if_pos hp]
    exact (sim_Close strerror (N := (cs ++ rest).length) (by omega) f).then fun _ => Sim.pure ⟨rfl, rfl⟩
  · simp only [if_neg hp]
    exact Sim.pure ⟨rfl, rfl⟩

variable {C : Choice → Prop} {k0 k : Kernel} {ops : List POp} {rs : List PRes} {o? : Option Obj} {all : List Choice}

theorem Serial.choices {o0 : Obj} (h : Serial strerror full C o0 k0 ops rs o? k all) : ∀ x ∈ all, C x := by
  induction h with
  | nil => exact fun _ hx => nomatch hx
  | snoc h op fuel cs o' r hf hc ht ih =>
    intro x hx
    rcases List.mem_append.1 hx with hx | hx
    · exact ih x hx
    · exact hc x hx

/-- The calls on a writable file, one after the other. -/
theorem Serial.write {f : WFile} (h : Serial strerror full C (.wr f) k0 ops rs o? k all) : ∀ o, o? = some o →
    ∃ f' ss calls, o = .wr f' ∧ rs = ss.map .status ∧ (∀ op ∈ ops, ∃ a wop, op = .write a wop) ∧
      ∀ rest l, f.run strerror full (writesOf ops) ⟨k0, all ++ rest, l⟩ = .done (ss, f') ⟨k, rest, l ++ calls⟩ := by
  induction h with
  | nil =>
    intro o ho
    injection ho with ho
    exact ⟨f, [], [], ho.symm, rfl, fun _ h => (nomatch h), fun rest l => by simp [writesOf, WFile.run, pure]⟩
  | snoc h op fuel cs o' r hf hc ht ih =>
    rename_i ops rs o k k' all
    intro o2 ho2
    obtain ⟨f1, ss, calls, rfl, hrs, hops, hrun⟩ := ih o rfl
    cases op with
    | write a wop =>
      obtain ⟨st, f', calls', e1, e2, h2⟩ := ht.write
      rw [ho2] at e1
      injection e1 with e1
      refine ⟨f', ss ++ [st], calls ++ calls', e1, by rw [hrs, e2]; simp, fun op hop => ?_, fun rest l => ?_⟩
      · rcases List.mem_append.1 hop with hop | hop
        · exact hops op hop
        · rw [List.mem_singleton.1 hop]; exact ⟨a, wop, rfl⟩
      · have : writesOf (ops ++ [POp.write a wop]) = writesOf ops ++ [wop] := by simp [writesOf]
        rw [this, Posix.run_append, List.append_assoc, hrun]
        simp only [run_one, h2, List.append_assoc]
    | delete a =>
      have := ht.delete.1
      rw [ho2] at this
      exact nomatch this
    | _ => exact hf.elim

/-- Only deleting an object makes it go away. -/
theorem Serial.left {o0 : Obj} (h : Serial strerror full C o0 k0 ops rs o? k all) (hops : ∀ op ∈ ops, ∃ a wop, op = .write a wop) :
    ∃ o, o? = some o := by
  cases h with
  | nil => exact ⟨o0, rfl⟩
  | snoc h op fuel cs o' r hf hc ht =>
    rename_i o k1 all
    obtain ⟨a, wop, rfl⟩ := hops op (by simp)
    cases o with
    | wr f => obtain ⟨st, f', calls, e, -⟩ := ht.write; exact ⟨_, e⟩
    | _ => exact hf.elim

/-- The calls on a sequential file, one after the other. -/
theorem Serial.read {f : SeqFile} (h : Serial strerror full C (.seq f) k0 ops rs o? k all) : ∀ o, o? = some o →
    ∃ as calls, o = .seq f ∧ as.length = (readsOf ops).length ∧ rs = List.zipWith answerOf (readsOf ops) as ∧
      ∀ rest l, f.run strerror (readsOf ops) ⟨k0, all ++ rest, l⟩ = .done as ⟨k, rest, l ++ calls⟩ := by
  have app : ∀ (a b : List SOp) (w : World), f.run strerror (a ++ b) w = onward (f.run strerror a w) fun rs w =>
      onward (f.run strerror b w) fun ts w => .done (rs ++ ts) w := by
    intro a b
    induction a with
    | nil =>
      intro w
      show f.run strerror b w = onward (f.run strerror b w) fun ts w => .done ts w
      cases f.run strerror b w <;> rfl
    | cons o os ih =>
      intro w
      cases o with
      | read n =>
        show (f.Read strerror n n >>= fun r => f.run strerror (os ++ b) >>= fun rs => pure (r :: rs)) w =
          onward ((f.Read strerror n n >>= fun r => f.run strerror os >>= fun rs => pure (r :: rs)) w) _
        rw [bindP, bindP]
        cases f.Read strerror n n w with
        | crash w => rfl
        | fault e => rfl
        | done r w1 =>
          simp only [onward, bindP, ih]
          cases f.run strerror os w1 with
          | crash w => rfl
          | fault e => rfl
          | done rs w2 =>
            show onward (onward (f.run strerror b w2) fun ts w => .done (rs ++ ts) w) _ =
              onward (f.run strerror b w2) fun ts w => .done (r :: rs ++ ts) w
            cases f.run strerror b w2 <;> rfl
      | skip n =>
        show (f.Skip strerror n >>= fun r => f.run strerror (os ++ b) >>= fun rs => pure ((r, none) :: rs)) w =
          onward ((f.Skip strerror n >>= fun r => f.run strerror os >>= fun rs => pure ((r, none) :: rs)) w) _
        rw [bindP, bindP]
        cases f.Skip strerror n w with
        | crash w => rfl
        | fault e => rfl
        | done r w1 =>
          simp only [onward, bindP, ih]
          cases f.run strerror os w1 with
          | crash w => rfl
          | fault e => rfl
          | done rs w2 =>
            show onward (onward (f.run strerror b w2) fun ts w => .done (rs ++ ts) w) _ =
              onward (f.run strerror b w2) fun ts w => .done ((r, none) :: rs ++ ts) w
            cases f.run strerror b w2 <;> rfl
  induction h with
  | nil =>
    intro o ho
    injection ho with ho
    exact ⟨[], [], ho.symm, rfl, rfl, fun rest l => by simp [readsOf, SeqFile.run, pure]⟩
  | snoc h op fuel cs o' r hf hc ht ih =>
    rename_i ops rs o k k' all
    intro o2 ho2
    obtain ⟨as, calls, rfl, hlen, hrs, hrun⟩ := ih o rfl
    cases op with
    | seqRead a n =>
      obtain ⟨st, d, calls', e1, rfl, h2⟩ := ht.seqRead
      rw [ho2] at e1
      injection e1 with e1
      have e3 : readsOf (ops ++ [POp.seqRead a n]) = readsOf ops ++ [.read n] := by simp [readsOf]
      refine ⟨as ++ [(st, d)], calls ++ calls', e1, by simp [e3, hlen], ?_, fun rest l => ?_⟩
      · rw [e3, List.zipWith_append hlen.symm, hrs]; rfl
      rw [e3, app, List.append_assoc, hrun]
      simp only [onward, SeqFile.run, bindP, h2, List.append_assoc]
      rfl
    | seqSkip a n =>
      obtain ⟨st, calls', e1, rfl, h2⟩ := ht.seqSkip
      rw [ho2] at e1
      injection e1 with e1
      have e3 : readsOf (ops ++ [POp.seqSkip a n]) = readsOf ops ++ [.skip n] := by simp [readsOf]
      refine ⟨as ++ [(st, none)], calls ++ calls', e1, by simp [e3, hlen], ?_, fun rest l => ?_⟩
      · rw [e3, List.zipWith_append hlen.symm, hrs]; rfl
      rw [e3, app, List.append_assoc, hrun]
      simp only [onward, SeqFile.run, bindP, h2, List.append_assoc]
      rfl
    | delete a =>
      have := ht.delete.1
      rw [ho2] at this
      exact nomatch this
    | _ => exact hf.elim

end Conc
end Posix
end Lsmdb
