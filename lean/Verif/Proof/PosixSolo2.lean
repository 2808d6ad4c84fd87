import Verif.Proof.PosixSolo1

/-! What calls on a file do to its descriptor, and how a call goes on in another world. -/

namespace Lsmdb
namespace Posix

open MemEnv (St lit)

/-- The descriptor a step has opened. -/
def Cmd.newFd : (c : Cmd) → c.Resp → Option Int
  | .open _ _, r => val r
  | .opendir _, r => (val r).map (·.1)
  | _, _ => none

namespace Conc

open Prog

/-- A file that one thread at a time uses. -/
def Plain : Obj → Prop
  | .wr _ => True
  | .seq _ => True
  | _ => False

/-- The program does not close descriptor `i` and does not touch what calls share. -/
def _root_.Lsmdb.Posix.Prog.Holds {α : Type} (i : Nat) : Prog α → (α → Prop) → Prop
  | .ret a, Q => Q a
  | .call c k, Q => c.onShared = false ∧ c ≠ .close (i : Int) ∧ ∀ r, c.newFd r ≠ some (i : Int) → (k r).Holds i Q
  | .fault _, _ => True
  | .spin, _ => True

theorem _root_.Lsmdb.Posix.Prog.Holds.mono {α : Type} {i : Nat} {p : Prog α} {Q Q' : α → Prop} (hq : ∀ a, Q a → Q' a) (h : p.Holds i Q) : p.Holds i Q' := by
  induction p with
  | ret a => exact hq a h
  | fault f => exact trivial
  | spin => exact trivial
  | call c k ih => exact ⟨h.1, h.2.1, fun r hr => ih r (h.2.2 r hr)⟩

theorem _root_.Lsmdb.Posix.Prog.Holds.bind {α β : Type} {i : Nat} {p : Prog α} {f : α → Prog β} {Q : α → Prop} {R : β → Prop} (h : p.Holds i Q)
    (hf : ∀ a, Q a → (f a).Holds i R) : (p >>= f).Holds i R := by
  induction p with
  | ret a => exact hf a h
  | fault f => exact trivial
  | spin => exact trivial
  | call c k ih => exact ⟨h.1, h.2.1, fun r hr => ih r (h.2.2 r hr)⟩

/-- The program is that of a call on a file with descriptor `i`: it may close it, but only at the end, and only if
`cl`. -/
def _root_.Lsmdb.Posix.Prog.Keeps (i : Nat) (cl : Prop) : Prog Fin → Prop
  | .ret a => ∃ o r, a = .back (some o) r ∧ Plain o ∧ o.ownsFd i
  | .call c k => c.onShared = false ∧
      ((c = .close (i : Int) ∧ cl ∧ ∀ r, ∃ o r', k r = .ret (.back o r')) ∨
       (c ≠ .close (i : Int) ∧ ∀ r, c.newFd r ≠ some (i : Int) → (k r).Keeps i cl))
  | .fault _ => True
  | .spin => True

theorem _root_.Lsmdb.Posix.Prog.Holds.keeps {α : Type} {i : Nat} {cl : Prop} {p : Prog α} {f : α → Prog Fin} {Q : α → Prop} (h : p.Holds i Q)
    (hf : ∀ a, Q a → (f a).Keeps i cl) : (p >>= f).Keeps i cl := by
  induction p with
  | ret a => exact hf a h
  | fault f => exact trivial
  | spin => exact trivial
  | call c k ih => exact ⟨h.1, .inr ⟨h.2.1, fun r hr => ih r (h.2.2 r hr)⟩⟩

theorem holds_ofM {α : Type} {i : Nat} (m : M α) : (Prog.ofM m).Holds i fun _ => True := by
  cases m <;> exact trivial

variable (strerror : Strerror) (full : Bool) (fuel : Nat) {i : Nat}

theorem holds_writeLoop (fd : Int) (name : Bytes) (hn : ∀ d r, (Cmd.write fd d).newFd r ≠ some (i : Int) := by intros; exact nofun) :
    ∀ (fuel : Nat) (d : Bytes), (writeLoop strerror fd name fuel d).Holds i fun _ => True := by
  intro fuel
  induction fuel with
  | zero => intro d; exact trivial
  | succ fuel ih =>
    intro d
    unfold writeLoop
    split
    · refine ⟨rfl, nofun, fun r _ => ?_⟩
      cases r with
      | error e =>
        show Holds i (if e = EINTR then _ else _) _
        split
        · exact ih d
        · exact trivial
      | ok n => exact ih _
    · exact trivial

theorem holds_FlushBuffer (f : WFile) : (FlushBuffer strerror fuel f).Holds i fun x => x.2.fd = f.fd :=
  (holds_ofM _).bind fun _ _ => Holds.bind (Q := fun _ => True) (holds_writeLoop strerror f.fd f.filename (fun _ _ => nofun) fuel _)
    fun _ _ => rfl

theorem holds_Append (f : WFile) (d : Slice) : (Append strerror fuel f d).Holds i fun x => x.2.fd = f.fd := by
  unfold Append
  refine (holds_ofM _).bind fun _ _ => (holds_ofM _).bind fun _ _ => ?_
  simp only
  split
  · exact rfl
  · refine (holds_FlushBuffer strerror fuel _).bind fun x hx => ?_
    split
    · exact hx
    · unfold appendRest
      split
      · exact (holds_ofM _).bind fun _ _ => hx
      · exact (holds_writeLoop strerror _ _ (fun _ _ => nofun) fuel _).bind fun _ _ => hx

theorem holds_SyncFd (fd : Int) (path : Bytes) : (SyncFd strerror full fd path).Holds i fun _ => True := by
  unfold SyncFd fullSync
  cases full
  · refine ⟨rfl, nofun, fun r _ => ?_⟩
    cases r <;> exact trivial
  · refine ⟨rfl, nofun, fun r _ => ?_⟩
    cases r with
    | ok _ => exact trivial
    | error _ =>
      refine ⟨rfl, nofun, fun r _ => ?_⟩
      cases r <;> exact trivial

theorem holds_SyncDir (f : WFile) : (SyncDirIfManifest strerror full f).Holds i fun _ => True := by
  unfold SyncDirIfManifest
  split
  · refine ⟨rfl, nofun, fun r hr => ?_⟩
    cases r with
    | error e => exact trivial
    | ok fd =>
      refine (holds_SyncFd strerror full fd _).bind fun st _ => ?_
      refine ⟨rfl, fun e => hr ?_, fun r _ => trivial⟩
      injection e with e
      rw [← e]; rfl
  · exact trivial

theorem holds_Sync (f : WFile) : (Sync strerror full fuel f).Holds i fun x => x.2.fd = f.fd := by
  unfold Sync
  refine (holds_SyncDir strerror full f).bind fun st _ => ?_
  split
  · exact rfl
  · refine (holds_FlushBuffer strerror fuel f).bind fun x hx => ?_
    obtain ⟨st, f'⟩ := x
    show Holds i (if st ≠ .ok then _ else _) _
    split
    · exact hx
    · exact (holds_SyncFd strerror full _ _).bind fun _ _ => hx

theorem holds_seqRead (f : SeqFile) (n : Nat) : (seqRead strerror fuel f n n).Holds i fun _ => True := by
  unfold seqRead
  induction fuel with
  | zero => exact trivial
  | succ fuel ih =>
    unfold seqReadLoop
    refine ⟨rfl, nofun, fun r _ => ?_⟩
    cases r with
    | error e =>
      show Holds i (if e = EINTR then _ else _) _
      split
      · exact ih
      · exact trivial
    | ok d =>
      show Holds i (if d.length ≤ n then _ else _) _
      split <;> exact trivial

theorem holds_seqSkip (f : SeqFile) (n : Nat) : (seqSkip strerror f n).Holds i fun _ => True := by
  refine ⟨rfl, nofun, fun r _ => ?_⟩
  cases r <;> exact trivial

/-- The calls that close a file. -/
def Closing : POp → Prop
  | .write _ .close => True
  | .delete _ => True
  | _ => False

/-- The calls that can be made on the object. -/
def Fits : POp → Obj → Prop
  | .write _ _, .wr _ => True
  | .seqRead _ _, .seq _ => True
  | .seqSkip _ _, .seq _ => True
  | .delete _, o => Plain o
  | _, _ => False

theorem body_keeps {op : POp} {o : Obj} (hf : Fits op o) (ho : o.ownsFd i) : (body strerror full fuel op (some o)).Keeps i (Closing op) := by
  cases op with
  | write h wop =>
    cases o with
    | wr f =>
      have ho : f.fd = (i : Int) := ho
      cases wop with
      | append d => exact (holds_Append strerror fuel f d).keeps fun x hx => ⟨_, _, rfl, trivial, hx.trans ho⟩
      | flush => exact (holds_FlushBuffer strerror fuel f).keeps fun x hx => ⟨_, _, rfl, trivial, hx.trans ho⟩
      | sync => exact (holds_Sync strerror full fuel f).keeps fun x hx => ⟨_, _, rfl, trivial, hx.trans ho⟩
      | close =>
        show (Close strerror fuel f >>= _).Keeps i _
        unfold Close
        rw [bindAssoc]
        refine (holds_FlushBuffer strerror fuel f).keeps fun x hx => ?_
        exact ⟨rfl, .inl ⟨by rw [hx, ho], trivial, fun r => ⟨_, _, rfl⟩⟩⟩
    | _ => exact hf.elim
  | seqRead h n =>
    cases o with
    | seq f => exact (holds_seqRead strerror fuel f n).keeps fun x hx => ⟨_, _, rfl, trivial, ho⟩
    | _ => exact hf.elim
  | seqSkip h n =>
    cases o with
    | seq f => exact Prog.Holds.keeps (holds_seqSkip strerror f n) fun x hx => ⟨_, _, rfl, trivial, ho⟩
    | _ => exact hf.elim
  | delete h =>
    cases o with
    | wr f =>
      have ho : f.fd = (i : Int) := ho
      show (wDestroy strerror fuel f >>= _).Keeps i _
      unfold wDestroy
      have h0 : f.fd ≥ 0 := by omega
      rw [if_pos h0]
      unfold Close
      rw [bindAssoc, bindAssoc]
      refine (holds_FlushBuffer strerror fuel f).keeps fun x hx => ?_
      exact ⟨rfl, .inl ⟨by rw [hx, ho], trivial, fun r => ⟨_, _, rfl⟩⟩⟩
    | seq f =>
      have ho : f.fd = (i : Int) := ho
      exact ⟨rfl, .inl ⟨by rw [ho], trivial, fun r => ⟨_, _, rfl⟩⟩⟩
    | _ => exact hf.elim
  | _ => exact hf.elim

/-! ## The same call in another world -/

/-- Started in `k0` with choices `cs` the program `p0` gets to where it goes on as `p` in `k`; and so does every program that is
`p0` with more fuel. -/
def Trail (p0 : Prog Fin) (k0 : Kernel) (cs : List Choice) (p : Prog Fin) (k : Kernel) : Prop :=
  ∃ calls, ∀ q0, Le p0 q0 → ∃ q, Le p q ∧ ∀ rest s l, q0.run s ⟨k0, cs ++ rest, l⟩ = q.run s ⟨k, rest, l ++ calls⟩

theorem Trail.start (p : Prog Fin) (k : Kernel) : Trail p k [] p k := ⟨[], fun q0 h => ⟨q0, h, fun rest s l => by simp⟩⟩

/-- A choice that shows the system `k'` to a call that would have seen `k`. -/
def _root_.Lsmdb.Posix.Choice.shows (x : Choice) (k k' : Kernel) : Choice :=
  { x with other := fun y => if y = k then x.other k' else y }

theorem Trail.step {p0 : Prog Fin} {k0 k : Kernel} {cs : List Choice} {cmd : Cmd} {kont : cmd.Resp → Prog Fin}
    (h : Trail p0 k0 cs (.call cmd kont) k) (hs : cmd.onShared = false) {sh sh' : Shared} {w w' : World} {r : cmd.Resp}
    (he : cmd.exec sh w = .done (r, sh') w') :
    ∃ x, w.choices = x :: w'.choices ∧ Trail p0 k0 (cs ++ [x.shows k w.k]) (kont r) w'.k := by
  obtain ⟨calls, h⟩ := h
  obtain ⟨x, calls', h1, h2⟩ := exec_again hs he
  refine ⟨x, h1, calls ++ calls', fun q0 hq0 => ?_⟩
  obtain ⟨q, hq, h⟩ := h q0 hq0
  cases hq with
  | call _ _ kont' hk =>
    refine ⟨kont' r, hk r, fun rest s l => ?_⟩
    rw [List.append_assoc, h, run_call]
    have h3 := h2 s k (x.shows k w.k) rest (l ++ calls) rfl rfl (if_pos rfl)
    show onward (cmd.exec s ⟨k, x.shows k w.k :: rest, l ++ calls⟩) _ = _
    rw [h3, List.append_assoc]
    rfl

/-- A call that has come to its end. -/
theorem Trail.ret {p0 q0 : Prog Fin} {k0 k : Kernel} {cs : List Choice} {a : Fin} (h : Trail p0 k0 cs (.ret a) k) :
    ∃ calls, ∀ q0, Le p0 q0 → ∀ rest s l, q0.run s ⟨k0, cs ++ rest, l⟩ = .done (a, s) ⟨k, rest, l ++ calls⟩ := by
  obtain ⟨calls, h⟩ := h
  refine ⟨calls, fun q0 hq0 => ?_⟩
  obtain ⟨q, hq, h⟩ := h q0 hq0
  cases hq
  exact h

/-- A program that is given no more system calls changes nothing. -/
theorem run_stop (q : Prog Fin) : ∀ (s : Shared) (k : Kernel) (l : List Call),
    (∃ a, q.run s ⟨k, [], l⟩ = .done a ⟨k, [], l⟩) ∨ q.run s ⟨k, [], l⟩ = .crash ⟨k, [], l⟩ ∨ ∃ e, q.run s ⟨k, [], l⟩ = .fault e := by
  induction q with
  | ret a => intro s k l; exact .inl ⟨_, rfl⟩
  | fault f => intro s k l; exact .inr (.inr ⟨_, rfl⟩)
  | spin => intro s k l; exact .inr (.inr ⟨_, rfl⟩)
  | call c kont ih =>
    intro s k l
    rw [run_call]
    cases c with
    | fetchSub l => exact ih _ _ _ _
    | fetchAdd l => exact ih _ _ _ _
    | insert l => exact ih _ _ _ _
    | remove l => exact ih _ _ _ _
    | _ => exact .inr (.inl rfl)

end Conc
end Posix
end Lsmdb
