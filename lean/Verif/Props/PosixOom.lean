import Verif.Proof.PosixOom5
import Verif.Props.PosixHeld

/-!
# C91: the POSIX Env and its files when memory runs out

Every call comes with the outcome of the allocations it may make (`PMem`); any of them may fail, in any call of the
history, and the client goes on after an exception.
-/

namespace Lsmdb
namespace Posix

open MemEnv (St lit)

variable (strerror : Strerror) (full : Bool)

/-! ## Which calls throw -/

/-- C91: a call throws only if memory runs out: in a history in which it does not, every call returns. -/
theorem C91_throws_only_when_short (a b : Int) (ops : List (PMem × POp)) (w w' : World) (E : OEnv) (as : List Ans)
    (hr : (OEnv.mk (PEnv.init a b) false).run strerror full ops w = .done (E, as) w') (hm : ∀ x ∈ ops, x.1 = .plenty) :
    as.length = ops.length ∧ ∀ y ∈ as, ∃ r, y = .res r :=
  ((runO_locks strerror full ops (HeldInvL.init a b) w _ w' hr).ret hm rfl).2

/-- C91: the part that holds: a call that returns, whichever allocations failed, has done what the same call does
when memory does not run out: the same answer, the same objects, the same system calls. -/
theorem C91_returned_partial (mem : PMem) (E E' : OEnv) (op : POp) (w w' : World) (r : PRes)
    (h : E.step strerror full mem op w = .done (E', .res r) w') : E.env.step strerror full op w = .done (E'.env, r) w' := by
  have hs := stepO_sim strerror full mem E op w
  rw [h] at hs
  exact hs _ rfl

/-! ## Descriptors, mappings, slots -/

/-- The accounts of a process (as `Accounted`) when calls threw: descriptors `F`, mappings `M` and `k` slots of the
mmap limiter belong to nobody. -/
structure AccountedL (L1 L2 : Int) (w : World) (e : PEnv) (w' : World) (F M : List Nat) (k : Nat) : Prop where
  fds : ∀ i, w'.k.isOpen i ↔ w.k.isOpen i ∨ i ∈ F ∨ ∃ h o, e.has h o ∧ o.ownsFd i
  fd_owner : ∀ h h' o o' i, e.has h o → e.has h' o' → o.ownsFd i → o'.ownsFd i → h = h'
  fd_foreign : ∀ h o i, e.has h o → o.ownsFd i → ¬ w.k.isOpen i ∧ i ∉ F
  fd_lost : ∀ i ∈ F, ¬ w.k.isOpen i
  maps : ∀ m, w'.k.isMapped m ↔ w.k.isMapped m ∨ m ∈ M ∨ ∃ h o, e.has h o ∧ o.ownsMap m
  map_owner : ∀ h h' o o' m, e.has h o → e.has h' o' → o.ownsMap m → o'.ownsMap m → h = h'
  map_foreign : ∀ h o m, e.has h o → o.ownsMap m → ¬ w.k.isMapped m ∧ m ∉ M
  map_lost : ∀ m ∈ M, ¬ w.k.isMapped m
  closes : ∀ fd err, Call.close fd err ∈ w'.calls → Call.close fd err ∉ w.calls → 0 ≤ fd → err ≠ some EBADF
  mmap_slots : e.mmap_limiter = L1 - k - e.count Obj.isMmap
  fd_slots : e.fd_limiter = L2 - e.count Obj.isPermanent

theorem acc_init (L1 L2 : Int) (h1 : IsInt L1) (h2 : IsInt L2) (w : World) (hc : w.calls = [])
    (hq : ∀ c ∈ w.choices, KeepsFds c) : Acc w.k.isOpen w.k.isMapped L1 L2 (PEnv.init L1 L2) w := by
  refine ⟨w.k.isOpen, w.k.isMapped, ⟨⟨?_, ?_, ?_, ?_, ?_, ?_, ?_⟩, ⟨h1, ?_, .inl rfl⟩, ⟨h2, ?_, .inl rfl⟩⟩,
    hq, fun _ => Iff.rfl, fun _ => Iff.rfl, by rw [hc]; simp⟩
  all_goals simp [PEnv.init, cnt]

/-- C91: the part that holds: each call that throws loses at most one descriptor, and only NewRandomAccessFile a
mapping or a slot; everything else is accounted for as in C54, and nobody's descriptor is closed but its owner's.
There must be memory for the status of `Close` (see `C91_close_twice_violated`), and the process goes on. -/
theorem C91_accounting_partial (L1 L2 : Int) (h1 : IsInt L1) (h2 : IsInt L2) (w : World) (hc : w.calls = [])
    (hq : ∀ c ∈ w.choices, KeepsFds c) (ops : List (PMem × POp)) (hv : ValidPOps (ops.map (·.2)))
    (hm : CloseHasMemory ops) (E : OEnv) (as : List Ans) (w' : World)
    (hr : (OEnv.mk (PEnv.init L1 L2) false).run strerror full ops w = .done (E, as) w') (he : .ended ∉ as) :
    ∃ (F M : List Nat) (k : Nat), F.length ≤ broken POp.opens ops as ∧ k ≤ broken POp.maps ops as ∧ M.length ≤ k ∧
      AccountedL L1 L2 w E.env w' F M k := by
  obtain ⟨k, hk, F, M, hF, hM, nF, nM, S, T, ⟨O, X, Y⟩, R⟩ := runO_acc strerror full ops _ w 0 0 hv hm
    (AccL.of (acc_init L1 L2 h1 h2 w hc hq)) E as w' hr he
  refine ⟨F, M, k, by omega, hk, by omega, fun i => ((R.fds i).trans (O.fds i)).trans or_assoc, O.fd_uniq,
    fun h o i a b => not_or.1 (O.fd_ext h o i a b), nF, fun i => ((R.maps i).trans (O.maps i)).trans or_assoc, O.map_uniq,
    fun h o i a b => not_or.1 (O.map_ext h o i a b), nM, fun fd err hm _ => R.calls fd err hm, ?_, Y.eq⟩
  have := X.eq
  rw [count_eq]
  omega

/-- The step of a history after which it goes on. -/
theorem runO_cons {E E1 E2 : OEnv} {mem : PMem} {op : POp} {a : Ans} {ops : List (PMem × POp)} {rs : List Ans} {w w1 w2 : World}
    (h1 : E.step strerror full mem op w = .done (E1, a) w1) (ha : a ≠ .hangs ∧ a ≠ .ended)
    (h2 : E1.run strerror full ops w1 = .done (E2, rs) w2) :
    E.run strerror full ((mem, op) :: ops) w = .done (E2, a :: rs) w2 := by
  unfold OEnv.run
  rw [bind_eq, h1]
  cases a with
  | hangs => exact absurd rfl ha.1
  | ended => exact absurd rfl ha.2
  | res r => simp only [bind_eq, h2]; rfl
  | threw => simp only [bind_eq, h2]; rfl

/-- C91: the part that holds: with a client that uses each object until it deletes it, nothing is undefined, whichever
calls threw: every assertion holds, no freed object is touched, no buffer is overrun. -/
theorem C91_no_undefined_behaviour_partial (L1 L2 : Int) (h1 : IsInt L1) (h2 : IsInt L2) (w : World) (hc : w.calls = [])
    (hq : ∀ c ∈ w.choices, KeepsFds c) (ops : List (PMem × POp)) (hv : ValidPOps (ops.map (·.2)))
    (hm : CloseHasMemory ops)
    (hh : ∀ pre mem op post E as w', ops = pre ++ (mem, op) :: post →
      (OEnv.mk (PEnv.init L1 L2) false).run strerror full pre w = .done (E, as) w' → .hangs ∉ as → .ended ∉ as →
      HandleOk E.env op) (f : Fault) :
    (OEnv.mk (PEnv.init L1 L2) false).run strerror full ops w ≠ .fault f := by
  have h0 : ∃ n k, AccL w.k.isOpen w.k.isMapped L1 L2 n k (OEnv.mk (PEnv.init L1 L2) false).env w :=
    ⟨0, 0, AccL.of (acc_init L1 L2 h1 h2 w hc hq)⟩
  generalize OEnv.mk (PEnv.init L1 L2) false = E0 at h0 hh ⊢
  generalize w.k.isOpen = ext at h0
  generalize w.k.isMapped = extm at h0
  clear hc hq
  induction ops generalizing E0 w with
  | nil => exact fun h => nomatch h
  | cons x ops ih =>
    obtain ⟨mem, op⟩ := x
    intro hf
    unfold OEnv.run at hf
    rw [bind_eq] at hf
    have hv1 : ValidPOps [op] := fun h d hm => hv h d (by
      rw [List.mem_singleton] at hm; rw [hm]; exact List.mem_cons_self)
    have hv2 : ValidPOps (ops.map (·.2)) := fun h d hm => hv h d (List.mem_cons_of_mem _ hm)
    have hm1 : ∀ h, op = .write h .close → mem.message = true := fun h e => hm mem h (by rw [e]; exact List.mem_cons_self)
    have hm2 : CloseHasMemory ops := fun mem h e => hm mem h (List.mem_cons_of_mem _ e)
    have hH := hh [] mem op ops E0 [] w rfl rfl (by simp) (by simp)
    obtain ⟨n, k, h0⟩ := h0
    cases hx : E0.step strerror full mem op w with
    | fault f =>
      obtain ⟨F, M, _, _, _, _, hA⟩ := h0
      exact stepO_nofault strerror full hA mem op hH hv1 f hx
    | crash w1 => rw [hx] at hf; exact nomatch hf
    | done r w1 =>
      obtain ⟨E1, a⟩ := r
      rw [hx] at hf
      by_cases ha : a ≠ .hangs ∧ a ≠ .ended
      · have hA : ∃ n k, AccL ext extm L1 L2 n k E1.env w1 := by
          obtain ⟨k', _, h⟩ := h0.trans (K := fun k => k ≤ _)
            (fun _ _ _ h => stepO_acc strerror full h mem op hH hv1 hm1 hx ha.2)
          exact ⟨_, _, h⟩
        have hi := ih w1 hv2 hm2 E1 (by
          intro pre mem' op' post E as w' he hr g1 g2
          refine hh ((mem, op) :: pre) mem' op' post E (a :: as) w' (by rw [he]; rfl) (runO_cons strerror full hx ha hr) ?_ ?_
          · intro hc
            rcases List.mem_cons.1 hc with hc | hc
            · exact ha.1 hc.symm
            · exact g1 hc
          · intro hc
            rcases List.mem_cons.1 hc with hc | hc
            · exact ha.2 hc.symm
            · exact g2 hc) hA
        have fin : (match E1.run strerror full ops w1 with
            | .done r w => (Pure.pure (r.1, a :: r.2) : P (OEnv × List Ans)) w
            | .crash w => .crash w
            | .fault f => .fault f) = .fault f → False := by
          cases hy : OEnv.run strerror full E1 ops w1 with
          | fault g => intro hf; injection hf with hf; exact hi (by rw [hy, hf])
          | crash w2 => intro hf; exact nomatch hf
          | done r2 w2 => intro hf; exact nomatch hf
        cases a with
        | hangs => exact absurd rfl ha.1
        | ended => exact absurd rfl ha.2
        | res r =>
          simp only [bind_eq] at hf
          refine fin ?_
          revert hf
          cases OEnv.run strerror full E1 ops w1 <;> exact id
        | threw =>
          simp only [bind_eq] at hf
          refine fin ?_
          revert hf
          cases OEnv.run strerror full E1 ops w1 <;> exact id
      · cases a with
        | hangs => exact nomatch hf
        | ended => exact nomatch hf
        | res r => exact ha ⟨(fun h => nomatch h), (fun h => nomatch h)⟩
        | threw => exact ha ⟨(fun h => nomatch h), (fun h => nomatch h)⟩

/-! ## Locks -/

/-- C91: the part that holds: whatever threw, no two locks with the same name are ever held. -/
theorem C91_locks_exclude_partial (a b : Int) (ops : List (PMem × POp)) (w w' : World) (E : OEnv) (as : List Ans)
    (hr : (OEnv.mk (PEnv.init a b) false).run strerror full ops w = .done (E, as) w') :
    (heldLocksO ops as).Pairwise (fun x y => x.2 ≠ y.2) := by
  obtain ⟨_, h, _⟩ := (runO_locks strerror full ops (HeldInvL.init a b) w _ w' hr).inv
  exact h.pw

/-- C91: the part that holds: a name can be locked unless it is held or a LockFile for it threw, as long as no LockFile
left the table's mutex locked: if the file opens and the kernel grants the lock, LockFile returns OK and a new lock. -/
theorem C91_locks_again_partial (a b : Int) (ops : List (PMem × POp)) (w w' w1 w2 : World) (E : OEnv) (as : List Ans)
    (hr : (OEnv.mk (PEnv.init a b) false).run strerror full ops w = .done (E, as) w') (n : Bytes)
    (hn : ∀ h, (h, n) ∉ heldLocksO ops as) (ht : ¬ LockThrew ops as n)
    (hu : ∀ mem m, (mem, POp.lockFile m) ∈ ops → mem.node = true)
    (fd : Int) (ho : sysOpen .rdwr n w' = .done (.ok fd) w1) (hf : sysOther w1 = .done (.ok ()) w2) :
    ∃ h E', E.step strerror full .plenty (.lockFile n) w' = .done (E', .res (.opened .ok (some h))) w2 ∧
      E'.env.has h (.lock fd n) ∧ ∀ o, ¬ E.env.has h o := by
  obtain ⟨lost, h, _, hl⟩ := (runO_locks strerror full ops (HeldInvL.init a b) w _ w' hr).inv
  have hL : E.locked = false := runO_unlocked strerror full ops rfl hu w _ w' hr
  have hnt : n ∉ E.env.locks := by
    intro hm
    rcases (h.table n).1 hm with ⟨i, hi⟩ | hi
    · exact hn i hi
    · rcases hl n hi with hi | hi
      · cases hi
      · exact ht hi
  refine ⟨E.env.objs.length, { E with env := ({ E.env with locks := n :: E.env.locks }.alloc (.lock fd n)).2 }, ?_, ?_, ?_⟩
  · unfold OEnv.step OEnv.LockFile
    dsimp only
    rw [bind_eq, ho]
    unfold lockInsert
    simp only [hL, hnt, if_true, if_false, Bool.false_eq_true, show PMem.plenty.node = true from rfl]
    rw [bind_eq, hf]
    rfl
  · exact (has_alloc _ _ _ _).2 (.inr ⟨rfl, rfl⟩)
  · intro o h
    unfold PEnv.has at h
    rw [List.getElem?_eq_none (le_refl _)] at h
    exact nomatch h

/-- C91 is violated: LockFile that throws since there is no memory for the lock object has locked the name already: no
later LockFile of that name returns OK, whatever the client does and however much memory there is. -/
theorem C91_lock_lost_violated (a b : Int) (pre post : List (PMem × POp)) (w w1 w2 w3 : World) (E1 E2 E3 : OEnv)
    (as1 as3 : List Ans) (mem : PMem) (n : Bytes)
    (hr : (OEnv.mk (PEnv.init a b) false).run strerror full pre w = .done (E1, as1) w1)
    (hs : E1.step strerror full mem (.lockFile n) w1 = .done (E2, .threw) w2) (h1 : mem.message = true) (h2 : mem.node = true)
    (hp : E2.run strerror full post w2 = .done (E3, as3) w3) (mem' : PMem) (x : Option Nat) :
    ((mem', POp.lockFile n), Ans.res (.opened .ok x)) ∉ post.zip as3 := by
  obtain ⟨_, h, _⟩ := (runO_locks strerror full pre (HeldInvL.init a b) w _ w1 hr).inv
  obtain ⟨lost, h', _, _, h4⟩ := (stepO_locks strerror full h mem (.lockFile n) w1 _ w2 hs).inv
  exact (runO_locks strerror full post h' w2 _ w3 hp).refused n (h4 n rfl h1 h2 rfl) mem' x

/-- C91 is violated: LockFile that throws since there is no memory for the entry of the table leaves the mutex of the
table locked: no later LockFile of any name and no later UnlockFile returns OK. -/
theorem C91_lock_table_lost_violated (a b : Int) (pre post : List (PMem × POp)) (w w1 w2 w3 : World) (E1 E2 E3 : OEnv)
    (as1 as3 : List Ans) (mem : PMem) (n : Bytes)
    (hr : (OEnv.mk (PEnv.init a b) false).run strerror full pre w = .done (E1, as1) w1)
    (hs : E1.step strerror full mem (.lockFile n) w1 = .done (E2, .threw) w2) (h1 : mem.message = true) (h2 : mem.node = false)
    (hp : E2.run strerror full post w2 = .done (E3, as3) w3) :
    (∀ mem' m x, ((mem', POp.lockFile m), Ans.res (.opened .ok x)) ∉ post.zip as3) ∧
      ∀ mem' h, ((mem', POp.unlockFile h), Ans.res (.status .ok)) ∉ post.zip as3 := by
  obtain ⟨_, h, _⟩ := (runO_locks strerror full pre (HeldInvL.init a b) w _ w1 hr).inv
  obtain ⟨lost, h', _⟩ := (stepO_locks strerror full h mem (.lockFile n) w1 _ w2 hs).inv
  have hk : E2.locked = true := (LockFileO_mutex strerror E1 mem n w1 _ w2 hs).2 rfl h1 h2
  exact ((runO_locks strerror full post h' w2 _ w3 hp).locked hk).2

/-! ## Throwing after the fact -/

/-- C91 is violated: the calls that open something throw after they have done it: where the call would have returned OK
and an object, the same call without memory for the object has made the same system calls - it has emptied the file,
taken the lock - and the client has nothing to give back. -/
theorem C91_throws_after_the_fact_violated (mem : PMem) (h1 : mem.object = false) (h2 : mem.node = true) (E : OEnv)
    (hl : E.locked = false) (op : POp)
    (ho : (∃ n, op = .newSequential n) ∨ (∃ n, op = .newWritable n) ∨ (∃ n, op = .newAppendable n) ∨ (∃ n, op = .newLogger n) ∨
      ∃ n, op = .lockFile n) (e' : PEnv) (h : Option Nat) (w w' : World)
    (hr : E.env.step strerror full op w = .done (e', .opened .ok h) w') :
    ∃ E', E.step strerror full mem op w = .done (E', .threw) w' ∧ E'.env.objs = E.env.objs ∧ E'.env.locks = e'.locks := by
  have hand : ∀ (F : OEnv) (o : Obj), F.hand mem o = (F, .threw) := fun F o => by
    unfold OEnv.hand; rw [h1]; simp only [Bool.false_eq_true, ↓reduceIte]
  have bad : ∀ {G : Prop} {n : Bytes} {err : Errno} {w1 : World}, Out.done (E.env, PRes.opened (PosixError strerror n err) none) w1 =
      .done (e', .opened .ok h) w' → G := by
    intro G n err w1 hr
    injection hr with hr _
    injection hr with _ hr
    injection hr with hr _
    exact absurd hr (PosixError_ne_ok _ _ _)
  have wr : ∀ (m : Mode) (n : Bytes), (do let (s, h, e) ← E.env.newWFile strerror m n; return (e, .opened s h) : P (PEnv × PRes)) w =
      .done (e', .opened .ok h) w' → ∃ E', E.newWFile strerror mem m n w = .done (E', .threw) w' ∧
        E'.env.objs = E.env.objs ∧ E'.env.locks = e'.locks := by
    intro m n hr
    simp only [PEnv.newWFile, OEnv.newWFile, bind_eq] at hr ⊢
    cases hx : sysOpen m n w with
    | crash w1 => simp only [hx] at hr; exact nomatch hr
    | fault f => simp only [hx] at hr; exact nomatch hr
    | done r w1 =>
      simp only [hx] at hr ⊢
      cases r with
      | error err => exact bad hr
      | ok fd =>
        obtain ⟨mf, d, _, _, n3⟩ := new_eq n fd
        simp only [n3, bind_eq, pureM] at hr ⊢
        injection hr with hr hw
        injection hr with hr _
        refine ⟨E, ?_, rfl, by rw [← hr]; rfl⟩
        simp only [hand, pure_eq, hw]
  rcases ho with ⟨n, rfl⟩ | ⟨n, rfl⟩ | ⟨n, rfl⟩ | ⟨n, rfl⟩ | ⟨n, rfl⟩
  · simp only [PEnv.step, PEnv.NewSequentialFile, OEnv.step, OEnv.NewSequentialFile, bind_eq] at hr ⊢
    cases hx : sysOpen .rdonly n w with
    | crash w1 => simp only [hx] at hr; exact nomatch hr
    | fault f => simp only [hx] at hr; exact nomatch hr
    | done r w1 =>
      simp only [hx] at hr ⊢
      cases r with
      | error err => exact bad hr
      | ok fd =>
        injection hr with hr hw
        injection hr with hr _
        refine ⟨E, ?_, rfl, by rw [← hr]; rfl⟩
        simp only [hand, pure_eq, hw]
  · exact wr .trunc n hr
  · exact wr .append n hr
  · simp only [PEnv.step, PEnv.NewLogger, OEnv.step, OEnv.NewLogger, bind_eq] at hr ⊢
    cases hx : sysOpen .append n w with
    | crash w1 => simp only [hx] at hr; exact nomatch hr
    | fault f => simp only [hx] at hr; exact nomatch hr
    | done r w1 =>
      simp only [hx] at hr ⊢
      cases r with
      | error err => exact bad hr
      | ok fd =>
        simp only [bind_eq] at hr ⊢
        cases hy : sysOther w1 with
        | crash w1 => simp only [hy] at hr; exact nomatch hr
        | fault f => simp only [hy] at hr; exact nomatch hr
        | done r w2 =>
          simp only [hy] at hr ⊢
          cases r with
          | error err =>
            exfalso
            simp only [bind_eq] at hr
            cases hz : sysClose fd w2 with
            | crash w1 => simp only [hz] at hr; exact nomatch hr
            | fault f => simp only [hz] at hr; exact nomatch hr
            | done r w3 =>
              simp only [hz] at hr
              cases r with
              | error err =>
                injection hr with hr _
                injection hr with _ hr
                injection hr with hr _
                exact absurd hr (PosixError_ne_ok _ _ _)
              | ok _ =>
                injection hr with hr _
                injection hr with _ hr
                injection hr with hr _
                exact absurd hr (PosixError_ne_ok _ _ _)
          | ok _ =>
            injection hr with hr hw
            injection hr with hr _
            refine ⟨E, ?_, rfl, by rw [← hr]; rfl⟩
            simp only [hand, pure_eq, hw]
  · simp only [PEnv.step, PEnv.LockFile, OEnv.step, OEnv.LockFile, bind_eq] at hr ⊢
    cases hx : sysOpen .rdwr n w with
    | crash w1 => simp only [hx] at hr; exact nomatch hr
    | fault f => simp only [hx] at hr; exact nomatch hr
    | done r w1 =>
      simp only [hx] at hr ⊢
      cases r with
      | error err => exact bad hr
      | ok fd =>
        simp only [hl, h2, Bool.false_eq_true, if_false, if_true] at hr ⊢
        by_cases hi : (lockInsert E.env.locks n).1 = true
        · simp only [if_pos hi, bind_eq] at hr ⊢
          cases hy : sysOther w1 with
          | crash w1 => simp only [hy] at hr; exact nomatch hr
          | fault f => simp only [hy] at hr; exact nomatch hr
          | done r w2 =>
            simp only [hy] at hr ⊢
            cases r with
            | error err =>
              exfalso
              simp only [bind_eq] at hr
              cases hz : sysClose fd w2 with
              | crash w1 => simp only [hz] at hr; exact nomatch hr
              | fault f => simp only [hz] at hr; exact nomatch hr
              | done r w3 =>
                simp only [hz] at hr
                injection hr with hr _
                injection hr with _ hr
                injection hr with hr _
                exact absurd hr (PosixError_ne_ok _ _ _)
            | ok _ =>
              injection hr with hr hw
              injection hr with hr _
              refine ⟨{ E with env := { E.env with locks := (lockInsert E.env.locks n).2 } }, ?_, rfl, by rw [← hr]; rfl⟩
              simp only [hand, pure_eq, hw, hl]
        · simp only [if_neg hi, bind_eq] at hr
          exfalso
          cases hz : sysClose fd w1 with
          | crash w1 => simp only [hz] at hr; exact nomatch hr
          | fault f => simp only [hz] at hr; exact nomatch hr
          | done r w3 =>
            simp only [hz] at hr
            injection hr with hr _
            injection hr with _ hr
            injection hr with hr _
            exact nomatch hr

/-! ## Concrete histories -/

/-- The answers, the limiters, which descriptors are open and which mappings exist. -/
def accountsO (o : Out (OEnv × List Ans)) : Option (List Ans × Int × Int × List Bool × List Bool) :=
  match o with
  | .done (E, as) w => some (as, E.env.mmap_limiter, E.env.fd_limiter, w.k.fds.map (·.isSome), w.k.maps.map (·.isSome))
  | _ => none

/-- The answers and what the file with inode `i` contains. -/
def seenO (i : Nat) (o : Out (OEnv × List Ans)) : Option (List Ans × Option Bytes) :=
  match o with
  | .done (E, as) w => some (as, Contents w.k i)
  | _ => none

/-- No memory for objects. -/
def noObject : PMem := { PMem.plenty with object := false }
/-- No memory for an error status. -/
def noMessage : PMem := { PMem.plenty with message := false }
/-- No memory for a node of the set of locked names. -/
def noNode : PMem := { PMem.plenty with node := false }

/-- C91 is violated: NewRandomAccessFile that throws takes the descriptor, the mapping and the slot with it. -/
theorem C91_random_access_leak_violated :
    accountsO ((OEnv.mk (PEnv.init 1 1) false).run (fun _ => []) false
      [(noObject, .newRandomAccess (lit "/db/t"))] ⟨tableKernel, List.replicate 4 calm, []⟩) =
    some ([.threw], 0, 1, [true, true], [true]) := by
  decide +kernel

/-- C91 is violated: Flush that throws keeps bytes in the buffer that are in the file already; they are written twice. -/
theorem C91_flush_twice_violated :
    seenO 2 ((OEnv.mk (PEnv.init 1 1) false).run (fun _ => []) false
      [(.plenty, .newWritable (lit "/db/t")), (.plenty, .write 0 (.append (Slice.ofBytes [97, 98, 99]))),
       (noMessage, .write 0 .flush), (.plenty, .write 0 .flush)]
      ⟨tableKernel, [calm, { count := 2 }, { fail := some 28 }, calm], []⟩) =
    some ([.res (.opened .ok (some 0)), .res (.status .ok), .threw, .res (.status .ok)], some [97, 98, 97, 98, 99]) := by
  decide +kernel

/-- C91 is violated: Close that throws since there is no memory for the error of `close(2)` leaves the object with the
closed descriptor; deleting it closes the descriptor of another file, whose writes then fail. -/
theorem C91_close_twice_violated :
    accountsO ((OEnv.mk (PEnv.init 1 1) false).run (fun _ => []) false
      [(.plenty, .newWritable (lit "/db/t")), (noMessage, .write 0 .close), (.plenty, .newWritable (lit "/db/u")),
       (.plenty, .delete 0), (.plenty, .write 1 (.append (Slice.ofBytes [97]))), (.plenty, .write 1 .flush)]
      ⟨tableKernel, [calm, { fail := some 5 }, calm, calm, calm], []⟩) =
    some ([.res (.opened .ok (some 0)), .threw, .res (.opened .ok (some 1)), .res .unit, .res (.status .ok),
      .res (.status (.err .ioError (lit "/db/u") []))], 1, 1, [true, false], []) := by
  decide +kernel

/-- C91 is violated: deleting a file whose last bytes cannot be written ends the process when there is no memory for the
error nobody would see. -/
theorem C91_delete_ends_violated :
    accountsO ((OEnv.mk (PEnv.init 1 1) false).run (fun _ => []) false
      [(.plenty, .newWritable (lit "/db/t")), (.plenty, .write 0 (.append (Slice.ofBytes [97]))), (noMessage, .delete 0)]
      ⟨tableKernel, [calm, { fail := some 28 }, calm], []⟩) =
    some ([.res (.opened .ok (some 0)), .res (.status .ok), .ended], 1, 1, [true, true], []) := by
  decide +kernel

/-- A history for the theorems above: three calls throw (a descriptor is lost twice, a slot and a mapping once), the other
calls go on. -/
def shortOps : List (PMem × POp) :=
  [(noObject, .newRandomAccess (lit "/db/t")), (.plenty, .newRandomAccess (lit "/db/t")), (.plenty, .randRead 0 1 2),
   (noObject, .lockFile (lit "/db/t")), (.plenty, .lockFile (lit "/db/t")), (.plenty, .lockFile (lit "/db/u")),
   (noMessage, .removeFile (lit "/db/x"))]

example : accountsO ((OEnv.mk (PEnv.init 1 1) false).run (fun _ => []) false shortOps ⟨tableKernel, List.replicate 20 calm, []⟩) =
    some ([.threw, .res (.opened .ok (some 0)), .res (.data .ok (some [2, 3])), .threw,
      .res (.opened (.err .ioError (lit "lock /db/t") (lit "already held by process")) none), .res (.opened .ok (some 1)), .threw],
      0, 0, [true, true, true, true, true], [true]) := by
  decide +kernel

example : CloseHasMemory shortOps ∧ ValidPOps (shortOps.map (·.2)) := by
  refine ⟨fun mem h hm => ?_, fun h d hm => ?_⟩ <;> simp [shortOps] at hm

/-- The mutex of the table stays locked: the next LockFile waits for ever. -/
example : accountsO ((OEnv.mk (PEnv.init 1 1) false).run (fun _ => []) false
      [(noNode, .lockFile (lit "/db/t")), (.plenty, .fileExists (lit "/db/t")), (.plenty, .lockFile (lit "/db/u")),
       (.plenty, .fileExists (lit "/db/t"))]
      ⟨tableKernel, List.replicate 20 calm, []⟩) =
    some ([.threw, .res (.bool true), .hangs], 1, 1, [true, true, true], []) := by
  decide +kernel

/-- With memory: `C91_throws_only_when_short`. -/
example : accountsO ((OEnv.mk (PEnv.init 1 1) false).run (fun _ => []) false (tableOps.map (fun o => (PMem.plenty, o)))
      ⟨tableKernel, [calm, calm, { fail := some 12 }, calm, calm, calm, calm, calm, calm, calm, calm, calm, calm, calm, calm, calm], []⟩) =
    some ([.res (.opened (.err .ioError (lit "/db/t") []) none), .res (.opened .ok (some 0)), .res (.opened .ok (some 1)),
      .res (.opened .ok (some 2)), .res (.view .ok (.view 0 1 2)), .res (.data .ok (some [2, 3])), .res (.data .ok (some [2, 3]))],
      0, 0, [true, true, false], [true]) := by
  decide +kernel

end Posix
end Lsmdb
