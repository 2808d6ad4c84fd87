import Verif.Proof.PosixConc8
import Verif.Props.PosixEnv

/-!
# The POSIX Env used by several threads keeps its accounts (C92)
-/

namespace Lsmdb
namespace Posix
namespace Conc

open MemEnv (St lit)

variable {strerror : Strerror} {full : Bool}

/-- The hypotheses of C92: a process creates an Env with limits `L1` (mappings) and `L2` (files kept open) and uses it
from `n` threads; nobody else in the process opens or closes descriptors; the limits leave room for one more
decrement per thread in an `int`. -/
structure Setting (w : World) (L1 L2 : Int) (n : Nat) : Prop where
  calls : w.calls = []
  quiet : ∀ x ∈ w.choices, KeepsFds x
  room1 : -2147483648 + n ≤ min 0 L1 ∧ L1 ≤ 2147483647
  room2 : -2147483648 + n ≤ min 0 L2 ∧ L2 ≤ 2147483647

theorem Setting.inv {w : World} {L1 L2 : Int} {n : Nat} (h : Setting w L1 L2 n) {es : List Ev} {c : Conf}
    (hr : Run strerror full (Conf.init w L1 L2 n) es c) :
    ∃ fo mo lo gs, Inv w.k.isOpen w.k.isMapped (fun | .mmap => L1 | .fd => L2) c fo mo lo gs := by
  refine Inv.all strerror full hr (Inv.init h.calls h.quiet ?_ ?_)
  · have := h.room1
    exact ⟨⟨by omega, by omega⟩, by omega⟩
  · have := h.room2
    exact ⟨⟨by omega, by omega⟩, by omega⟩

/-- C92: at every moment of every interleaving, whatever system calls fail, the accounts are right. -/
theorem C92_accounts {w : World} {L1 L2 : Int} {n : Nat} (h : Setting w L1 L2 n) {es : List Ev} {c : Conf}
    (hr : Run strerror full (Conf.init w L1 L2 n) es c) : Kept L1 L2 w c := by
  obtain ⟨fo, mo, lo, gs, H⟩ := h.inv hr
  exact H.kept (fun _ => Iff.rfl) fun _ => Iff.rfl

/-- C92: at every moment of every interleaving the next step of every thread touches only what belongs to its call:
no thread closes, writes to or unmaps what another thread, an object or somebody outside of the Env has. -/
theorem C92_no_interference {w : World} {L1 L2 : Int} {n : Nat} (h : Setting w L1 L2 n) {es : List Ev} {c : Conf}
    (hr : Run strerror full (Conf.init w L1 L2 n) es c) : Safe w c := by
  obtain ⟨fo, mo, lo, gs, H⟩ := h.inv hr
  exact H.safe (fun _ => Iff.rfl) fun _ => Iff.rfl

theorem sys_ok {α : Type} (call : α → List Call) (f : Choice → Kernel → α × Kernel) (w : World) :
    (∃ r w', sys call f w = .done r w') ∨ (w.choices = [] ∧ sys call f w = .crash w) := by
  unfold sys
  cases hc : w.choices with
  | nil => exact .inr ⟨rfl, rfl⟩
  | cons x xs => exact .inl ⟨_, _, rfl⟩

theorem keep_ok {α : Type} {s : Shared} {w : World} {x : P α}
    (h : (∃ r w', x w = .done r w') ∨ (w.choices = [] ∧ x w = .crash w)) :
    (∃ r sh w', keep s x w = .done (r, sh) w') ∨ (w.choices = [] ∧ keep s x w = .crash w) := by
  unfold keep
  rcases h with ⟨r, w', h⟩ | ⟨h0, h⟩
  · exact .inl ⟨r, s, w', by rw [h]⟩
  · exact .inr ⟨h0, by rw [h]⟩

theorem exec_ok (s : Shared) (cmd : Cmd) (w : World) :
    (∃ r sh w', cmd.exec s w = .done (r, sh) w') ∨ (w.choices = [] ∧ cmd.exec s w = .crash w) := by
  cases cmd with
  | fetchSub l => exact .inl ⟨_, _, _, rfl⟩
  | fetchAdd l => exact .inl ⟨_, _, _, rfl⟩
  | insert l => exact .inl ⟨_, _, _, rfl⟩
  | remove l => exact .inl ⟨_, _, _, rfl⟩
  | _ => exact keep_ok (sys_ok _ _ _)

/-- C92: no call waits for another one: a thread in a call can always take its next step or return, whatever the
other threads are doing, as long as the process lives. -/
theorem C92_no_waiting {w : World} {L1 L2 : Int} {n : Nat} (h : Setting w L1 L2 n) {es : List Ev} {c : Conf}
    (hr : Run strerror full (Conf.init w L1 L2 n) es c) (ha : c.w.choices ≠ []) (t : Nat) (home : Home) (p : Prog Fin)
    (ht : c.th[t]? = some (.run home p)) (hs : p ≠ .spin) : ∃ e c', Step strerror full c e c' ∧ c'.th[t]? ≠ c.th[t]? ∧
      ∀ u, u ≠ t → c'.th[u]? = c.th[u]? := by
  have hlt : t < c.th.length := (List.getElem?_eq_some_iff.mp ht).1
  cases p with
  | spin => exact (hs rfl).elim
  | fault f => exact ((C92_no_interference h hr).no_fault t home f ht).elim
  | ret a =>
    refine ⟨_, _, .ret c t home a ht, ?_, fun u hu => ?_⟩
    · rw [ht]
      have : (c.finish t home a).1.th[t]? = some .idle := by
        cases a <;> exact List.getElem?_set_self hlt
      rw [this]; simp
    · cases a <;> exact List.getElem?_set_ne (Ne.symm hu)
  | call cmd k =>
    rcases exec_ok c.sh cmd c.w with ⟨r, sh, w', he⟩ | ⟨h0, _⟩
    · refine ⟨_, _, .move c t home cmd k r sh w' ht he, ?_, fun u hu => List.getElem?_set_ne (Ne.symm hu)⟩
      rw [ht]
      show (c.th.set t _)[t]? ≠ _
      rw [List.getElem?_set_self hlt]
      intro e
      injection e with e
      injection e with _ e
      exact prog_ne cmd k r rfl e
    · exact (ha h0).elim

/-- C92: when no call is running the accounts are those of a single thread (C54). -/
theorem C92_quiet {w : World} {L1 L2 : Int} {n : Nat} (h : Setting w L1 L2 n) {es : List Ev} {c : Conf}
    (hr : Run strerror full (Conf.init w L1 L2 n) es c) (hq : c.quiet) :
    Accounted L1 L2 w c.env c.w ∧ ∀ name, name ∈ c.sh.locks ↔ ∃ i fd, c.has i (.lock fd name) := by
  have K := C92_accounts h hr
  have hb : c.busy = 0 := by
    unfold Conf.busy
    rw [List.length_eq_zero_iff, List.filter_eq_nil_iff]
    intro x hx
    obtain ⟨t, ht⟩ := List.getElem?_of_mem hx
    cases x with
    | idle => simp [Thread.busy]
    | run home p => exact (hq t ⟨home, p, ht⟩).elim
  have s1 := K.mmap_slots
  have s2 := K.fd_slots
  rw [hb] at s1 s2
  refine ⟨⟨fun i => ⟨fun hi => ?_, ?_⟩, fun a b o o' i => K.fd_owner a b o o' i, fun a o i ho hi => (K.fds a o i ho hi).2,
    fun i => ⟨fun hi => ?_, ?_⟩, fun a b o o' i => K.map_owner a b o o' i, fun a o i ho hi => (K.maps a o i ho hi).2,
    fun fd err hm _ => K.closes fd err hm, ?_, ?_, K.mmap_limit, K.fd_limit⟩, fun name => ⟨fun hn => ?_, ?_⟩⟩
  · rcases K.fd_rest i hi with h1 | h1 | ⟨t, h1⟩
    · exact .inl h1
    · exact .inr h1
    · exact (hq t h1).elim
  · rintro (h1 | ⟨a, o, h1, h2⟩)
    · exact K.foreign_fds i h1
    · exact (K.fds a o i h1 h2).1
  · rcases K.map_rest i hi with h1 | h1 | ⟨t, h1⟩
    · exact .inl h1
    · exact .inr h1
    · exact (hq t h1).elim
  · rintro (h1 | ⟨a, o, h1, h2⟩)
    · exact K.foreign_maps i h1
    · exact (K.maps a o i h1 h2).1
  · show c.sh.mmap_limiter = L1 - c.count Obj.isMmap
    omega
  · show c.sh.fd_limiter = L2 - c.count Obj.isPermanent
    omega
  · rcases K.lock_rest name hn with h1 | ⟨t, h1⟩
    · exact h1
    · exact (hq t h1).elim
  · rintro ⟨a, fd, h1⟩
    exact K.locked a fd name h1

/-- C92: once no call is running and every object is gone nothing is left: no descriptor, no mapping, no slot, no lock. -/
theorem C92_all_released {w : World} {L1 L2 : Int} {n : Nat} (h : Setting w L1 L2 n) {es : List Ev} {c : Conf}
    (hr : Run strerror full (Conf.init w L1 L2 n) es c) (hq : c.quiet) (hd : ∀ i o, ¬ c.has i o) :
    (∀ i, c.w.k.isOpen i ↔ w.k.isOpen i) ∧ (∀ m, c.w.k.isMapped m ↔ w.k.isMapped m) ∧ c.sh.mmap_limiter = L1 ∧
      c.sh.fd_limiter = L2 ∧ c.sh.locks = [] := by
  obtain ⟨A, hl⟩ := C92_quiet h hr hq
  obtain ⟨h1, h2, h3, h4⟩ := C54_all_released A hd
  refine ⟨h1, h2, h3, h4, ?_⟩
  rw [List.eq_nil_iff_forall_not_mem]
  intro name hn
  obtain ⟨i, fd, hi⟩ := (hl name).1 hn
  exact hd i _ hi

theorem get_done {α : Type} {e : PEnv} {h : Nat} {f : Obj → P α} {w w' : World} {x : α}
    (hx : (pureM (e.get h) >>= f) w = .done x w') : ∃ o, e.objs[h]? = some (some o) ∧ f o w = .done x w' := by
  unfold PEnv.get at hx
  cases ho : e.objs[h]? with
  | none => rw [ho] at hx; exact nomatch hx
  | some y =>
    cases y with
    | none => rw [ho] at hx; exact nomatch hx
    | some o => rw [ho] at hx; exact ⟨o, rfl, hx⟩

/-- A call that the model of one thread carries out is one a client may make. -/
theorem allowed_of_done {e e' : PEnv} {op : POp} {r : PRes} {w w' : World} {n : Nat} {sh : Shared} (hv : ∀ h d, op = .write h (.append d) → d.WF)
    (hx : e.step strerror full op w = .done (e', r) w') : Conf.Allowed ⟨w, sh, e.objs, List.replicate n .idle⟩ op := by
  refine ⟨hv, ?_⟩
  cases op with
  | unlockFile h =>
    simp only [PEnv.step, PEnv.UnlockFile, bindAP] at hx
    obtain ⟨o, ho, hx⟩ := get_done hx
    cases o with
    | lock fd n => exact ⟨fd, n, ho⟩
    | _ => exact nomatch hx
  | seqRead h n =>
    obtain ⟨o, ho, hx⟩ := get_done hx
    cases o with
    | seq f => exact ⟨f, ho⟩
    | _ => exact nomatch hx
  | seqSkip h n =>
    obtain ⟨o, ho, hx⟩ := get_done hx
    cases o with
    | seq f => exact ⟨f, ho⟩
    | _ => exact nomatch hx
  | randRead h off n =>
    obtain ⟨o, ho, hx⟩ := get_done hx
    cases o with
    | rand f => exact .inl ⟨f, ho⟩
    | mmap f => exact .inr ⟨f, ho⟩
    | _ => exact nomatch hx
  | write h n =>
    obtain ⟨o, ho, hx⟩ := get_done hx
    cases o with
    | wr f => exact ⟨f, ho⟩
    | _ => exact nomatch hx
  | delete h =>
    simp only [PEnv.step, PEnv.delete, bindAP] at hx
    obtain ⟨o, ho, hx⟩ := get_done hx
    refine ⟨⟨o, ho, ?_⟩, ?_⟩
    · intro fd n e
      subst e
      exact nomatch hx
    · intro t ht
      rw [List.eq_of_mem_replicate ht]
      exact fun e => nomatch e
  | _ => exact trivial

theorem run_history {n t : Nat} (ht : t < n) : ∀ (ops : List POp) (hv : ValidPOps ops) (e0 e : PEnv) (w w' : World) (rs : List PRes),
    e0.run strerror full ops w = .done (e, rs) w' →
    Run strerror full ⟨w, sharedOf e0, e0.objs, List.replicate n .idle⟩ ((ops.zip rs).flatMap fun x => [.call t x.1, .ret t x.2])
      ⟨w', sharedOf e, e.objs, List.replicate n .idle⟩ := by
  intro ops
  induction ops with
  | nil =>
    intro _ e0 e w w' rs h
    injection h with h1 h2
    injection h1 with h1 h3
    subst h1 h2 h3
    exact .nil _
  | cons op ops ih =>
    intro hv e0 e w w' rs h
    unfold PEnv.run at h
    rw [bindP] at h
    cases h1 : e0.step strerror full op w with
    | crash w1 => rw [h1] at h; exact nomatch h
    | fault f => rw [h1] at h; exact nomatch h
    | done x w1 =>
      rw [h1] at h
      obtain ⟨e1, r⟩ := x
      simp only [onward] at h
      rw [bindP] at h
      cases h2 : e1.run strerror full ops w1 with
      | crash w2 => rw [h2] at h; exact nomatch h
      | fault f => rw [h2] at h; exact nomatch h
      | done y w2 =>
        rw [h2] at h
        obtain ⟨e2, rs2⟩ := y
        injection h with h3 h4
        injection h3 with h3 h5
        subst h3 h4 h5
        have a := run_alone (th := List.replicate n .idle) (t := t) (by rw [List.getElem?_replicate, if_pos ht])
          (allowed_of_done (fun i d he => hv i d (by rw [he]; exact List.mem_cons_self)) h1) h1
        have b := ih (fun i d hm => hv i d (List.mem_cons_of_mem _ hm)) e1 e2 w1 w2 rs2 h2
        exact run_append a b

/-- C92: calls that do not overlap are the calls of the model of one thread: every history of calls of that model is a run of the
machine of threads (here made by thread `t`, with the other threads idle). -/
theorem C92_sequential {w w' : World} {L1 L2 : Int} {n t : Nat} (ht : t < n) {ops : List POp} (hv : ValidPOps ops) {e : PEnv}
    {rs : List PRes} (hr : (PEnv.init L1 L2).run strerror full ops w = .done (e, rs) w') :
    Run strerror full (Conf.init w L1 L2 n) ((ops.zip rs).flatMap fun x => [.call t x.1, .ret t x.2])
      ⟨w', ⟨e.locks, e.mmap_limiter, e.fd_limiter⟩, e.objs, List.replicate n .idle⟩ :=
  run_history ht ops hv _ _ _ _ _ hr

/-! ## Concrete runs -/

/-- What a schedule says: who does what next. -/
inductive Act where
  | call (t : Nat) (op : POp)
  | move (t : Nat)
  | ret (t : Nat)

/-- The client may make the call. -/
def allowedB (c : Conf) (op : POp) : Bool :=
  (match op with
    | .write _ (.append d) => decide d.WF
    | _ => true) &&
  match op with
  | .unlockFile h => match c.objs[h]? with | some (some (.lock _ _)) => true | _ => false
  | .seqRead h _ => match c.objs[h]? with | some (some (.seq _)) => true | _ => false
  | .seqSkip h _ => match c.objs[h]? with | some (some (.seq _)) => true | _ => false
  | .randRead h _ _ => match c.objs[h]? with | some (some (.rand _)) => true | some (some (.mmap _)) => true | _ => false
  | .write h _ => match c.objs[h]? with | some (some (.wr _)) => true | _ => false
  | .delete h => (match c.objs[h]? with | some (some (.lock _ _)) => false | some (some _) => true | _ => false) &&
      c.th.all (fun t => decide (t.home ≠ .reads h))
  | _ => true

theorem allowed_of_B {c : Conf} {op : POp} (h : allowedB c op = true) : c.Allowed op := by
  unfold allowedB at h
  rw [Bool.and_eq_true] at h
  obtain ⟨h1, h2⟩ := h
  refine ⟨?_, ?_⟩
  · intro i d e
    subst e
    simpa using h1
  · clear h1
    cases op with
    | delete i =>
      simp only [Bool.and_eq_true, List.all_eq_true, decide_eq_true_eq] at h2
      obtain ⟨h2, h3⟩ := h2
      refine ⟨?_, h3⟩
      split at h2
      · exact nomatch h2
      · rename_i o hn ho
        exact ⟨o, ho, fun fd n e => hn fd n (by rw [← e])⟩
      · exact nomatch h2
    | unlockFile i => dsimp only at h2; split at h2; exacts [⟨_, _, by assumption⟩, nomatch h2]
    | seqRead i n => dsimp only at h2; split at h2; exacts [⟨_, by assumption⟩, nomatch h2]
    | seqSkip i n => dsimp only at h2; split at h2; exacts [⟨_, by assumption⟩, nomatch h2]
    | write i n => dsimp only at h2; split at h2; exacts [⟨_, by assumption⟩, nomatch h2]
    | randRead i n m =>
      dsimp only at h2; split at h2; exacts [.inl ⟨_, by assumption⟩, .inr ⟨_, by assumption⟩, nomatch h2]
    | _ => exact trivial

/-- Follow a schedule. -/
def play (strerror : Strerror) (full : Bool) (fuel : Nat) : List Act → Conf → Option (List Ev × Conf)
  | [], c => some ([], c)
  | .call t op :: as, c =>
    match c.th[t]? with
    | some .idle =>
      if allowedB c op then
        match play strerror full fuel as (c.begin strerror full fuel t op) with
        | some (es, c') => some (.call t op :: es, c')
        | none => none
      else none
    | _ => none
  | .move t :: as, c =>
    match c.th[t]? with
    | some (.run home (.call cmd k)) =>
      match cmd.exec c.sh c.w with
      | .done (r, sh) w => play strerror full fuel as { c with w := w, sh := sh, th := c.th.set t (.run home (k r)) }
      | _ => none
    | _ => none
  | .ret t :: as, c =>
    match c.th[t]? with
    | some (.run home (.ret a)) =>
      match play strerror full fuel as (c.finish t home a).1 with
      | some (es, c') => some (.ret t (c.finish t home a).2 :: es, c')
      | none => none
    | _ => none

theorem play_run {strerror : Strerror} {full : Bool} {fuel : Nat} : ∀ (as : List Act) (c c' : Conf) (es : List Ev),
    play strerror full fuel as c = some (es, c') → Run strerror full c es c' := by
  intro as
  induction as with
  | nil => intro c c' es h; injection h with h; injection h with h1 h2; subst h1 h2; exact .nil _
  | cons a as ih =>
    intro c c' es h
    cases a with
    | call t op =>
      unfold play at h
      split at h
      · rename_i ht
        split at h
        · rename_i ha
          split at h
          · rename_i es1 c1 h1
            injection h with h; injection h with h2 h3; subst h2 h3
            exact run_append (.step (.nil c) (.call c t op fuel ht (allowed_of_B ha))) (ih _ _ _ h1)
          · exact nomatch h
        · exact nomatch h
      · exact nomatch h
    | move t =>
      unfold play at h
      split at h
      · rename_i home cmd k ht
        split at h
        · rename_i r sh w he
          exact run_append (.step (.nil c) (.move c t home cmd k r sh w ht he)) (ih _ _ _ h)
        · exact nomatch h
      · exact nomatch h
    | ret t =>
      unfold play at h
      split at h
      · rename_i home x ht
        split at h
        · rename_i es1 c1 h1
          injection h with h; injection h with h2 h3; subst h2 h3
          exact run_append (.step (.nil c) (.ret c t home x ht)) (ih _ _ _ h1)
        · exact nomatch h
      · exact nomatch h

/-- What is to be seen at the end of a schedule: the answers, the slots, the open descriptors and mappings, the locks. -/
structure SeenConc where
  answers : List (Nat × PRes)
  slots : List Int
  opened : List (List Bool)
  locks : List Bytes
  deriving DecidableEq

def seenConc (o : Option (List Ev × Conf)) : Option SeenConc :=
  match o with
  | some (es, c) => some ⟨es.filterMap (fun | .ret t r => some (t, r) | _ => none), [c.sh.mmap_limiter, c.sh.fd_limiter],
      [c.w.k.fds.map (·.isSome), c.w.k.maps.map (·.isSome)], c.sh.locks⟩
  | none => none

/-- The process of the examples. -/
def concStart : Conf := Conf.init ⟨tableKernel, List.replicate 40 calm, []⟩ 1 1 3

/-- Three threads open one file at the same time, with limits 1 and 1: all have opened a descriptor before the first
asks for a slot. -/
def openThree : List Act :=
  [.call 0 (.newRandomAccess (lit "/db/t")), .call 1 (.newRandomAccess (lit "/db/t")), .call 2 (.newRandomAccess (lit "/db/t")),
   .move 2, .move 0, .move 1, .move 1, .move 0, .move 2, .move 0, .move 2, .move 2, .move 0, .move 1, .ret 2, .move 0, .move 1, .move 0,
   .ret 0, .move 1, .ret 1]

/-- Two threads read from one object while the third deletes another; then two threads want one lock. -/
def mixed : List Act :=
  [.call 0 (.randRead 0 1 2), .call 1 (.randRead 0 0 1), .call 2 (.delete 2), .move 0, .move 2, .move 1, .ret 1, .ret 0,
   .call 0 (.lockFile (lit "/db/t")), .call 1 (.lockFile (lit "/db/t")), .move 0, .move 1, .move 1, .move 0, .move 2, .ret 2,
   .move 0, .move 1, .ret 0, .ret 1]

example : seenConc (play (fun _ => []) false 9 openThree concStart) =
    some ⟨[(2, .opened .ok (some 0)), (0, .opened .ok (some 1)), (1, .opened .ok (some 2))], [0, 0],
      [[true, true, false, false], [true]], []⟩ := by
  decide +kernel

/-- In the middle the mmap limiter is below zero: two refused requests have not been taken back yet. -/
example : seenConc (play (fun _ => []) false 9 (openThree.take 9) concStart) = some ⟨[], [-2, 1], [[true, true, true, true], []], []⟩ := by
  decide +kernel

example : seenConc (play (fun _ => []) false 9 (openThree ++ mixed) concStart) =
    some ⟨[(2, .opened .ok (some 0)), (0, .opened .ok (some 1)), (1, .opened .ok (some 2)), (1, .data .ok (some [1])),
      (0, .data .ok (some [2, 3])), (2, .unit),
      (0, .opened (.err .ioError (lit "lock /db/t") (lit "already held by process")) none), (1, .opened .ok (some 3))], [1, 0],
      [[true, true, false, true], [false]], [lit "/db/t"]⟩ := by
  decide +kernel

/-- Everything is given back, by threads that overlap. -/
example : seenConc (play (fun _ => []) false 9 (openThree ++ mixed ++ [.call 0 (.unlockFile 3), .call 1 (.delete 0), .call 2 (.delete 1),
      .move 1, .move 0, .ret 2, .move 0, .move 1, .ret 1, .move 0, .ret 0]) concStart) =
    some ⟨[(2, .opened .ok (some 0)), (0, .opened .ok (some 1)), (1, .opened .ok (some 2)), (1, .data .ok (some [1])),
      (0, .data .ok (some [2, 3])), (2, .unit),
      (0, .opened (.err .ioError (lit "lock /db/t") (lit "already held by process")) none), (1, .opened .ok (some 3)), (2, .unit),
      (1, .unit), (0, .status .ok)], [1, 1], [[true, false, false, false], [false]], []⟩ := by
  decide +kernel

/-- The hypotheses of C92 hold for this process. -/
example : Setting concStart.w 1 1 3 :=
  ⟨rfl, fun x hx => by
    rw [List.eq_of_mem_replicate hx]
    exact fun k => ⟨fun _ => Iff.rfl, fun _ => Iff.rfl⟩, by decide, by decide⟩

end Conc
end Posix
end Lsmdb
