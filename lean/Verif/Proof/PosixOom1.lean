import Verif.Model.PosixOom
import Verif.Proof.PosixAcc

/-! A call that returns does what it does when memory is plenty. -/

namespace Lsmdb
namespace Posix

open MemEnv (St lit)

variable (strerror : Strerror) (full : Bool)

/-- `o` is like `p` where it has a result in the sense of `v`. -/
def SimV {α β : Type} (v : α → Option β) (o : Out α) (p : Out β) : Prop :=
  match o with
  | .done a w => ∀ b, v a = some b → p = .done b w
  | .crash w => p = .crash w
  | .fault f => p = .fault f

theorem SimV.bind {α β γ δ : Type} {v : α → Option β} {u : γ → Option δ} {x : P α} {y : P β} {f : α → P γ} {g : β → P δ}
    {w : World} (h : SimV v (x w) (y w)) (h1 : ∀ a b w, v a = some b → SimV u (f a w) (g b w))
    (h2 : ∀ a w, v a = none → ∃ c, f a w = .done c w ∧ u c = none) : SimV u ((x >>= f) w) ((y >>= g) w) := by
  rw [bind_eq, bind_eq]
  cases hx : x w with
  | crash w => rw [hx] at h; simp only [SimV] at h; rw [h]; rfl
  | fault e => rw [hx] at h; simp only [SimV] at h; rw [h]; rfl
  | done a w1 =>
    rw [hx] at h
    simp only [SimV] at h
    simp only []
    cases hv : v a with
    | none =>
      obtain ⟨c, hc, hu⟩ := h2 a w1 hv
      rw [hc]
      intro d hd; rw [hu] at hd; exact nomatch hd
    | some b =>
      rw [h b hv]
      exact h1 a b w1 hv

/-- The same beginning. -/
theorem SimV.same {α γ δ : Type} {u : γ → Option δ} {x : P α} {f : α → P γ} {g : α → P δ} {w : World}
    (h1 : ∀ a w, SimV u (f a w) (g a w)) : SimV u ((x >>= f) w) ((x >>= g) w) := by
  rw [bind_eq, bind_eq]
  cases x w with
  | crash w => rfl
  | fault e => rfl
  | done a w1 => exact h1 a w1

theorem SimV.pure {α β : Type} {v : α → Option β} {a : α} {b : β} {w : World} (h : ∀ c, v a = some c → c = b) :
    SimV v ((Pure.pure a : P α) w) ((Pure.pure b : P β) w) := by
  intro c hc
  rw [h c hc]; rfl

theorem SimV.lost {α β : Type} {v : α → Option β} {a : α} {w : World} {p : Out β} (h : v a = none) :
    SimV v ((Pure.pure a : P α) w) p := by
  intro c hc; rw [h] at hc; exact nomatch hc

/-- Results of a call on a file. -/
def vw : Option St × WFile → Option (St × WFile)
  | (some s, f) => some (s, f)
  | (none, _) => none

/-- Results of a call on the Env. -/
def ve : OEnv × Ans → Option (PEnv × PRes)
  | (E, .res r) => some (E.env, r)
  | _ => none

theorem raise_some {mem : PMem} {s t : St} (h : raise mem s = some t) : t = s := by
  cases s with
  | ok => injection h with h; exact h.symm
  | err c a b =>
    unfold raise at h
    simp only [] at h
    split at h
    · injection h with h; exact h.symm
    · exact nomatch h

theorem raise_plenty (s : St) : raise .plenty s = some s := by cases s <;> rfl

theorem FlushBufferO_sim (mem : PMem) (f : WFile) (w : World) :
    SimV vw (f.FlushBufferO strerror mem w) (f.FlushBuffer strerror w) := by
  unfold WFile.FlushBufferO WFile.FlushBuffer
  refine SimV.same fun d w => SimV.same fun s w => ?_
  cases hr : raise mem s with
  | none => exact SimV.lost rfl
  | some t => rw [raise_some hr]; exact SimV.pure fun c hc => by injection hc with hc; exact hc.symm

theorem appendRestO_sim (mem : PMem) (f : WFile) (d : Bytes) (n : Nat) (w : World) :
    SimV vw (f.appendRestO strerror mem d n w)
      ((if n < kWritableFileBufferSize then do
          let buf ← pureM (f.buf.store 0 d)
          return (St.ok, { f with buf := buf, pos := n })
        else do
          let status ← f.WriteUnbuffered strerror d
          return (status, f) : P (St × WFile)) w) := by
  unfold WFile.appendRestO
  by_cases hn : n < kWritableFileBufferSize
  · rw [if_pos hn, if_pos hn]
    exact SimV.same fun b w => SimV.pure fun c hc => by injection hc with hc; exact hc.symm
  · rw [if_neg hn, if_neg hn]
    refine SimV.same fun s w => ?_
    cases hr : raise mem s with
    | none => exact SimV.lost rfl
    | some t => rw [raise_some hr]; exact SimV.pure fun c hc => by injection hc with hc; exact hc.symm

theorem AppendO_sim (mem : PMem) (f : WFile) (d : Slice) (w : World) :
    SimV vw (f.AppendO strerror mem d w) (f.Append strerror d w) := by
  unfold WFile.AppendO WFile.Append
  refine SimV.same fun bytes w => SimV.same fun buf w => ?_
  simp only []
  by_cases h0 : d.len - min d.len (kWritableFileBufferSize - f.pos) = 0
  · rw [if_pos h0, if_pos h0]; exact SimV.pure fun c hc => by injection hc with hc; exact hc.symm
  · rw [if_neg h0, if_neg h0]
    refine SimV.bind (v := vw) (FlushBufferO_sim strerror mem _ w) ?_ ?_
    · rintro ⟨s, f1⟩ ⟨s', f2⟩ w hv
      cases s with
      | none => exact nomatch hv
      | some s =>
        injection hv with hv
        injection hv with hv1 hv2
        subst hv1 hv2
        simp only []
        by_cases hs : s ≠ .ok
        · rw [if_pos hs, if_pos hs]; exact SimV.pure fun c hc => by injection hc with hc; exact hc.symm
        · rw [if_neg hs, if_neg hs]; exact appendRestO_sim strerror mem f1 _ _ w
    · rintro ⟨s, f1⟩ w hv
      cases s with
      | some s => exact nomatch hv
      | none => exact ⟨_, rfl, rfl⟩

theorem CloseO_sim (mem : PMem) (f : WFile) (w : World) : SimV vw (f.CloseO strerror mem w) (f.Close strerror w) := by
  unfold WFile.CloseO WFile.Close
  refine SimV.bind (v := vw) (FlushBufferO_sim strerror mem _ w) ?_ ?_
  · rintro ⟨s, f1⟩ ⟨s', f2⟩ w hv
    cases s with
    | none => exact nomatch hv
    | some s =>
      injection hv with hv
      injection hv with hv1 hv2
      subst hv1 hv2
      simp only []
      refine SimV.same fun r w => ?_
      cases r with
      | ok _ => exact SimV.pure fun c hc => by injection hc with hc; exact hc.symm
      | error e =>
        simp only []
        by_cases hs : s = .ok
        · rw [if_pos hs, if_pos hs]
          cases hr : raise mem (PosixError strerror f1.filename e) with
          | none => exact SimV.lost rfl
          | some t => rw [raise_some hr]; exact SimV.pure fun c hc => by injection hc with hc; exact hc.symm
        · rw [if_neg hs, if_neg hs]; exact SimV.pure fun c hc => by injection hc with hc; exact hc.symm
  · rintro ⟨s, f1⟩ w hv
    cases s with
    | some s => exact nomatch hv
    | none => exact ⟨_, rfl, rfl⟩

theorem SyncDirO_sim (mem : PMem) (f : WFile) (w : World) :
    SimV id (f.SyncDirIfManifestO strerror mem full w) (f.SyncDirIfManifest strerror full w) := by
  unfold WFile.SyncDirIfManifestO WFile.SyncDirIfManifest
  by_cases hm : f.is_manifest = true
  · rw [if_pos hm, if_pos hm]
    refine SimV.same fun r w => ?_
    cases r with
    | error e =>
      simp only []
      exact SimV.pure fun c hc => raise_some hc
    | ok fd =>
      simp only []
      refine SimV.same fun s w => ?_
      cases hr : raise mem s with
      | none => exact SimV.lost rfl
      | some t => rw [raise_some hr]; exact SimV.same fun _ w => SimV.pure fun c hc => by injection hc with hc; exact hc.symm
  · rw [if_neg hm, if_neg hm]; exact SimV.pure fun c hc => by injection hc with hc; exact hc.symm

theorem SyncO_sim (mem : PMem) (f : WFile) (w : World) : SimV vw (f.SyncO strerror mem full w) (f.Sync strerror full w) := by
  unfold WFile.SyncO WFile.Sync
  refine SimV.bind (v := id) (SyncDirO_sim strerror full mem f w) ?_ ?_
  · rintro s s' w hv
    subst hv
    simp only []
    by_cases hs : s' ≠ .ok
    · rw [if_pos hs, if_pos hs]; exact SimV.pure fun c hc => by injection hc with hc; exact hc.symm
    · rw [if_neg hs, if_neg hs]
      refine SimV.bind (v := vw) (FlushBufferO_sim strerror mem _ w) ?_ ?_
      · rintro ⟨s, f1⟩ ⟨s', f2⟩ w hv
        cases s with
        | none => exact nomatch hv
        | some s =>
          injection hv with hv
          injection hv with hv1 hv2
          subst hv1 hv2
          simp only []
          by_cases hs : s ≠ .ok
          · rw [if_pos hs, if_pos hs]; exact SimV.pure fun c hc => by injection hc with hc; exact hc.symm
          · rw [if_neg hs, if_neg hs]
            refine SimV.same fun r w => ?_
            cases hr : raise mem r with
            | none => exact SimV.lost rfl
            | some t => rw [raise_some hr]; exact SimV.pure fun c hc => by injection hc with hc; exact hc.symm
      · rintro ⟨s, f1⟩ w hv
        cases s with
        | some s => exact nomatch hv
        | none => exact ⟨_, rfl, rfl⟩
  · rintro s w hv
    cases s with
    | some s => exact nomatch hv
    | none => exact ⟨_, rfl, rfl⟩

theorem wstepO_sim (mem : PMem) (f : WFile) (op : WOp) (w : World) :
    SimV vw (f.stepO strerror mem full op w) (f.step strerror full op w) := by
  cases op with
  | append d => exact AppendO_sim strerror mem f d w
  | flush => exact FlushBufferO_sim strerror mem f w
  | sync => exact SyncO_sim strerror full mem f w
  | close => exact CloseO_sim strerror mem f w

/-- Results of a destructor. -/
def vd : Bool → Option Unit
  | true => some ()
  | false => none

theorem destroyO_sim (mem : PMem) (f : WFile) (w : World) : SimV vd (f.destroyO strerror mem w) (f.destroy strerror w) := by
  unfold WFile.destroyO WFile.destroy
  by_cases h : f.fd ≥ 0
  · rw [if_pos h, if_pos h]
    refine SimV.bind (v := vw) (CloseO_sim strerror mem f w) ?_ ?_
    · rintro ⟨s, f1⟩ ⟨s', f2⟩ w hv
      exact SimV.pure fun c hc => rfl
    · rintro ⟨s, f1⟩ w hv
      cases s with
      | some s => exact nomatch hv
      | none => exact ⟨_, rfl, rfl⟩
  · rw [if_neg h, if_neg h]; exact SimV.pure fun c hc => rfl

theorem some_eq {α : Type} {a c : α} (h : some a = some c) : c = a := by injection h with h; exact h.symm

theorem bindA {α β γ : Type} (x : P α) (f : α → P β) (g : β → P γ) : ((x >>= f) >>= g) = (x >>= fun a => f a >>= g) := by
  funext w
  rw [bind_eq, bind_eq, bind_eq]
  cases x w <;> rfl

theorem pureB {α β : Type} (a : α) (f : α → P β) : ((Pure.pure a : P α) >>= f) = f a := rfl

theorem ReadO_rest (mem : PMem) (f : RandFile) (fd : Int) (off n cap : Nat) (w : World) :
    SimV id ((do
      pureM (cassert (decide (fd ≠ -1)))
      let r ← sysPread fd n (toOff off)
      let res ← match r with
        | .error e => pure (PosixError strerror f.filename e, some [])
        | .ok d => if d.length ≤ cap then pure (St.ok, some d) else pureM (.error .outOfBounds)
      match raise mem res.1 with
      | none => return none
      | some _ =>
        if f.has_permanent_fd then return some res
        else do
          pureM (cassert (decide (fd ≠ f.fd)))
          let _ ← sysClose fd
          return some res : P (Option (St × Option Bytes))) w)
      ((do
      pureM (cassert (decide (fd ≠ -1)))
      let r ← sysPread fd n (toOff off)
      let res ← match r with
        | .error e => pure (PosixError strerror f.filename e, some [])
        | .ok d => if d.length ≤ cap then pure (St.ok, some d) else pureM (.error .outOfBounds)
      if f.has_permanent_fd then return res
      else do
        pureM (cassert (decide (fd ≠ f.fd)))
        let _ ← sysClose fd
        return res : P (St × Option Bytes)) w) := by
  refine SimV.same fun _ w => SimV.same fun r w => ?_
  have key : ∀ (res : St × Option Bytes) (w : World), SimV id
      ((match raise mem res.1 with
      | none => return none
      | some _ =>
        if f.has_permanent_fd then return some res
        else do
          pureM (cassert (decide (fd ≠ f.fd)))
          let _ ← sysClose fd
          return some res : P (Option (St × Option Bytes))) w)
      ((if f.has_permanent_fd then return res
      else do
        pureM (cassert (decide (fd ≠ f.fd)))
        let _ ← sysClose fd
        return res : P (St × Option Bytes)) w) := by
    intro res w
    cases hr : raise mem res.1 with
    | none => exact SimV.lost rfl
    | some t =>
      simp only []
      by_cases hp : f.has_permanent_fd = true
      · simp only [if_pos hp]; exact SimV.pure fun c hc => some_eq hc
      · simp only [if_neg hp]
        exact SimV.same fun _ w => SimV.same fun _ w => SimV.pure fun c hc => some_eq hc
  cases r with
  | error e => exact key _ w
  | ok d =>
    simp only []
    by_cases hd : d.length ≤ cap
    · simp only [if_pos hd]; exact key (St.ok, some d) w
    · simp only [if_neg hd]; rfl

theorem ReadO_sim (mem : PMem) (f : RandFile) (off n cap : Nat) (w : World) :
    SimV id (f.ReadO strerror mem off n cap w) (f.Read strerror off n cap w) := by
  unfold RandFile.ReadO RandFile.Read
  have err : ∀ (e : Errno) (w : World), SimV id
      ((Pure.pure ((raise mem (PosixError strerror f.filename e)).map (fun s => (s, none))) : P (Option (St × Option Bytes))) w)
      ((Pure.pure (PosixError strerror f.filename e, none) : P (St × Option Bytes)) w) := by
    intro e w
    refine SimV.pure fun c hc => ?_
    cases hr : raise mem (PosixError strerror f.filename e) with
    | none => rw [hr] at hc; exact nomatch hc
    | some t => rw [hr] at hc; injection hc with hc; rw [← hc, raise_some hr]
  have rest := ReadO_rest strerror mem f
  by_cases hp : f.has_permanent_fd = true
  · simp only [if_pos hp] at rest ⊢
    exact rest f.fd off n cap w
  · simp only [if_neg hp] at rest ⊢
    refine SimV.same fun fd w => ?_
    cases fd with
    | error e => exact err e w
    | ok fd => exact rest fd off n cap w

/-! ## The Env -/

theorem answer_sim {E : OEnv} {mem : PMem} {s : St} {r : PRes} {c : PEnv × PRes}
    (h : ve (E.answer mem s r) = some c) : c = (E.env, r) := by
  unfold OEnv.answer at h
  cases hr : raise mem s with
  | none => rw [hr] at h; exact nomatch h
  | some t => rw [hr] at h; injection h with h; exact h.symm

theorem hand_sim {E : OEnv} {mem : PMem} {o : Obj} {c : PEnv × PRes} (h : ve (E.hand mem o) = some c) :
    c = ((E.env.alloc o).2, .opened .ok (some (E.env.alloc o).1)) := by
  unfold OEnv.hand at h
  split at h
  · injection h with h; exact h.symm
  · exact nomatch h

theorem NewSequentialO_sim (mem : PMem) (E : OEnv) (n : Bytes) (w : World) :
    SimV ve (E.NewSequentialFile strerror mem n w) (E.env.step strerror full (.newSequential n) w) := by
  unfold OEnv.NewSequentialFile PEnv.step PEnv.NewSequentialFile
  simp only [bindA]
  refine SimV.same fun r w => ?_
  cases r with
  | error err => exact SimV.pure fun c hc => answer_sim hc
  | ok fd => exact SimV.pure fun c hc => hand_sim hc

theorem newWFileO_sim (mem : PMem) (E : OEnv) (m : Mode) (n : Bytes) (w : World) :
    SimV ve (E.newWFile strerror mem m n w)
      ((do let (s, h, e) ← E.env.newWFile strerror m n; return (e, .opened s h) : P (PEnv × PRes)) w) := by
  unfold OEnv.newWFile PEnv.newWFile
  simp only [bindA]
  refine SimV.same fun r w => ?_
  cases r with
  | error err => exact SimV.pure fun c hc => answer_sim hc
  | ok fd =>
    simp only [bindA]
    exact SimV.same fun f w => SimV.pure fun c hc => hand_sim hc

theorem NewLoggerO_sim (mem : PMem) (E : OEnv) (n : Bytes) (w : World) :
    SimV ve (E.NewLogger strerror mem n w) (E.env.step strerror full (.newLogger n) w) := by
  unfold OEnv.NewLogger PEnv.step PEnv.NewLogger
  simp only [bindA]
  refine SimV.same fun r w => ?_
  cases r with
  | error err => exact SimV.pure fun c hc => answer_sim hc
  | ok fd =>
    simp only [bindA]
    refine SimV.same fun r w => ?_
    cases r with
    | ok _ => exact SimV.pure fun c hc => hand_sim hc
    | error err =>
      simp only [bindA]
      refine SimV.same fun r w => ?_
      cases r with
      | ok _ => exact SimV.pure fun c hc => answer_sim hc
      | error err => exact SimV.pure fun c hc => answer_sim hc

theorem LockFileO_sim (mem : PMem) (E : OEnv) (n : Bytes) (w : World) :
    SimV ve (E.LockFile strerror mem n w) (E.env.step strerror full (.lockFile n) w) := by
  unfold OEnv.LockFile PEnv.step PEnv.LockFile
  simp only [bindA]
  refine SimV.same fun r w => ?_
  cases r with
  | error err => exact SimV.pure fun c hc => answer_sim hc
  | ok fd =>
    simp only []
    cases hL : E.locked with
    | true => simp only [↓reduceIte]; exact SimV.lost rfl
    | false =>
      simp only [Bool.false_eq_true, ↓reduceIte]
      cases hi : (lockInsert E.env.locks n).1 with
      | false =>
        have hl : (lockInsert E.env.locks n).2 = E.env.locks := by
          unfold lockInsert at hi ⊢
          split at hi
          · rename_i h; simp only [if_pos h]
          · exact nomatch hi
        simp only [Bool.false_eq_true, ↓reduceIte, bindA]
        refine SimV.same fun r w => SimV.pure fun c hc => ?_
        rw [answer_sim hc, hl]
      | true =>
        simp only [↓reduceIte]
        cases hn : mem.node with
        | false => simp only [Bool.false_eq_true, ↓reduceIte]; exact SimV.lost rfl
        | true =>
          simp only [↓reduceIte, bindA]
          refine SimV.same fun r w => ?_
          cases r with
          | error err =>
            simp only [bindA]
            exact SimV.same fun r w => SimV.pure fun c hc => answer_sim hc
          | ok _ => exact SimV.pure fun c hc => hand_sim hc

theorem UnlockFileO_sim (mem : PMem) (E : OEnv) (h : Nat) (w : World) :
    SimV ve (E.UnlockFile strerror mem h w) (E.env.step strerror full (.unlockFile h) w) := by
  unfold OEnv.UnlockFile PEnv.step PEnv.UnlockFile
  simp only [bindA]
  refine SimV.same fun o w => ?_
  cases o with
  | lock fd n =>
    simp only [bindA]
    refine SimV.same fun r w => ?_
    cases r with
    | error err => exact SimV.pure fun c hc => answer_sim hc
    | ok _ =>
      simp only []
      cases hL : E.locked with
      | true => simp only [↓reduceIte]; exact SimV.lost rfl
      | false =>
        simp only [Bool.false_eq_true, ↓reduceIte, bindA]
        exact SimV.same fun r w => SimV.pure fun c hc => some_eq hc
  | _ => rfl

theorem readdirO_sim (mem : PMem) : ∀ (fuel : Nat) (rest acc : List Bytes) (w : World),
    SimV id (readdirLoopO mem fuel rest acc w) (readdirLoop fuel rest acc w) := by
  intro fuel
  induction fuel with
  | zero => intro rest acc w; rfl
  | succ fuel ih =>
    intro rest acc w
    unfold readdirLoopO readdirLoop
    refine SimV.same fun r w => ?_
    cases r with
    | none => exact SimV.pure fun c hc => some_eq hc
    | some d =>
      simp only []
      cases hm : mem.child acc.length with
      | true => simp only [↓reduceIte]; exact ih _ _ w
      | false => simp only [Bool.false_eq_true, ↓reduceIte]; exact SimV.lost rfl

theorem GetChildrenO_sim (mem : PMem) (E : OEnv) (d : Bytes) (w : World) :
    SimV ve (E.GetChildren strerror mem d w) (E.env.step strerror full (.getChildren d) w) := by
  unfold OEnv.GetChildren PEnv.step GetChildren
  simp only [bindA]
  refine SimV.same fun r w => ?_
  cases r with
  | error err => exact SimV.pure fun c hc => answer_sim hc
  | ok p =>
    obtain ⟨fd, entries⟩ := p
    simp only [bindA]
    refine SimV.bind (v := id) (readdirO_sim mem _ _ _ w) ?_ ?_
    · rintro l l' w hv
      subst hv
      exact SimV.same fun r w => SimV.pure fun c hc => some_eq hc
    · rintro l w hv
      subst hv
      exact ⟨_, rfl, rfl⟩

theorem last_sim (mem : PMem) (E : OEnv) (s : St) (r : PRes) (w : World) :
    SimV ve (E.last mem s r w) ((Pure.pure (E.env, r) : P (PEnv × PRes)) w) :=
  SimV.pure fun _ hc => answer_sim hc

theorem pureM_ok {α β : Type} {m : M α} {a : α} (h : m = .ok a) (f : α → P β) : (pureM m >>= f) = f a := by
  subst h; rfl

theorem deleteO_sim (mem : PMem) (E : OEnv) (h : Nat) (w : World) :
    SimV ve (E.delete strerror mem h w) (E.env.step strerror full (.delete h) w) := by
  unfold OEnv.delete PEnv.step
  cases hg : E.env.get h with
  | error f => unfold PEnv.delete; simp only [bindA, hg]; exact show SimV ve (Out.fault f) (Out.fault f) from rfl
  | ok o =>
    rw [pureM_ok rfl]
    cases o with
    | wr f =>
      unfold PEnv.delete
      simp only [bindA]
      rw [pureM_ok hg]
      simp only [bindA]
      refine SimV.bind (v := vd) (destroyO_sim strerror mem f w) ?_ ?_
      · rintro b u w hv
        cases b with
        | false => exact nomatch hv
        | true => exact SimV.pure fun c hc => some_eq hc
      · rintro b w hv
        cases b with
        | true => exact nomatch hv
        | false => exact ⟨_, rfl, rfl⟩
    | _ => exact SimV.same fun r w => SimV.pure fun c hc => some_eq hc

theorem NewRandomO_sim (mem : PMem) (E : OEnv) (n : Bytes) (w : World) :
    SimV ve (E.NewRandomAccessFile strerror mem n w) (E.env.step strerror full (.newRandomAccess n) w) := by
  unfold OEnv.NewRandomAccessFile PEnv.step PEnv.NewRandomAccessFile
  simp only [bindA]
  refine SimV.same fun r w => ?_
  cases r with
  | error err => exact SimV.pure fun c hc => answer_sim hc
  | ok fd =>
    simp only []
    cases ha : (Limiter.Acquire E.env.mmap_limiter).1 with
    | true =>
      have key : ∀ (F : OEnv) (s : St) (r : Option Nat) (w : World), SimV ve
          ((do
            let _ ← sysClose fd
            if s ≠ .ok then
              return ({ F with env := { F.env with mmap_limiter := Limiter.Release F.env.mmap_limiter } },
                .res (.opened s r))
            else return (F, .res (.opened s r)) : P (OEnv × Ans)) w)
          ((do
            let _ ← sysClose fd
            if s ≠ .ok then
              return ({ F.env with mmap_limiter := Limiter.Release F.env.mmap_limiter }, .opened s r)
            else return (F.env, .opened s r) : P (PEnv × PRes)) w) := by
        intro F s r w
        refine SimV.same fun _ w => ?_
        by_cases hs : s ≠ .ok
        · simp only [if_pos hs]; exact SimV.pure fun c hc => some_eq hc
        · simp only [if_neg hs]; exact SimV.pure fun c hc => some_eq hc
      have pif : ∀ (s : St) (a b : St × Option Nat × PEnv) (g : St × Option Nat × PEnv → P (PEnv × PRes)),
          ((if s ≠ .ok then (Pure.pure a : P (St × Option Nat × PEnv)) else Pure.pure b) >>= g) =
            (if s ≠ .ok then g a else g b) := by
        intro s a b g
        by_cases hs : s ≠ .ok
        · simp only [if_pos hs]; rfl
        · simp only [if_neg hs]; rfl
      simp only [↓reduceIte, bindA]
      unfold OEnv.mapFile
      simp only [bindA]
      refine SimV.same fun p w => ?_
      obtain ⟨s, size⟩ := p
      simp only []
      cases hr : raise mem s with
      | none => exact SimV.lost rfl
      | some t =>
        rw [raise_some hr]
        simp only []
        by_cases hs : s = .ok
        · subst hs
          simp only [↓reduceIte, bindA]
          refine SimV.same fun r w => ?_
          cases r with
          | ok b =>
            simp only []
            cases hm : mem.object with
            | false => simp only [Bool.false_eq_true, ↓reduceIte]; exact SimV.lost rfl
            | true =>
              simp only [↓reduceIte, bindA, pureB, pif]
              exact key { E with env := ({ E.env with mmap_limiter := (Limiter.Acquire E.env.mmap_limiter).2 }.alloc
                (.mmap ⟨b, size, n⟩)).2 } .ok _ w
          | error err =>
            simp only []
            cases hr : raise mem (PosixError strerror n err) with
            | none => exact SimV.lost rfl
            | some t =>
              rw [raise_some hr]
              simp only [bindA, pureB, pif]
              exact key { E with env := { E.env with mmap_limiter := (Limiter.Acquire E.env.mmap_limiter).2 } } _ none w
        · simp only [if_neg hs, bindA, pureB, pif]
          exact key { E with env := { E.env with mmap_limiter := (Limiter.Acquire E.env.mmap_limiter).2 } } s none w
    | false =>
      simp only [Bool.false_eq_true, ↓reduceIte]
      cases hm : mem.object with
      | false => simp only [Bool.false_eq_true, ↓reduceIte]; exact SimV.lost rfl
      | true =>
        simp only [↓reduceIte, bindA]
        exact SimV.same fun r w => SimV.pure fun c hc => some_eq hc

theorem stepO_sim (mem : PMem) (E : OEnv) (op : POp) (w : World) :
    SimV ve (E.step strerror full mem op w) (E.env.step strerror full op w) := by
  cases op with
  | newSequential n => exact NewSequentialO_sim strerror full mem E n w
  | newRandomAccess n => exact NewRandomO_sim strerror full mem E n w
  | newWritable n => exact newWFileO_sim strerror mem E .trunc n w
  | newAppendable n => exact newWFileO_sim strerror mem E .append n w
  | newLogger n => exact NewLoggerO_sim strerror full mem E n w
  | fileExists n => exact SimV.same fun r w => SimV.pure fun c hc => some_eq hc
  | getChildren d => exact GetChildrenO_sim strerror full mem E d w
  | removeFile n => exact SimV.same fun r w => last_sim mem E _ _ w
  | createDir n => exact SimV.same fun r w => last_sim mem E _ _ w
  | removeDir n => exact SimV.same fun r w => last_sim mem E _ _ w
  | getFileSize n => exact SimV.same fun r w => last_sim mem E _ _ w
  | renameFile a b => exact SimV.same fun r w => last_sim mem E _ _ w
  | lockFile n => exact LockFileO_sim strerror full mem E n w
  | unlockFile h => exact UnlockFileO_sim strerror full mem E h w
  | seqRead h n =>
    refine SimV.same fun o w => ?_
    cases o with
    | seq f => exact SimV.same fun r w => last_sim mem E _ _ w
    | _ => rfl
  | seqSkip h n =>
    refine SimV.same fun o w => ?_
    cases o with
    | seq f => exact SimV.same fun r w => last_sim mem E _ _ w
    | _ => rfl
  | randRead h off n =>
    refine SimV.same fun o w => ?_
    cases o with
    | rand f =>
      refine SimV.bind (v := id) (ReadO_sim strerror mem f off n n w) ?_ ?_
      · rintro l l' w hv
        subst hv
        exact SimV.pure fun c hc => some_eq hc
      · rintro l w hv
        subst hv
        exact ⟨_, rfl, rfl⟩
    | mmap f => exact last_sim mem E _ _ w
    | _ => rfl
  | write h op =>
    refine SimV.same fun o w => ?_
    cases o with
    | wr f =>
      refine SimV.bind (v := vw) (wstepO_sim strerror full mem f op w) ?_ ?_
      · rintro ⟨s, f1⟩ ⟨s', f2⟩ w hv
        cases s with
        | none => exact nomatch hv
        | some s =>
          injection hv with hv
          injection hv with hv1 hv2
          subst hv1 hv2
          exact SimV.pure fun c hc => some_eq hc
      · rintro ⟨s, f1⟩ w hv
        cases s with
        | some s => exact nomatch hv
        | none => exact ⟨_, rfl, rfl⟩
    | _ => rfl
  | delete h => exact deleteO_sim strerror full mem E h w

end Posix
end Lsmdb
