import Verif.Proof.CacheConc5
import Mathlib.Data.DFinsupp.WellFounded

/-!
# No faults, no deadlock, no endless calls
-/

namespace Lsmdb
namespace CacheConc
open Cache Spec

variable {hf : Slice → M UInt32} {capacity : UInt64} {a : Atom} {H : Hist} {body : Method → Prog Shard MRes} {w : World}

theorem Ready.lt (hH : HashFn hf) (i : Inv hf capacity a H) {t : Tid} {j : Nat} {m : Method} {k : After} {c : Call}
    {es : List Effect} (h : a.now t = some (c, es)) (rd : Ready hf j m k c es) : j < 16 := by
  cases rd with
  | insert e => exact shardIndex_lt _
  | lookup e => exact shardIndex_lt _
  | erase e => exact shardIndex_lt _
  | release y =>
    obtain ⟨Hh, hHh⟩ := hH
    have g := reach_inv hHh i.reach
    obtain ⟨s, hs, -⟩ := live_of_outstanding g (i.has (Or.inr h) (es := []))
    rw [← g.len]
    exact (List.getElem?_eq_some_iff.mp hs).1
  | prune hi => exact hi
  | charge hi n => exact hi

theorem Sim.not_faulty (hH : HashFn hf) (hI : Implements body) (hS : Steady body) (S : Sim hf body w a) (i : Inv hf capacity a H)
    (hlen : H.length < 2 ^ 31) : ¬ Faulty hf w := by
  intro F
  cases F with
  | @hash t c k f h hk e =>
    have hp := S.pc t
    rw [h] at hp
    obtain ⟨Hh, hHh⟩ := hH
    have := (i.wf t c [] hp.1).1 k hk
    rw [hHh k this] at e
    cases e
  | @readHash t y h e =>
    have hp := S.pc t
    rw [h] at hp
    obtain ⟨s0, s1, h1, h2, h3, h4, h5, h6, h7⟩ := S.read hH hI hS i hlen (es := []) (Or.inr hp) (by rw [h]; intros; simp)
    refine e ⟨s1, h2, ?_, ?_⟩
    · simp [derefNode, h4]
    · rw [h5]; exact h7
  | @readValue t y f h e =>
    have hp := S.pc t
    rw [h] at hp
    obtain ⟨s0, s1, h1, h2, h3, h4, h5, h6, h7⟩ := S.read hH hI hS i hlen (Or.inl hp) (by rw [h]; intros; simp)
    simp only [Sharded.Value, getShard, h2, bind, Except.bind, derefNode, h4, if_true, pure, Except.pure] at e
    cases e
  | @lock t j m k h hi =>
    have hp := S.pc t
    rw [h] at hp
    obtain ⟨c, es, hn, rd⟩ := hp
    have := rd.lt hH i hn
    rw [S.len] at hi
    omega
  | @body t j m k β f next s x h hs e =>
    have hp := S.pc t
    rw [h] at hp
    obtain ⟨⟨c, es, hn, rd⟩, h2, s0, s1, h3, h4, h5⟩ := hp
    rw [hs] at h4
    cases h4
    obtain ⟨s2, r', _, a', hr, -⟩ := i.section hH hlen hn rd h3
    have hrun := h5.run
    rw [hI, hr, Prog.run, e] at hrun
    cases hrun

/-- A step that is not the beginning of a call. -/
def Step.notCall (e : Option Ev) : Prop := ∀ t c, e ≠ some (.call t c)

/-- The thread that holds the mutex of a shard can go on. -/
theorem Sim.inside_moves (hH : HashFn hf) (hI : Implements body) (hS : Steady body) (S : Sim hf body w a)
    (i : Inv hf capacity a H) (hlen : H.length < 2 ^ 31) {u : Tid} {j : Nat} {m : Method} {p : Prog Shard MRes} {k : After}
    (h : w.pc u = .inside j m p k) : ∃ w', Step hf body w none w' := by
  cases p with
  | done r => exact ⟨_, .unlock h⟩
  | step f next =>
    have hp := S.pc u
    rw [h] at hp
    obtain ⟨-, -, s0, s1, h3, h4, h5⟩ := hp
    cases e : f s1 with
    | error x => exact absurd (Faulty.body h h4 e) (S.not_faulty hH hI hS i hlen)
    | ok y => exact ⟨_, .body h h4 e⟩

theorem Sim.moves (hH : HashFn hf) (hI : Implements body) (hS : Steady body) (S : Sim hf body w a)
    (i : Inv hf capacity a H) (hlen : H.length < 2 ^ 31) {t : Tid} (h : w.pc t ≠ .idle) :
    ∃ e w', Step hf body w e w' ∧ Step.notCall e := by
  have nf := S.not_faulty hH hI hS i hlen
  have hp := S.pc t
  have nc : Step.notCall none := by intro _ _ h; cases h
  cases hpc : w.pc t with
  | idle => exact absurd hpc h
  | hashKey c =>
    rw [hpc] at hp
    obtain ⟨-, k, hk⟩ := hp
    cases e : hf k with
    | error f => exact absurd (.hash hpc hk e) nf
    | ok x => exact ⟨_, _, .hash hpc hk e, nc⟩
  | readHash y =>
    rw [hpc] at hp
    obtain ⟨s0, s1, h1, h2, h3, h4, h5, h6, h7⟩ := S.read hH hI hS i hlen (es := []) (Or.inr hp) (by rw [hpc]; intros; simp)
    exact ⟨_, _, .readHash hpc h2 (by simp [derefNode, h4]) (by rw [h5]; exact h7), nc⟩
  | readValue y =>
    cases e : Sharded.Value w.cache y with
    | error f => exact absurd (.readValue hpc e) nf
    | ok v => exact ⟨_, _, .readValue hpc e, nc⟩
  | enter j m k =>
    rw [hpc] at hp
    obtain ⟨c, es, hn, rd⟩ := hp
    have hj := rd.lt hH i hn
    cases ho : w.owner j with
    | none => exact ⟨_, _, .lock hpc (by rw [S.len]; exact hj) ho, nc⟩
    | some u =>
      obtain ⟨m', p, k', hu⟩ := S.owned j u ho
      obtain ⟨w', s⟩ := S.inside_moves hH hI hS i hlen hu
      exact ⟨_, _, s, nc⟩
  | inside j m p k =>
    obtain ⟨w', s⟩ := S.inside_moves hH hI hS i hlen hpc
    exact ⟨_, _, s, nc⟩
  | idEnter =>
    cases ho : w.idOwner with
    | none => exact ⟨_, _, .idLock hpc ho, nc⟩
    | some u =>
      rcases S.idOwned u ho with hu | ⟨n, hu⟩
      · exact ⟨_, _, .idNext hu, nc⟩
      · exact ⟨_, _, .idUnlock hu, nc⟩
  | idInside => exact ⟨_, _, .idNext hpc, nc⟩
  | idLeave n => exact ⟨_, _, .idUnlock hpc, nc⟩
  | leave r => exact ⟨_, _, .ret hpc, by intro _ _ h; cases h⟩

/-! ## Calls end -/

/-- Where a thread can be after one of its steps. -/
inductive PcLt (body : Method → Prog Shard MRes) : Pc → Pc → Prop
  | hash (x : UInt32) (c : Call) : PcLt body (dispatch x c) (.hashKey c)
  | readHash (h : Handle) (i : Nat) (m : Method) : PcLt body (.enter i m .unit) (.readHash h)
  | readValue (h : Handle) (r : Res) : PcLt body (.leave r) (.readValue h)
  | lock (i : Nat) (m : Method) (k : After) : PcLt body (.inside i m (body m) k) (.enter i m k)
  | body (i : Nat) (m : Method) (k : After) {β : Type} (f : Shard → M (Shard × β)) (next : β → Prog Shard MRes) (b : β) :
      PcLt body (.inside i m (next b) k) (.inside i m (.step f next) k)
  | unlock (i : Nat) (m : Method) (k : After) (r : MRes) : PcLt body (proceed k r) (.inside i m (.done r) k)
  | idLock : PcLt body .idInside .idEnter
  | idNext (n : UInt64) : PcLt body (.idLeave n) .idInside
  | idUnlock (n : UInt64) (r : Res) : PcLt body (.leave r) (.idLeave n)
  | ret (r : Res) : PcLt body .idle (.leave r)

theorem acc_idle : Acc (PcLt body) .idle := ⟨_, fun p h => nomatch h⟩

theorem acc_leave (r : Res) : Acc (PcLt body) (.leave r) := ⟨_, fun p h => by cases h; exact acc_idle⟩

theorem acc_inside {k : After} (hk : ∀ r, Acc (PcLt body) (proceed k r)) (i : Nat) (m : Method) (p : Prog Shard MRes) :
    Acc (PcLt body) (.inside i m p k) := by
  induction p with
  | done r => exact ⟨_, fun p h => by cases h; exact hk r⟩
  | step f next ih => exact ⟨_, fun p h => by cases h; exact ih _⟩

theorem acc_enter {k : After} (hk : ∀ r, Acc (PcLt body) (proceed k r)) (i : Nat) (m : Method) :
    Acc (PcLt body) (.enter i m k) := ⟨_, fun p h => by cases h; exact acc_inside hk _ _ _⟩

theorem acc_proceed : ∀ (n : Nat) (k : After) (r : MRes),
    (match k with | .prune i => 16 - i ≤ n | .charge i _ => 16 - i ≤ n | _ => True) → Acc (PcLt body) (proceed k r) := by
  intro n
  induction n with
  | zero =>
    intro k r h
    cases k with
    | handle i => cases r <;> exact acc_leave _
    | unit => cases r <;> exact acc_leave _
    | prune i =>
      have : ¬ i + 1 < kNumShards := by show ¬ i + 1 < 16; simp only at h; omega
      simp only [proceed, if_neg this]
      exact acc_leave _
    | charge i total =>
      have : ¬ i + 1 < kNumShards := by show ¬ i + 1 < 16; simp only at h; omega
      cases r with
      | charge x => simp only [proceed, if_neg this]; exact acc_leave _
      | _ => exact acc_leave _
  | succ n ih =>
    intro k r h
    cases k with
    | handle i => cases r <;> exact acc_leave _
    | unit => cases r <;> exact acc_leave _
    | prune i =>
      simp only [proceed]
      split
      · refine acc_enter (fun r => ih _ r ?_) _ _
        simp only at h ⊢
        omega
      · exact acc_leave _
    | charge i total =>
      cases r with
      | charge x =>
        simp only [proceed]
        split
        · refine acc_enter (fun r => ih _ r ?_) _ _
          simp only at h ⊢
          omega
        · exact acc_leave _
      | _ => exact acc_leave _

theorem acc_after (k : After) (r : MRes) : Acc (PcLt body) (proceed k r) := by
  refine acc_proceed 16 k r ?_
  cases k <;> simp

theorem pcLt_wf : WellFounded (PcLt body) := by
  refine ⟨fun p => ?_⟩
  have hen : ∀ i m k, Acc (PcLt body) (.enter i m k) := fun i m k => acc_enter (acc_after k) i m
  have h1 : ∀ n, Acc (PcLt body) (.idLeave n) := fun n => ⟨_, fun p h => by cases h; exact acc_leave _⟩
  have h2 : Acc (PcLt body) .idInside := ⟨_, fun p h => by cases h; exact h1 _⟩
  cases p with
  | idle => exact acc_idle
  | hashKey c =>
    refine ⟨_, fun p h => ?_⟩
    cases h with
    | hash x c => cases c <;> simp only [dispatch] <;> first | exact hen _ _ _ | exact acc_idle
  | readHash h => exact ⟨_, fun p h => by cases h; exact hen _ _ _⟩
  | readValue h => exact ⟨_, fun p h => by cases h; exact acc_leave _⟩
  | enter i m k => exact hen i m k
  | inside i m p k => exact acc_inside (acc_after k) i m p
  | idEnter => exact ⟨_, fun p h => by cases h; exact h2⟩
  | idInside => exact h2
  | idLeave n => exact h1 n
  | leave r => exact acc_leave r

theorem not_lt_idle {p q : Pc} (h : PcLt body p q) : q ≠ .idle := by
  cases h <;> (intro h; cases h)

theorem Step.lt {e : Option Ev} {w' : World} (s : Step hf body w e w') (n : Step.notCall e) :
    ∃ t, PcLt body (w'.pc t) (w.pc t) ∧ ∀ u, u ≠ t → w'.pc u = w.pc u := by
  have fin : ∀ (w' : World) (t : Tid) (p : Pc), w'.pc = w.pc → PcLt body p (w.pc t) →
      ∃ v, PcLt body ((w'.at t p).pc v) (w.pc v) ∧ ∀ u, u ≠ v → (w'.at t p).pc u = w.pc u := by
    intro w' t p hw h
    exact ⟨t, by simp only [World.at, if_true]; exact h, fun u hu => by simp only [World.at, if_neg hu, hw]⟩
  cases s with
  | call c h => exact absurd rfl (n _ _)
  | hash h hk e => exact fin _ _ _ rfl (by rw [h]; exact .hash _ _)
  | readHash h hs e hi => exact fin _ _ _ rfl (by rw [h]; exact .readHash _ _ _)
  | readValue h e => exact fin _ _ _ rfl (by rw [h]; exact .readValue _ _)
  | lock h hi free => exact fin _ _ _ rfl (by rw [h]; exact .lock _ _ _)
  | body h hs e => exact fin { w with cache := _ } _ _ rfl (by rw [h]; exact .body _ _ _ _ _ _)
  | unlock h => exact fin _ _ _ rfl (by rw [h]; exact .unlock _ _ _ _)
  | idLock h free => exact fin { w with idOwner := _ } _ _ rfl (by rw [h]; exact .idLock)
  | idNext h => exact fin { w with cache := _ } _ _ rfl (by rw [h]; exact .idNext _)
  | idUnlock h => exact fin { w with idOwner := _ } _ _ rfl (by rw [h]; exact .idUnlock _ _)
  | ret h => exact fin _ _ _ rfl (by rw [h]; exact .ret _)

theorem Step.idle {e : Option Ev} {w' : World} (s : Step hf body w e w') (n : Step.notCall e) {t : Tid} (h : w.pc t = .idle) :
    w'.pc t = .idle := by
  obtain ⟨u, h1, h2⟩ := s.lt n
  by_cases e : t = u
  · subst e; exact absurd h (not_lt_idle h1)
  · rw [h2 t e]; exact h

theorem Run.finite (r : Run hf body capacity w H) : ∃ N, ∀ t, N ≤ t → w.pc t = .idle := by
  induction r with
  | init h => exact ⟨0, fun _ _ => rfl⟩
  | internal r s ih =>
    obtain ⟨N, hN⟩ := ih
    exact ⟨N, fun t ht => s.idle (by intro _ _ h; cases h) (hN t ht)⟩
  | @call w w' H t c r s p ih =>
    obtain ⟨N, hN⟩ := ih
    refine ⟨max N (t + 1), fun u hu => ?_⟩
    cases s with
    | call c h =>
      have : u ≠ t := Nat.ne_of_gt (Nat.le_trans (Nat.le_max_right N (t + 1)) hu)
      simp only [World.at, if_neg this]
      exact hN u (Nat.le_trans (Nat.le_max_left N (t + 1)) hu)
  | ret r s ih =>
    obtain ⟨N, hN⟩ := ih
    exact ⟨N, fun t ht => s.idle (by intro _ _ h; cases h) (hN t ht)⟩

/-- From some point on there are new calls, or the steps come to an end. -/
theorem no_endless {N : Nat} {f : Nat → World} (h0 : ∀ t, N ≤ t → (f 0).pc t = .idle)
    (hs : ∀ n, ∃ e, Step hf body (f n) e (f (n + 1)) ∧ Step.notCall e) : False := by
  have hid : ∀ n t, N ≤ t → (f n).pc t = .idle := by
    intro n
    induction n with
    | zero => exact h0
    | succ n ih =>
      obtain ⟨e, s, nc⟩ := hs n
      exact fun t ht => s.idle nc (ih t ht)
  have wf : WellFounded (Pi.Lex (ι := Fin N) (β := fun _ => Pc) (· < ·) (fun {_} => PcLt body)) :=
    Pi.Lex.wellFounded (· < ·) (fun _ => pcLt_wf)
  let g : Nat → Fin N → Pc := fun n t => (f n).pc t
  have dec : ∀ n, Pi.Lex (ι := Fin N) (β := fun _ => Pc) (· < ·) (fun {_} => PcLt body) (g (n + 1)) (g n) := by
    intro n
    obtain ⟨e, s, nc⟩ := hs n
    obtain ⟨t, h1, h2⟩ := s.lt nc
    have ht : t < N := by
      rcases Nat.lt_or_ge t N with h | h
      · exact h
      · exact absurd (hid n t h) (not_lt_idle h1)
    refine ⟨⟨t, ht⟩, fun j hj => h2 j ?_, h1⟩
    intro e
    have : j.val < t := hj
    exact absurd e (Nat.ne_of_lt this)
  have : ∀ p : Fin N → Pc, ∀ n, g n ≠ p := by
    intro p
    induction p using wf.induction with
    | _ p ih =>
      intro n e
      subst e
      exact ih _ (dec n) (n + 1) rfl
  exact this _ 0 rfl

end CacheConc
end Lsmdb
