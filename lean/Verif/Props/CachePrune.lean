import Verif.Proof.CachePrune
import Verif.Props.CacheConc
import Verif.Props.CacheReent

/-!
# C106: entries in use, and Prune, in a cache that many threads use

The runs are those of C76 to C78.
-/

namespace Lsmdb
namespace CacheConc
open Cache Spec Props

variable {hf : Slice → M UInt32} {capacity : UInt64} {H : Hist} {body : Method → Prog Shard MRes} {w : World}

/-- C106, in use: a call of `Insert` of the key has returned the handle, and no other call that sets or removes the entry of this key
was in progress when it was made or was made since.  Then every `Lookup` of the key that is made after that returns this handle,
if one of the references that clients had when the `Lookup` was called has not been given back when it returns; whatever
other threads insert, erase and prune meanwhile, and however small the cache is.  (If the capacity of a shard is 0 nothing is ever
found.) -/
theorem C106_in_use_found (hH : HashFn hf) (hI : Implements body) (hS : Steady body) (hcap : perShard capacity ≠ 0) {t : Tid} {x : Res}
    (r : Run hf body capacity w (.ret t x :: H)) (hlen : H.length + 1 < 2 ^ 31) {k k' : Slice} {H0 H1 : Hist} {v : Nat} {ch : UInt64}
    {d : Nat} {h : Handle} (hp : pendingAt H t = some (.lookup k, H0)) (hi : Returned H0 (.insert k' v ch d) H1 (.handle (some h)))
    (hk : k'.bytes = k.bytes) (ho : OnlyWriter H1 H k.bytes) (hg : begun H h < got H0 h) : x = .handle (some h) := by
  obtain ⟨a, A, -, -⟩ := r.sim hH hI hS hlen
  generalize hE : Ev.ret t x :: H = H' at A
  induction A with
  | init h => cases hE
  | call r h ih => cases hE
  | effect r h n o ih => exact ih hE
  | @ret a H' t' c es x' A h d' ih =>
    cases hE
    obtain ⟨es', hn⟩ := A.pendAt' hp
    rw [h] at hn
    injection hn with hn
    injection hn with hn1 hn2
    subst hn1
    obtain ⟨z, rfl, rfl⟩ := d'
    rw [(A.cur hH hcap).look t k z H0 k' v ch d H1 _ hp h hi hk ho hg]

/-- What the shared cache has recorded of an entry is at least what the atomic cache has. -/
theorem Sim.recorded (hH : HashFn hf) (hI : Implements body) (hR : Recorded body) {a : Atom} (S : Sim hf body w a)
    (i : Inv hf capacity a H) (hlen : H.length < 2 ^ 31) (h : Handle) : Spec.deletions a.cache.shards h <+:
      Spec.deletions w.cache.shards h := by
  cases ho : w.owner h.shard with
  | none =>
    unfold Spec.deletions
    rw [S.free _ ho]
  | some t =>
    obtain ⟨m, p, k, hp⟩ := S.owned _ _ ho
    have := S.pc t
    rw [hp] at this
    obtain ⟨⟨c, es, hnow, rd⟩, -, s0, s1, h0, h1, hc⟩ := this
    obtain ⟨s2, r, e, a', hrun, n, o, hca, -⟩ := i.section hH hlen hnow rd h0
    have hm := hc.mid (Mid.here _ _)
    have := (hR m s0 s1 s2 r hm ((hI m s0).trans hrun)).1
    unfold Spec.deletions
    rw [h0, h1]
    exact this.filter _

/-- C106, Prune: a call of `Insert` had returned the handle, and all references to the entry had been given back, before `Prune` was
called; and no `Lookup` of its key was in progress then or was called before `Prune` returned.  Then, when `Prune` returns, the deleter
of the entry has run, once; whatever other threads do meanwhile. -/
theorem C106_prune (hH : HashFn hf) (hI : Implements body) (hS : Steady body) (hR : Recorded body) {t : Tid} {x : Res}
    (r : Run hf body capacity w (.ret t x :: H)) (hlen : H.length + 1 < 2 ^ 31) {k : Slice} {Hp H1 : Hist} {v : Nat} {ch : UInt64}
    {d : Nat} {h : Handle} (hp : pendingAt H t = some (.prune, Hp)) (hi : Returned Hp (.insert k v ch d) H1 (.handle (some h)))
    (hb : GivenBack Hp h) (hl : NoLookup Hp H k.bytes) : (deletions w.cache.shards h).length = 1 := by
  obtain ⟨a, A, i, S⟩ := r.sim hH hI hS hlen
  have key : (deletions a.cache.shards h).length = 1 := by
    clear i S
    generalize hE : Ev.ret t x :: H = H' at A
    induction A with
    | init h => cases hE
    | call r h ih => cases hE
    | @effect a a' H' u c es e A h n o ih =>
      have := ih hE
      rw [C28_exactly_when hH A.reach] at this
      show (deletions a'.cache.shards _).length = 1
      cases o with
      | op ha e =>
        rw [C28_exactly_when hH (.step A.reach ha e)]
        exact Left.step hH A.reach ha e this
      | _ =>
        rw [← C28_exactly_when hH A.reach] at this
        exact this
    | @ret a H' t' c es x' A h' d' ih =>
      cases hE
      obtain ⟨es', hn⟩ := A.pendAt' hp
      rw [h'] at hn
      injection hn with hn
      injection hn with hn1 hn2
      subst hn1
      obtain ⟨rfl, rfl⟩ := d'
      obtain ⟨h1, h2⟩ := A.pruning hH t _ Hp k v ch d H1 h hp h' hi hb hl
      show (deletions a.cache.shards h).length = 1
      rw [C28_exactly_when hH A.reach]
      obtain ⟨z, hz1, hz2⟩ := (A.facts hH).ret _ _ _ (hi.pendingAt hp)
      injection hz1 with hz1
      injection hz1 with hz1
      subst hz1
      refine ⟨by rw [hz2]; exact Option.some_ne_none _, h1, h2 ?_⟩
      rw [List.length_map, List.length_range]
      obtain ⟨Hh, hHh⟩ := hH
      rcases Nat.lt_or_ge h.shard 16 with hj | hj
      · exact hj
      · have := ((reach_inv hHh A.reach).far _ hj).2.2
        rw [hz2] at this; cases this
  have h1 := (S.recorded hH hI hR i hlen h).length_le
  have h2 := (C76_deleter hH hI hS hR r hlen h).1
  omega

/-! ## The hypotheses are met -/

/-- What happens in an example: a call, steps of a thread, a return. -/
inductive Act where
  | call (t : Tid) (c : Call)
  | steps (t : Tid) (n : Nat)
  | ret (t : Tid) (x : Res)

/-- The rules for clients, for histories without `Value`. -/
def permitted (H : Hist) : Call → Bool
  | .insert k _ _ _ => decide k.WF
  | .lookup k => decide k.WF
  | .erase k => decide k.WF
  | .release h => decide (begun H h < got H h) && H.all fun e => match e with
    | .call _ (.value _) => false
    | _ => true
  | .value _ => false
  | _ => true

theorem permitted_of {c : Call} (h : permitted H c = true) : Permitted H c := by
  cases c with
  | insert k v ch d => exact of_decide_eq_true (p := k.WF) h
  | lookup k => exact of_decide_eq_true (p := k.WF) h
  | erase k => exact of_decide_eq_true (p := k.WF) h
  | release y =>
    simp only [permitted, Bool.and_eq_true] at h
    refine ⟨of_decide_eq_true h.1, fun t hp => ?_⟩
    have hp' := hp
    rw [← pendingAt_pending] at hp'
    cases e : pendingAt H t with
    | none => rw [e] at hp'; cases hp'
    | some z =>
      obtain ⟨c', H0⟩ := z
      rw [e] at hp'
      injection hp' with hp'
      have hm := pendingAt_mem e
      rw [show c' = Call.value y from hp'] at hm
      have := List.all_eq_true.mp h.2 _ hm
      cases this
  | value y => cases h
  | _ => trivial

def stepsOf (hf : Slice → M UInt32) (t : Tid) : Nat → World → World
  | 0, w => w
  | n + 1, w => match CacheReent.inner hf w t with
    | some w' => stepsOf hf t n w'
    | none => w

def act (hf : Slice → M UInt32) (H : Hist) (w : World) : Act → Option (World × Hist)
  | .call t c => match w.pc t with
    | .idle => if permitted H c then some (w.at t (begin c), .call t c :: H) else none
    | _ => none
  | .steps t n => some (stepsOf hf t n w, H)
  | .ret t x => match w.pc t with
    | .leave y => if x = y then some (w.at t .idle, .ret t x :: H) else none
    | _ => none

def acts (hf : Slice → M UInt32) : List Act → World → Hist → Option World
  | [], w, _ => some w
  | b :: l, w, H => match act hf H w b with
    | some (w', H') => acts hf l w' H'
    | none => none

/-- The history that the acts make. -/
def histOf : List Act → Hist → Hist
  | [], H => H
  | .call t c :: l, H => histOf l (.call t c :: H)
  | .steps _ _ :: l, H => histOf l H
  | .ret t x :: l, H => histOf l (.ret t x :: H)

theorem stepsOf_run {t : Tid} : ∀ {n : Nat} {w : World}, Run hf code capacity w H → Run hf code capacity (stepsOf hf t n w) H
  | 0, _, r => r
  | n + 1, w, r => by
    unfold stepsOf
    split
    · rename_i w' e; exact stepsOf_run (.internal r (CacheReent.inner_step e))
    · exact r

theorem acts_run : ∀ {l : List Act} {w w' : World} {H : Hist}, Run hf code capacity w H → acts hf l w H = some w' →
    Run hf code capacity w' (histOf l H)
  | [], _, _, _, r, e => by cases e; exact r
  | .call t c :: l, w, w', H, r, e => by
    simp only [acts, act] at e
    split at e
    · rename_i w1 H1 e1
      split at e1
      · rename_i hpc
        split at e1
        · rename_i hperm
          injection e1 with e1
          injection e1 with e2 e3
          subst e2; subst e3
          exact acts_run (l := l) (.call r (.call c hpc) (permitted_of hperm)) e
        · cases e1
      · cases e1
    · cases e
  | .steps t n :: l, w, w', H, r, e => by
    simp only [acts, act] at e
    exact acts_run (l := l) (stepsOf_run r) e
  | .ret t x :: l, w, w', H, r, e => by
    simp only [acts, act] at e
    split at e
    · rename_i w1 H1 e1
      split at e1
      · rename_i y hpc
        split at e1
        · rename_i hxy
          subst hxy
          injection e1 with e1
          injection e1 with e2 e3
          subst e2; subst e3
          exact acts_run (l := l) (.ret r (.ret hpc)) e
        · cases e1
      · cases e1
    · cases e

def onNewCache (hf : Slice → M UInt32) (capacity : UInt64) (l : List Act) : Option World :=
  match newSharded capacity with
  | .ok c => acts hf l ⟨c, fun _ => none, none, fun _ => .idle⟩ []
  | .error _ => none

theorem onNewCache_run {l : List Act} {f : World → Bool} (h : (onNewCache hf capacity l).any f = true) :
    ∃ w, Run hf code capacity w (histOf l []) ∧ f w = true := by
  unfold onNewCache at h
  split at h
  · rename_i c e
    cases e2 : acts hf l ⟨c, fun _ => none, none, fun _ => .idle⟩ [] with
    | none => rw [e2] at h; cases h
    | some w => rw [e2] at h; exact ⟨w, acts_run (.init e) e2, h⟩
  · cases h

def hA : Handle := ⟨12, 0⟩

/-- Thread 2 inserts an entry larger than the cache and keeps the reference; thread 1 prunes, and between the start and the end of that
thread 3 looks the entry up; `Prune` has to wait for it. -/
def usedActs : List Act := [.call 2 (.insert keyA 7 5000 9), .steps 2 100, .ret 2 (.handle (some hA)), .call 1 .prune, .steps 1 30,
  .call 3 (.lookup keyA), .steps 3 3, .steps 1 100, .steps 3 100, .steps 1 100, .ret 1 .unit, .ret 3 (.handle (some hA))]

example : ∃ w, Run HashSlice code 1600 w (histOf usedActs []) :=
  (onNewCache_run (f := fun _ => true) (by decide +kernel)).imp fun _ h => h.1

/-- The hypotheses of `C106_in_use_found` hold of this run. -/
example : ∃ H H0 H1, histOf usedActs [] = .ret 3 (.handle (some hA)) :: H ∧ pendingAt H 3 = some (.lookup keyA, H0) ∧
    Returned H0 (.insert keyA 7 5000 9) H1 (.handle (some hA)) ∧ OnlyWriter H1 H keyA.bytes ∧ begun H hA < got H0 hA :=
  ⟨_, _, _, rfl, rfl, .before (.now rfl), ⟨by (intro u c h; cases h), by decide +kernel⟩, by decide +kernel⟩

/-- Thread 2 inserts two entries and gives them back; thread 1 prunes, and meanwhile thread 2 looks the second one up. -/
def pruneActs : List Act := [.call 2 (.insert keyA 7 5 9), .steps 2 100, .ret 2 (.handle (some hA)), .call 2 (.release hA), .steps 2 100,
  .ret 2 .unit, .call 2 (.insert keyB 8 5 9), .steps 2 100, .ret 2 (.handle (some ⟨9, 0⟩)), .call 2 (.release ⟨9, 0⟩), .steps 2 100,
  .ret 2 .unit, .call 1 .prune, .steps 1 10, .call 2 (.lookup keyB), .steps 2 100, .ret 2 (.handle (some ⟨9, 0⟩)), .steps 1 200,
  .ret 1 .unit]

/-- The hypotheses of `C106_prune` hold of a run; the entry that was looked up meanwhile is still there. -/
example : ∃ w H Hp H1, Run HashSlice code 1600 w (.ret 1 .unit :: H) ∧ pendingAt H 1 = some (.prune, Hp) ∧
    Returned Hp (.insert keyA 7 5 9) H1 (.handle (some hA)) ∧ GivenBack Hp hA ∧ NoLookup Hp H keyA.bytes ∧
    (deletions w.cache.shards hA).length = 1 ∧ (deletions w.cache.shards ⟨9, 0⟩).length = 0 := by
  have e : (onNewCache HashSlice 1600 pruneActs).any (fun w => decide ((deletions w.cache.shards hA).length = 1) &&
      decide ((deletions w.cache.shards ⟨9, 0⟩).length = 0)) = true := by decide +kernel
  obtain ⟨w, r, hw⟩ := onNewCache_run e
  rw [Bool.and_eq_true] at hw
  refine ⟨w, _, _, _, r, rfl, .before (.before (.before (.before (.before (.before (.now rfl)))))),
    ⟨by decide +kernel, ?_⟩, ⟨?_, by decide +kernel⟩, of_decide_eq_true hw.1, of_decide_eq_true hw.2⟩
  · intro u
    simp only [histOf, pruneActs, pending]
    (repeat' split) <;> simp
  · intro u k
    simp only [histOf, pruneActs, pending]
    (repeat' split) <;> simp

end CacheConc
end Lsmdb
