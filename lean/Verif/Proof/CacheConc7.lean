import Verif.Proof.CacheConc6
import Verif.Props.Cache

/-!
# The deleters while threads run
-/

namespace Lsmdb
namespace CacheConc
open Cache Spec

/-- Every step of the program only appends to the record. -/
inductive Logs {α : Type} : Prog Shard α → Prop
  | done (a : α) : Logs (.done a)
  | step {β : Type} {f : Shard → M (Shard × β)} {next : β → Prog Shard α}
      (h : ∀ s s' b, f s = .ok (s', b) → s.log <+: s'.log) (h' : ∀ b, Logs (next b)) : Logs (.step f next)

theorem Logs.bind {α β : Type} {p : Prog Shard α} {g : α → Prog Shard β} (h : Logs p) (hg : ∀ a, Logs (g a)) :
    Logs (p.bind g) := by
  induction h with
  | done a => exact hg a
  | step h h' ih => exact .step h ih

theorem Logs.run {α : Type} {p : Prog Shard α} (h : Logs p) : ∀ {s s' : Shard} {a : α}, p.run s = .ok (s', a) →
    s.log <+: s'.log := by
  induction h with
  | done a => intro s s' b e; cases e; exact List.prefix_refl _
  | @step β f next h h' ih =>
    intro s s' b e
    simp only [Prog.run, bind, Except.bind] at e
    cases e1 : f s with
    | error x => rw [e1] at e; cases e
    | ok x => rw [e1] at e; exact (h s x.1 x.2 e1).trans (ih x.2 e)

theorem Logs.mid {p : Prog Shard MRes} {s s1 : Shard} (m : Mid p s s1) : Logs p → ∀ {s2 r}, p.run s = .ok (s2, r) →
    s.log <+: s1.log ∧ s1.log <+: s2.log := by
  induction m with
  | here p s => exact fun k s2 r e => ⟨List.prefix_refl _, k.run e⟩
  | @step β f next s s1 s2' b e m ih =>
    intro k s2 r er
    cases k with
    | step h h' =>
      simp only [Prog.run, e, bind, Except.bind] at er
      obtain ⟨h1, h2⟩ := ih (h' b) er
      exact ⟨(h _ _ _ e).trans h1, h2⟩

/-- A step that leaves the record alone. -/
theorem log_same {s s' : Shard} (h : s'.log = s.log) : s.log <+: s'.log := by rw [h]

theorem onHeap_logs {f : Heap → M Heap} (s s' : Shard) (b : Unit) (x : onHeap f s = .ok (s', b)) : s.log <+: s'.log := by
  simp only [onHeap, bind, Except.bind] at x
  split at x
  · cases x
  · cases x; exact log_same rfl

theorem unref_logs (a : Nat) : Logs (unrefCode a) := by
  refine .step ?_ ?_
  · intro s s' b x
    simp only [bind, Except.bind] at x
    split at x
    · cases x
    · split at x
      · cases x
      · cases x; exact log_same rfl
  · rintro ⟨refs, inCache⟩
    show Logs (if refs = 0 then _ else _)
    split
    · refine .step ?_ fun _ => .step ?_ fun _ => .done _
      · intro s s' b x
        simp only [bind, Except.bind] at x
        split at x
        · cases x
        · split at x
          · cases x
          · split at x
            · cases x
            · cases x
              exact List.prefix_append _ _
      · intro s s' b x; cases x; exact log_same rfl
    · split
      · exact .step onHeap_logs fun _ => .step onHeap_logs fun _ => .done _
      · exact .done _

theorem finishErase_logs (o : Option Nat) : Logs (finishEraseCode o) := by
  cases o with
  | none => exact .done _
  | some a =>
    refine .step onHeap_logs fun _ => .step ?_ fun _ => .step ?_ fun _ => (unref_logs a).bind fun _ => .done _
    · intro s s' b x; cases x; exact log_same rfl
    · intro s s' b x; cases x; exact log_same rfl

theorem removeKey_logs (k : Slice) (hash : UInt32) : Logs (removeKeyCode k hash) := by
  refine .step ?_ fun r => finishErase_logs r
  intro s s' b x
  simp only [bind, Except.bind] at x
  split at x
  · cases x
  · cases x; exact log_same rfl

theorem evictOne_logs (a : Nat) : Logs (evictOneCode a) := by
  refine .step ?_ ?_
  · intro s s' b x
    simp only [bind, Except.bind] at x
    split at x
    · cases x
    · split at x
      · cases x
      · split at x
        · cases x
        · cases x; exact log_same rfl
  · rintro ⟨k, hash⟩
    refine (removeKey_logs k hash).bind fun erased => .step ?_ fun _ => .done _
    intro s s' b x
    simp only [bind, Except.bind] at x
    split at x
    · cases x
    · cases x; exact log_same rfl

theorem evictLoop_logs (over : Shard → Bool) (fuel : Nat) : Logs (evictLoopCode over fuel) := by
  induction fuel with
  | zero =>
    refine .step ?_ fun _ => .done _
    intro s s' b x
    split at x
    · cases x
    · cases x; exact log_same rfl
  | succ n ih =>
    refine .step ?_ ?_
    · intro s s' b x
      simp only [loopTest, bind, Except.bind] at x
      split at x
      · split at x
        · cases x
        · split at x
          · cases x; exact log_same rfl
          · cases x
      · cases x; exact log_same rfl
    · intro old
      cases old with
      | none => exact .done _
      | some a => exact (evictOne_logs a).bind fun _ => ih

theorem insertCached_logs (a : Nat) : Logs (insertCachedCode a) := by
  refine .step ?_ fun _ => .step ?_ fun _ => .step onHeap_logs fun _ => .step ?_ fun _ => .step ?_
    fun old => (finishErase_logs old).bind fun _ => .done _
  · intro s s' b x; cases x; exact log_same rfl
  · intro s s' b x; cases x; exact log_same rfl
  · intro s s' b x; cases x; exact log_same rfl
  · intro s s' b x
    simp only [bind, Except.bind] at x
    split at x
    · cases x
    · cases x; exact log_same rfl

theorem code_logs (m : Method) : Logs (code m) := by
  cases m with
  | insert key hash value charge deleter =>
    refine .step ?_ fun a => .step ?_ fun c => Logs.bind ?_ fun _ => .step ?_ fun fuel => (evictLoop_logs _ _).bind fun _ => .done _
    · intro s s' b x
      simp only [bind, Except.bind] at x
      split at x
      · cases x
      · cases x; exact log_same rfl
    · intro s s' b x; cases x; exact log_same rfl
    · split
      · exact insertCached_logs a
      · exact .done _
    · intro s s' b x; cases x; exact log_same rfl
  | lookup key hash =>
    refine .step ?_ fun e => ?_
    · intro s s' b x
      simp only [bind, Except.bind] at x
      split at x
      · cases x
      · cases x; exact log_same rfl
    · cases e with
      | none => exact .done _
      | some a => exact .step onHeap_logs fun _ => .done _
  | release a => exact (unref_logs a).bind fun _ => .done _
  | erase key hash => exact (removeKey_logs key hash).bind fun _ => .done _
  | prune =>
    refine .step ?_ fun fuel => (evictLoop_logs _ _).bind fun _ => .done _
    intro s s' b x; cases x; exact log_same rfl
  | totalCharge =>
    refine .step ?_ fun _ => .done _
    intro s s' b x; cases x; exact log_same rfl

theorem code_recorded : Recorded code := fun m _ _ _ _ mid e => Logs.mid mid (code_logs m) e

variable {hf : Slice → M UInt32} {capacity : UInt64} {a : Atom} {H : Hist} {body : Method → Prog Shard MRes} {w : World}

/-- The deleter runs so far are among those of a state of the atomic cache that also satisfies the invariant. -/
theorem Sim.deletions (hH : HashFn hf) (hI : Implements body) (hR : Recorded body) (S : Sim hf body w a)
    (i : Inv hf capacity a H) (hlen : H.length < 2 ^ 31) (h : Handle) :
    ∃ a', Inv hf capacity a' H ∧ deletions w.cache.shards h <+: deletions a'.cache.shards h := by
  cases ho : w.owner h.shard with
  | none =>
    refine ⟨a, i, ?_⟩
    unfold Spec.deletions
    rw [S.free _ ho]
  | some t =>
    obtain ⟨m, p, k, hp⟩ := S.owned _ _ ho
    have := S.pc t
    rw [hp] at this
    obtain ⟨⟨c, es, hnow, rd⟩, -, s0, s1, h0, h1, hc⟩ := this
    obtain ⟨s2, r, e, a', hrun, n, o, hca, -⟩ := i.section hH hlen hnow rd h0
    refine ⟨_, i.effect hnow n o, ?_⟩
    have hm := hc.mid (Mid.here _ _)
    have := (hR m s0 s1 s2 r hm ((hI m s0).trans hrun)).2
    have hs : (a'.at t (some (c, es ++ [e]))).cache.shards[h.shard]? = some s2 := by
      show a'.cache.shards[h.shard]? = _
      rw [hca]
      exact setShard_eq _ _ h0
    unfold Spec.deletions
    rw [h1, hs]
    exact this.filter _

theorem Inv.outstanding_pos (i : Inv hf capacity a H) {h : Handle} (hb : begun H h < CacheConc.got H h) : 0 < outstanding a.tr h := by
  obtain ⟨n, -, h1⟩ := i.got h
  obtain ⟨m, -, h2⟩ := i.rel h
  unfold outstanding
  omega

end CacheConc
end Lsmdb
