import Verif.Proof.CacheRace1

/-!
# No data races in the cache
-/

namespace Lsmdb
namespace CacheConc
open Cache Spec

namespace Race

/-- The shard that the location belongs to. -/
def shardOf : Loc → Option Nat
  | .hash i _ => some i
  | .value i _ => some i
  | .rest i => some i
  | .lastId => none

theorem shard_ext {s s' : Shard} (hb : blank s = blank s') (hh : s.heap.hash = s'.heap.hash) (hv : s.heap.value = s'.heap.value) : s = s' := by
  obtain ⟨c, u, h, t, l⟩ := s
  obtain ⟨c', u', h', t', l'⟩ := s'
  obtain ⟨⟩ := h
  obtain ⟨⟩ := h'
  simp only [blank, Shard.mk.injEq, Heap.mk.injEq] at *
  simp_all

/-- If the memory differs at a location of another shard only, the shard is the same. -/
theorem same_shard {l : Loc} {i : Nat} (hl : shardOf l ≠ some i) {c c' : Sharded} (h : Lsmdb.Race.OnlyAt memory l c c') :
    c'.shards[i]? = c.shards[i]? := by
  have h1 := h.2 (.rest i) (by rintro rfl; exact hl rfl)
  have h2 := fun a => h.2 (.hash i a) (by rintro rfl; exact hl rfl)
  have h3 := fun a => h.2 (.value i a) (by rintro rfl; exact hl rfl)
  simp only [memory, valueAt, Val.rest.injEq, Val.hash.injEq, Val.value.injEq] at h1 h2 h3
  cases e : c.shards[i]? with
  | none => rw [e] at h1; cases e' : c'.shards[i]? with
    | none => rfl
    | some s' => rw [e'] at h1; cases h1
  | some s => rw [e] at h1 h2 h3; cases e' : c'.shards[i]? with
    | none => rw [e'] at h1; cases h1
    | some s' =>
      rw [e'] at h1 h2 h3
      injection h1 with h1
      refine congrArg some (shard_ext h1 ?_ ?_)
      · funext a; have := h2 a; injection this with this; exact congrArg Prod.snd this
      · funext a; have := h3 a; injection this with this; exact congrArg Prod.snd this

theorem get_setShard {l : Loc} {i : Nat} (hl : shardOf l ≠ some i) (c : Sharded) (s : Shard) : valueAt l (setShard c i s) = valueAt l c := by
  cases l with
  | lastId => rfl
  | hash j a =>
    have : j ≠ i := by rintro rfl; exact hl rfl
    simp only [valueAt, setShard_ne c s this]
  | value j a =>
    have : j ≠ i := by rintro rfl; exact hl rfl
    simp only [valueAt, setShard_ne c s this]
  | rest j =>
    have : j ≠ i := by rintro rfl; exact hl rfl
    simp only [valueAt, setShard_ne c s this]

variable {β : Type} {i : Nat} {f : Shard → M (Shard × β)} {l : Loc} {c : Sharded}

theorem onShard_ok {c2 : Sharded} {b : β} (h : onShard i f c = .ok (c2, b)) :
    ∃ s s2, c.shards[i]? = some s ∧ f s = .ok (s2, b) ∧ c2 = setShard c i s2 := by
  unfold onShard at h
  cases e : c.shards[i]? with
  | none => rw [e] at h; cases h
  | some s =>
    rw [e] at h
    simp only [bind, Except.bind] at h
    cases e2 : f s with
    | error x => rw [e2] at h; cases h
    | ok r => rw [e2] at h; cases h; exact ⟨s, r.1, rfl, e2, rfl⟩

theorem writes_shard (h : Lsmdb.Race.Writes memory (onShard i f) l c) : shardOf l = some i := by
  obtain ⟨c1, c2, b, h1, h2, h3⟩ := h
  apply Classical.byContradiction
  intro hl
  obtain ⟨s, s2, -, -, rfl⟩ := onShard_ok h2
  exact h3 (get_setShard hl _ _)

theorem reads_shard (h : Lsmdb.Race.Reads memory (onShard i f) l c) : shardOf l = some i := by
  obtain ⟨c1, h1, h2⟩ := h
  apply Classical.byContradiction
  intro hl
  refine h2 ?_
  have hs := same_shard hl h1
  unfold onShard
  rw [hs]
  cases e : c.shards[i]? with
  | none => exact rfl
  | some s =>
    simp only [bind, Except.bind]
    cases f s with
    | error x => exact rfl
    | ok r =>
      refine ⟨rfl, ?_, fun l' hl' => ?_⟩
      · simpa [memory, setShard] using h1.1
      · by_cases hi : shardOf l' = some i
        · have hi1 : i < c.shards.length := (List.getElem?_eq_some_iff.1 e).1
          have e1 : c1.shards[i]? = some s := hs.trans e
          cases l' with
          | lastId => cases hi
          | hash j a => injection hi with hi; subst hi; simp only [memory, valueAt, setShard_eq c _ e, setShard_eq c1 _ e1]
          | value j a => injection hi with hi; subst hi; simp only [memory, valueAt, setShard_eq c _ e, setShard_eq c1 _ e1]
          | rest j => injection hi with hi; subst hi; simp only [memory, valueAt, setShard_eq c _ e, setShard_eq c1 _ e1]
        · show valueAt l' _ = valueAt l' _
          rw [get_setShard hi, get_setShard hi]
          exact h1.2 l' hl'

/-! ## The threads -/

/-- What is left of each body is still, and allocated entries have addresses that were given out. -/
structure Tidy (w : World) : Prop where
  prog : ∀ t i m p k, w.pc t = .inside i m p k → Stills p
  below : ∀ (i : Nat) (s : Shard), w.cache.shards[i]? = some s → ∀ a, s.heap.live a = true → a < s.heap.fresh

theorem begin_ne (c : Call) (i : Nat) (m : Method) (p : Prog Shard MRes) (k : After) : begin c ≠ .inside i m p k := by
  cases c <;> exact fun h => nomatch h

theorem dispatch_ne (hash : UInt32) (c : Call) (i : Nat) (m : Method) (p : Prog Shard MRes) (k : After) : dispatch hash c ≠ .inside i m p k := by
  cases c <;> exact fun h => nomatch h

theorem proceed_ne (x : After) (r : MRes) (i : Nat) (m : Method) (p : Prog Shard MRes) (k : After) : proceed x r ≠ .inside i m p k := by
  cases x <;> cases r <;> simp only [proceed] <;> (try split) <;> exact fun h => nomatch h

theorem prog_at {w : World} {t : Tid} {q : Pc} (h : ∀ t i m p k, w.pc t = .inside i m p k → Stills p)
    (hq : ∀ i m p k, q = .inside i m p k → Stills p) : ∀ u i m p k, (w.at t q).pc u = .inside i m p k → Stills p := by
  intro u i m p k hp
  by_cases e : u = t
  · subst e
    have : (w.at u q).pc u = q := by simp [World.at]
    rw [this] at hp
    exact hq i m p k hp
  · have : (w.at t q).pc u = w.pc u := by simp [World.at, e]
    rw [this] at hp
    exact h u i m p k hp

theorem tidy_step {hf : Slice → M UInt32} {w w' : World} {e : Option Ev} (T : Tidy w) (s : Step hf code w e w') : Tidy w' := by
  cases s with
  | call c h => exact ⟨prog_at T.prog fun i m p k h => absurd h (begin_ne c i m p k), T.below⟩
  | hash h hk e => exact ⟨prog_at T.prog fun i m p k h => absurd h (dispatch_ne _ _ i m p k), T.below⟩
  | readHash h hs e hi => exact ⟨prog_at T.prog fun i m p k h => (nomatch h), T.below⟩
  | readValue h e => exact ⟨prog_at T.prog fun i m p k h => (nomatch h), T.below⟩
  | lock h hi free =>
    refine ⟨prog_at T.prog fun i m p k h => ?_, T.below⟩
    injection h with _ h1 h2
    subst h1; subst h2
    exact code_stills _
  | @body t i m k β f next s s' b h hs he =>
    have hP := T.prog t _ _ _ _ h
    have hn : (∀ b, Stills (next b)) ∧ ((∀ a, s.heap.live a = true → a < s.heap.fresh) → ∀ a, s'.heap.live a = true → a < s'.heap.fresh) := by
      cases hP with
      | step g g' => exact ⟨g', (g _ _ _ he).below⟩
      | free g' =>
        refine ⟨g', fun hb a ha => ?_⟩
        injection he with he
        injection he with he _
        subst he
        simp only [upd_apply] at ha
        split at ha
        · cases ha
        · exact hb a ha
    refine ⟨prog_at T.prog fun i' m' p' k' h' => ?_, ?_⟩
    · injection h' with _ _ h' _
      subst h'
      exact hn.1 b
    · intro j x hj
      have hj : (setShard w.cache i s').shards[j]? = some x := hj
      by_cases e : j = i
      · subst e
        rw [setShard_eq _ _ hs] at hj
        injection hj with hj
        subst hj
        exact hn.2 (T.below _ _ hs)
      · rw [setShard_ne _ _ e] at hj
        exact T.below _ _ hj
  | unlock h => exact ⟨prog_at T.prog fun i m p k h => absurd h (proceed_ne _ _ i m p k), T.below⟩
  | idLock h free => exact ⟨prog_at T.prog fun i m p k h => (nomatch h), T.below⟩
  | idNext h => exact ⟨prog_at T.prog fun i m p k h => (nomatch h), T.below⟩
  | idUnlock h => exact ⟨prog_at T.prog fun i m p k h => (nomatch h), T.below⟩
  | ret h => exact ⟨prog_at T.prog fun i m p k h => (nomatch h), T.below⟩

theorem newShard_below {cap : UInt64} {s : Shard} (h : newShard cap = .ok s) : ∀ a, s.heap.live a = true → a < s.heap.fresh := by
  unfold newShard at h
  simp only [bind, Except.bind] at h
  split at h
  · cases h
  · rename_i e
    cases h
    exact (Resize_still e).below fun a ha => nomatch ha

theorem tidy_run {hf : Slice → M UInt32} {capacity : UInt64} {w : World} {H : Hist} (r : Run hf code capacity w H) : Tidy w := by
  induction r with
  | @init c h =>
    refine ⟨fun t i m p k h => (nomatch h), fun i s hs => ?_⟩
    unfold newSharded at h
    cases e : newShard (perShard capacity) with
    | error f => rw [e] at h; cases h
    | ok s0 =>
      rw [e] at h
      cases h
      have hs : (List.replicate 16 s0)[i]? = some s := hs
      have : s = s0 := by
        rw [List.getElem?_replicate] at hs
        split at hs
        · injection hs with hs; exact hs.symm
        · cases hs
      rw [this]
      exact newShard_below e
  | internal r s ih => exact tidy_step ih s
  | call r s p ih => exact tidy_step ih s
  | ret r s ih => exact tidy_step ih s

/-- If a step of a body changes an entry that another thread is about to read, then it frees it. -/
theorem writes_entry {p : Prog Shard MRes} {next : β → Prog Shard MRes} (hp : p = .step f next) (hP : Stills p) {s s1 s2 : Shard} {b : β}
    {a : Nat} (hb : blank s1 = blank s) (ha : s.heap.live a = true) (hlt : a < s.heap.fresh) (e : f s1 = .ok (s2, b))
    (hne : s2.heap.live a ≠ s1.heap.live a ∨ s2.heap.hash a ≠ s1.heap.hash a ∨ s2.heap.value a ≠ s1.heap.value a) :
    ∃ s' b', f s = .ok (s', b') ∧ s'.heap.live a = false := by
  have hl : (blank s1).heap.live = (blank s).heap.live := congrArg (fun x : Shard => x.heap.live) hb
  replace hl : s1.heap.live = s.heap.live := hl
  have hfr : (blank s1).heap.fresh = (blank s).heap.fresh := congrArg (fun x : Shard => x.heap.fresh) hb
  replace hfr : s1.heap.fresh = s.heap.fresh := hfr
  cases hP with
  | done a => cases hp
  | step h h' =>
    injection hp with h0 h1 h2
    subst h0
    cases h1
    have S := h _ _ _ e
    rcases hne with hne | hne | hne
    · exact absurd (S.live a (by omega)) hne
    · exact absurd (S.hash a (by omega)) hne
    · exact absurd (S.value a (by omega)) hne
  | @free a0 nx h' =>
    injection hp with h0 h1 h2
    subst h0
    cases h1
    injection e with e
    injection e with e _
    subst e
    refine ⟨_, _, rfl, ?_⟩
    rcases hne with hne | hne | hne
    · by_cases h : a = a0
      · subst h; simp [upd]
      · exact absurd (by simp [upd, h]) hne
    · exact absurd rfl hne
    · exact absurd rfl hne

theorem no_race {hf : Slice → M UInt32} {capacity : UInt64} {w : World} {H : Hist} (hH : HashFn hf) (r : Run hf code capacity w H)
    (hlen : H.length < 2 ^ 31) : ¬ DataRace w := by
  have nf : ∀ {w' : World}, Run hf code capacity w' H → ¬ Faulty hf w' := by
    intro w' r'
    obtain ⟨a, A, i, S⟩ := r'.sim hH code_implements code_steady hlen
    exact S.not_faulty hH code_implements code_steady i hlen
  obtain ⟨at', A, I, S⟩ := r.sim hH code_implements code_steady hlen
  have T := tidy_run r
  have own : ∀ {t i m p k}, w.pc t = .inside i m p k → w.owner i = some t := by
    intro t i m p k h
    have := S.pc t
    rw [h] at this
    exact this.2.1
  rintro ⟨t, u, l, ne, ht, hu⟩
  cases ht with
  | id h =>
    have ho : w.idOwner = some t := by
      have := S.pc t
      rw [h] at this
      exact this.2
    have other : w.pc u ≠ .idInside := by
      intro h'
      have := S.pc u
      rw [h'] at this
      have := this.2
      rw [ho] at this
      injection this with this
      exact ne this
    rcases hu with hu | hu
    · cases hu with
      | body h x => have := reads_shard x; cases this
      | id h' => exact other h'
    · cases hu with
      | body h x => have := writes_shard x; cases this
      | id h' => exact other h'
  | @body i m k β f next l h x =>
    have hl := writes_shard x
    have excl : ∀ {m' p' k'}, w.pc u ≠ .inside i m' p' k' := by
      intro m' p' k' h'
      have := own h
      rw [own h'] at this
      injection this with this
      exact ne this.symm
    -- the entry is not read through a handle
    have entry : ∀ {y : Handle}, y.shard = i → (l = .hash i y.addr ∨ l = .value i y.addr) →
        (∃ s : Shard, w.cache.shards[i]? = some s ∧ s.heap.live y.addr = true) →
        (∀ w' : World, w'.pc u = w.pc u → (∃ s' : Shard, w'.cache.shards[i]? = some s' ∧ s'.heap.live y.addr = false) → Faulty hf w') → False := by
      intro y hy hly hlive hfault
      obtain ⟨s, hs, hlv⟩ := hlive
      obtain ⟨c1, c2, b, g1, g2, g3⟩ := x
      obtain ⟨s1, s2, e1, e2, rfl⟩ := onShard_ok g2
      have hb : blank s1 = blank s := by
        have := g1.2 (.rest i) (by rcases hly with rfl | rfl <;> exact fun h => nomatch h)
        simp only [memory, valueAt, e1, hs, Option.map_some, Val.rest.injEq, Option.some.injEq] at this
        exact this
      have hne : s2.heap.live y.addr ≠ s1.heap.live y.addr ∨ s2.heap.hash y.addr ≠ s1.heap.hash y.addr ∨
          s2.heap.value y.addr ≠ s1.heap.value y.addr := by
        apply Classical.byContradiction
        intro hn
        simp only [not_or, Decidable.not_not] at hn
        obtain ⟨n1, n2, n3⟩ := hn
        refine g3 ?_
        rcases hly with rfl | rfl
        · simp only [memory, valueAt, setShard_eq c1 _ e1, e1, Option.map_some, n1, n2]
        · simp only [memory, valueAt, setShard_eq c1 _ e1, e1, Option.map_some, n1, n3]
      obtain ⟨s', b', f1, f2⟩ := writes_entry rfl (T.prog _ _ _ _ _ h) hb hlv (T.below _ _ hs _ hlv) e2 hne
      have st := Step.body (hf := hf) (body := code) h hs f1
      refine nf (Run.internal r st) (hfault _ ?_ ⟨s', ?_, f2⟩)
      · show (World.at _ _ _).pc u = _
        simp [World.at, Ne.symm ne]
      · exact setShard_eq _ _ hs
    rcases hu with hu | hu
    · cases hu with
      | body h' x' =>
        have hl' := reads_shard x'
        rw [hl] at hl'
        injection hl' with hl'
        subst hl'
        exact excl h'
      | @hash y p =>
        have hi : y.shard = i := by injection hl
        subst hi
        refine entry rfl (.inl rfl) ?_ ?_
        · apply Classical.byContradiction
          intro hn
          refine nf r (.readHash p ?_)
          rintro ⟨s, h1, h2, -⟩
          refine hn ⟨s, h1, ?_⟩
          unfold derefNode at h2
          split at h2
          · assumption
          · cases h2
        · rintro w' hpc ⟨s', h1, h2⟩
          refine .readHash (hpc.trans p) ?_
          rintro ⟨s, g1, g2, -⟩
          rw [h1] at g1
          injection g1 with g1
          subst g1
          unfold derefNode at g2
          rw [h2] at g2
          cases g2
      | @value y p =>
        have hi : y.shard = i := by injection hl
        subst hi
        refine entry rfl (.inr rfl) ?_ ?_
        · cases hv : Sharded.Value w.cache y with
          | error er => exact absurd (Faulty.readValue p hv) (nf r)
          | ok v =>
            unfold Sharded.Value getShard at hv
            cases hs : w.cache.shards[y.shard]? with
            | none => rw [hs] at hv; cases hv
            | some s =>
              rw [hs] at hv
              refine ⟨s, rfl, ?_⟩
              simp only [bind, Except.bind, derefNode] at hv
              split at hv
              · cases hv
              · rename_i e
                split at e
                · assumption
                · cases e
        · rintro w' hpc ⟨s', h1, h2⟩
          refine .readValue (f := .useAfterFree) (hpc.trans p) ?_
          unfold Sharded.Value getShard
          rw [h1]
          simp only [bind, Except.bind, derefNode, h2]
          rfl
      | id h' => cases hl
    · cases hu with
      | body h' x' =>
        have hl' := writes_shard x'
        rw [hl] at hl'
        injection hl' with hl'
        subst hl'
        exact excl h'
      | id h' => cases hl

end Race
end CacheConc
end Lsmdb
