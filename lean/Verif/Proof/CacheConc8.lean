import Verif.Proof.CacheConc7

/-!
# What the histories of the atomic cache say about handles
-/

namespace Lsmdb
namespace CacheConc
open Cache Spec

variable {hf : Slice → M UInt32} {capacity : UInt64} {a : Atom} {H : Hist}

theorem Atomic.reach (r : Atomic hf capacity a H) : Reach hf capacity a.cache a.tr := by
  induction r with
  | init h => exact .init h
  | call r h ih => exact ih
  | effect r h n o ih =>
    cases o with
    | op ha e => exact .step ih ha e
    | value ho e => exact ih
    | id => exact ih
    | charge hs => exact ih
  | ret r h d ih => exact ih

theorem pendingAt_pending (H : Hist) (t : Tid) : (pendingAt H t).map (·.1) = pending H t := by
  induction H with
  | nil => rfl
  | cons e H ih =>
    cases e with
    | call u c =>
      simp only [pendingAt, pending]
      split
      · rfl
      · exact ih
    | ret u x =>
      simp only [pendingAt, pending]
      split
      · rfl
      · exact ih

theorem Atomic.pend (r : Atomic hf capacity a H) : ∀ t, pending H t = (a.now t).map (·.1) := by
  induction r with
  | init h => intro t; rfl
  | @call a H t c r h ih =>
    intro u
    simp only [pending, Atom.at]
    by_cases e : u = t
    · subst e; simp
    · rw [if_neg (fun x => e x.symm), if_neg e]; exact ih u
  | @effect a a' H t c es e r h n o ih =>
    intro u
    have : a'.now = a.now := by cases o <;> rfl
    simp only [Atom.at, this]
    by_cases e : u = t
    · subst e; rw [if_pos rfl, ih u, h]; rfl
    · rw [if_neg e]; exact ih u
  | @ret a H t c es x r h d ih =>
    intro u
    simp only [pending, Atom.at]
    by_cases e : u = t
    · subst e; simp
    · rw [if_neg (fun x => e x.symm), if_neg e]; exact ih u

theorem Atomic.pendAt (r : Atomic hf capacity a H) {t : Tid} {c : Call} {es : List Effect} (h : a.now t = some (c, es)) :
    ∃ H0, pendingAt H t = some (c, H0) := by
  have h1 := r.pend t
  rw [h, ← pendingAt_pending] at h1
  cases e : pendingAt H t with
  | none => rw [e] at h1; cases h1
  | some x =>
    rw [e] at h1
    obtain ⟨c', H0⟩ := x
    injection h1 with h1
    exact ⟨H0, by rw [← show c' = c from h1]⟩

theorem Atomic.pendAt' (r : Atomic hf capacity a H) {t : Tid} {c : Call} {H0 : Hist} (h : pendingAt H t = some (c, H0)) :
    ∃ es, a.now t = some (c, es) := by
  have h1 := r.pend t
  rw [← pendingAt_pending, h] at h1
  cases e : a.now t with
  | none => rw [e] at h1; cases h1
  | some x =>
    rw [e] at h1
    obtain ⟨c', es⟩ := x
    injection h1 with h1
    exact ⟨es, by rw [show c = c' from h1]⟩

/-! ## Handles are new -/

/-- Insert returns a handle that was never returned before. -/
theorem insert_new (hH : HashFn hf) {c c' : Sharded} {tr : CTrace} (hr : Reach hf capacity c tr) {k : Slice} {v : Nat} {ch : UInt64}
    {d : Nat} (ha : Allowed tr (.insert k v ch d)) {x : Option Handle} (e : cstep hf c (.insert k v ch d) = .ok (c', x)) :
    ∃ h, x = some h ∧ inserted tr h = none := by
  obtain ⟨Hh, hHh⟩ := hH
  obtain ⟨s, A, s', A', hs, r, t, e', -⟩ := step_insert (reach_inv hHh hr) hHh ha
  rw [e'] at e
  injection e with e
  injection e with e1 e2
  exact ⟨_, e2.symm, t.noins _ (Nat.le_refl _)⟩

/-- What was inserted with a handle never changes. -/
theorem inserted_stable (hH : HashFn hf) {c c' : Sharded} {tr : CTrace} (hr : Reach hf capacity c tr) {o : COp}
    (ha : Allowed tr o) {x : Option Handle} (e : cstep hf c o = .ok (c', x)) {h : Handle} {i : CInfo} (hi : inserted tr h = some i) :
    inserted (⟨o, x⟩ :: tr) h = some i := by
  cases o with
  | insert k v ch d =>
    obtain ⟨h', rfl, hn⟩ := insert_new hH hr ha e
    simp only [inserted]
    rw [if_neg]
    · exact hi
    · intro e; injection e with e; subst e; rw [hn] at hi; cases hi
  | _ => exact hi

/-- An entry that is no longer the current one of the key. -/
def Gone (tr : CTrace) (kb : Bytes) (h : Handle) : Prop := inserted tr h ≠ none ∧ current tr kb ≠ some h

theorem Gone.step (hH : HashFn hf) {c c' : Sharded} {tr : CTrace} (hr : Reach hf capacity c tr) {o : COp}
    (ha : Allowed tr o) {x : Option Handle} (e : cstep hf c o = .ok (c', x)) {kb : Bytes} {h : Handle} (g : Gone tr kb h) :
    Gone (⟨o, x⟩ :: tr) kb h := by
  obtain ⟨g1, g2⟩ := g
  refine ⟨?_, ?_⟩
  · cases hi : inserted tr h with
    | none => exact absurd hi g1
    | some i => rw [inserted_stable hH hr ha e hi]; exact Option.some_ne_none _
  · cases o with
    | insert k v ch d =>
      obtain ⟨h', rfl, hn⟩ := insert_new hH hr ha e
      simp only [current]
      split
      · intro e; injection e with e; subst e; exact g1 hn
      · exact g2
    | erase k =>
      simp only [current]
      split
      · intro e; cases e
      · exact g2
    | _ => exact g2

/-- A call that sets or removes the entry of the key makes every older entry of it go. -/
theorem Gone.writes (hH : HashFn hf) {c c' : Sharded} {tr : CTrace} (hr : Reach hf capacity c tr) {o : COp}
    (ha : Allowed tr o) {x : Option Handle} (e : cstep hf c o = .ok (c', x)) {kb : Bytes} {h : Handle} (hi : inserted tr h ≠ none)
    (hw : (∃ k v ch d, o = .insert k v ch d ∧ k.bytes = kb) ∨ ∃ k, o = .erase k ∧ k.bytes = kb) : Gone (⟨o, x⟩ :: tr) kb h := by
  refine ⟨?_, ?_⟩
  · cases hi' : inserted tr h with
    | none => exact absurd hi' hi
    | some i => rw [inserted_stable hH hr ha e hi']; exact Option.some_ne_none _
  · rcases hw with ⟨k, v, ch, d, rfl, rfl⟩ | ⟨k, rfl, rfl⟩
    · obtain ⟨h', rfl, hn⟩ := insert_new hH hr ha e
      simp only [current, if_true]
      intro e; injection e with e; subst e; exact hi hn
    · simp only [current, if_true]
      intro e; cases e

/-! ## What is known about a call that has had its effects -/

/-- What the handle and the value returned by a call mean. -/
def Fact (tr : CTrace) : Call → Res → Prop
  | .insert k v ch d, x => ∃ h, x = .handle (some h) ∧ inserted tr h = some ⟨k.bytes, v, ch, d⟩
  | .lookup k, x => x = .handle none ∨ ∃ h i, x = .handle (some h) ∧ inserted tr h = some i ∧ i.key = k.bytes
  | .value h, x => ∃ i, inserted tr h = some i ∧ x = .value i.value
  | _, _ => True

theorem Fact.mono {tr tr' : CTrace} (hs : ∀ h i, inserted tr h = some i → inserted tr' h = some i) {c : Call}
    {x : Res} (f : Fact tr c x) : Fact tr' c x := by
  cases c with
  | insert k v ch d =>
    obtain ⟨h, rfl, hi⟩ := f
    exact ⟨h, rfl, hs _ _ hi⟩
  | lookup k =>
    rcases f with rfl | ⟨h, i, rfl, hi, hk⟩
    · exact Or.inl rfl
    · exact Or.inr ⟨h, i, rfl, hs _ _ hi, hk⟩
  | value h =>
    obtain ⟨i, hi, rfl⟩ := f
    exact ⟨i, hs _ _ hi, rfl⟩
  | _ => trivial

/-- The handle a call has got. -/
def handleOf : TState → Option Handle
  | some (.insert _ _ _ _, [.op ⟨_, x⟩]) => x
  | some (.lookup _, [.op ⟨_, x⟩]) => x
  | _ => none

structure Facts (a : Atom) (H : Hist) : Prop where
  /-- calls that returned -/
  ret : ∀ c H0 x, Returned H c H0 x → Fact a.tr c x
  /-- calls that had their effect -/
  pend : ∀ t c es x, a.now t = some (c, es) → Complete c es x → Fact a.tr c x
  got : ∀ h, 0 < got H h → inserted a.tr h ≠ none
  origin : ∀ h i, inserted a.tr h = some i → ∃ t k v ch d, Ev.call t (.insert k v ch d) ∈ H ∧ i = ⟨k.bytes, v, ch, d⟩
  got0 : ∀ t c H0 h, pendingAt H t = some (c, H0) → 0 < CacheConc.got H0 h → inserted a.tr h ≠ none
  stale : ∀ kb h, Stale H kb h → Gone a.tr kb h
  wrote : ∀ t c es e kb h H0, a.now t = some (c, es ++ [e]) → pendingAt H t = some (c, H0) → Writes kb c → 0 < CacheConc.got H0 h →
    Gone a.tr kb h
  stale0 : ∀ t c H0 kb h, pendingAt H t = some (c, H0) → Stale H0 kb h → Gone a.tr kb h
  looked : ∀ t k es h H0, a.now t = some (.lookup k, es) → pendingAt H t = some (.lookup k, H0) → Stale H0 k.bytes h →
    handleOf (a.now t) ≠ some h
  retStale : ∀ k H0 x h, Returned H (.lookup k) H0 x → Stale H0 k.bytes h → x ≠ .handle (some h)

theorem pendingAt_mem {H : Hist} {t : Tid} {c : Call} {H0 : Hist} (h : pendingAt H t = some (c, H0)) : Ev.call t c ∈ H := by
  induction H with
  | nil => cases h
  | cons e H ih =>
    cases e with
    | call u c' =>
      simp only [pendingAt] at h
      split at h
      · rename_i e
        injection h with h
        injection h with h1 h2
        subst h1; subst e
        exact List.mem_cons_self
      · exact List.mem_cons_of_mem _ (ih h)
    | ret u x =>
      simp only [pendingAt] at h
      split at h
      · cases h
      · exact List.mem_cons_of_mem _ (ih h)

theorem Complete.nonempty {c : Call} {x : Res} : ¬ Complete c [] x := by
  intro h
  cases c with
  | insert k v ch d => obtain ⟨_, h, -⟩ := h; cases h
  | lookup k => obtain ⟨_, h, -⟩ := h; cases h
  | release y => cases h.1
  | erase k => cases h.1
  | value y => obtain ⟨_, h, -⟩ := h; cases h
  | newId => obtain ⟨_, h, -⟩ := h; cases h
  | prune => have := congrArg List.length h.1; simp at this
  | totalCharge => obtain ⟨n, h, -⟩ := h; have := congrArg List.length h; simp at this

theorem Facts.init {c : Sharded} : Facts ⟨c, [], 0, fun _ => none⟩ [] where
  ret := by intro _ _ _ h; cases h
  pend := by intro _ _ _ _ h; cases h
  got := by intro _ h; exact absurd h (Nat.lt_irrefl _)
  origin := by intro _ _ h; cases h
  got0 := by intro _ _ _ _ h; cases h
  stale := by rintro _ _ ⟨_, _, _, h, _⟩; cases h
  wrote := by intro _ _ _ _ _ _ _ h; cases h
  stale0 := by intro _ _ _ _ _ h; cases h
  looked := by intro _ _ _ _ _ h; cases h
  retStale := by intro _ _ _ _ h; cases h

theorem Facts.call (f : Facts a H) {t : Tid} {c : Call} : Facts (a.at t (some (c, []))) (.call t c :: H) where
  ret := by
    intro c' H0 x h
    cases h with
    | before h => exact f.ret _ _ _ h
  pend := by
    intro u c' es x h d
    simp only [Atom.at] at h
    split at h
    · injection h with h
      injection h with h1 h2
      subst h2
      exact absurd d Complete.nonempty
    · exact f.pend _ _ _ _ h d
  got := f.got
  origin := by
    intro h i hi
    obtain ⟨t', k, v, ch, d, hm, e⟩ := f.origin h i hi
    exact ⟨t', k, v, ch, d, List.mem_cons_of_mem _ hm, e⟩
  got0 := by
    intro u c' H0 h hp hg
    simp only [pendingAt] at hp
    split at hp
    · injection hp with hp
      injection hp with h1 h2
      subst h2
      exact f.got _ hg
    · exact f.got0 _ _ _ _ hp hg
  stale := by
    rintro kb h ⟨c', H0, x, hr, hw, hg⟩
    cases hr with
    | before hr => exact f.stale _ _ ⟨_, _, _, hr, hw, hg⟩
  wrote := by
    intro u c' es e kb h H0 hn hp
    simp only [Atom.at] at hn
    split at hn
    · injection hn with hn
      injection hn with h1 h2
      exact absurd h2.symm (by simp)
    · rename_i ne
      simp only [pendingAt, if_neg (fun x : t = u => ne x.symm)] at hp
      exact f.wrote _ _ _ _ _ _ _ hn hp
  stale0 := by
    intro u c' H0 kb h hp hs
    simp only [pendingAt] at hp
    split at hp
    · injection hp with hp
      injection hp with h1 h2
      subst h2
      exact f.stale _ _ hs
    · exact f.stale0 _ _ _ _ _ hp hs
  looked := by
    intro u k es h H0 hn hp hs
    simp only [Atom.at] at hn ⊢
    split at hn
    · rename_i e
      injection hn with hn
      injection hn with h1 h2
      subst h1; subst h2
      rw [if_pos e]
      intro h; cases h
    · rename_i ne
      rw [if_neg ne]
      simp only [pendingAt, if_neg (fun x : t = u => ne x.symm)] at hp
      exact f.looked _ _ _ _ _ hn hp hs
  retStale := by
    intro k H0 x h hr
    cases hr with
    | before hr => exact f.retStale _ _ _ _ hr

theorem Facts.ret' (f : Facts a H) (A : Atomic hf capacity a H) {t : Tid} {c : Call} {es : List Effect} {x : Res}
    (h : a.now t = some (c, es)) (d : Complete c es x) : Facts (a.at t none) (.ret t x :: H) := by
  have hc : ∀ {c' H0}, pendingAt H t = some (c', H0) → c' = c := by
    intro c' H0 hp
    obtain ⟨es', e⟩ := A.pendAt' hp
    rw [h] at e
    injection e with e
    injection e with e1 e2
    exact e1.symm
  refine ⟨?_, ?_, ?_, ?_, ?_, ?_, ?_, ?_, ?_, ?_⟩
  · intro c' H0 y hr
    cases hr with
    | now hp => rw [hc hp]; exact f.pend _ _ _ _ h d
    | before hr => exact f.ret _ _ _ hr
  · intro u c' es' y hn dn
    simp only [Atom.at] at hn
    split at hn
    · cases hn
    · exact f.pend _ _ _ _ hn dn
  · intro y hy
    have hF := f.pend _ _ _ _ h d
    have same : CacheConc.got (.ret t x :: H) y = CacheConc.got H y + (if x = .handle (some y) then 1 else 0) := by
      cases x <;> simp [CacheConc.got]
    rw [same] at hy
    by_cases e : x = .handle (some y)
    · subst e
      show inserted a.tr y ≠ none
      cases c with
      | insert k v ch dl =>
        obtain ⟨h', e, hi⟩ := hF
        cases e
        rw [hi]; exact Option.some_ne_none _
      | lookup k =>
        rcases hF with e | ⟨h', i, e, hi, -⟩
        · cases e
        · cases e
          rw [hi]; exact Option.some_ne_none _
      | release _ => cases d.2
      | erase _ => cases d.2
      | value _ => obtain ⟨_, _, d⟩ := d; cases d
      | newId => obtain ⟨_, _, d⟩ := d; cases d
      | prune => cases d.2
      | totalCharge => obtain ⟨_, _, d⟩ := d; cases d
    · rw [if_neg e] at hy
      exact f.got _ hy
  · intro y i hi
    obtain ⟨t', k, v, ch, d, hm, e⟩ := f.origin y i hi
    exact ⟨t', k, v, ch, d, List.mem_cons_of_mem _ hm, e⟩
  · intro u c' H0 y hp hg
    simp only [pendingAt] at hp
    split at hp
    · cases hp
    · exact f.got0 _ _ _ _ hp hg
  · rintro kb y ⟨c', H0, z, hr, hw, hg⟩
    cases hr with
    | now hp =>
      have := hc hp
      subst this
      have : ∃ e, es = [e] := by
        cases c' with
        | insert k v ch dl => obtain ⟨_, d, -⟩ := d; exact ⟨_, d⟩
        | erase k => exact ⟨_, d.1⟩
        | _ => cases hw
      obtain ⟨e, rfl⟩ := this
      exact f.wrote t c' [] e kb y H0 h hp hw hg
    | before hr => exact f.stale _ _ ⟨_, _, _, hr, hw, hg⟩
  · intro u c' es' e kb y H0 hn hp
    simp only [Atom.at] at hn
    split at hn
    · cases hn
    · rename_i ne
      simp only [pendingAt, if_neg (fun x : t = u => ne x.symm)] at hp
      exact f.wrote _ _ _ _ _ _ _ hn hp
  · intro u c' H0 kb y hp hs
    simp only [pendingAt] at hp
    split at hp
    · cases hp
    · exact f.stale0 _ _ _ _ _ hp hs
  · intro u k es' y H0 hn hp hs
    simp only [Atom.at] at hn ⊢
    split at hn
    · cases hn
    · rename_i ne
      rw [if_neg ne]
      simp only [pendingAt, if_neg (fun x : t = u => ne x.symm)] at hp
      exact f.looked _ _ _ _ _ hn hp hs
  · intro k H0 z y hr hs
    cases hr with
    | now hp =>
      have := hc hp
      subst this
      have hl := f.looked _ _ _ _ _ h hp hs
      rw [h] at hl
      obtain ⟨w, rfl, rfl⟩ := d
      intro e
      injection e with e
      exact hl e
    | before hr => exact f.retStale _ _ _ _ hr hs

theorem Facts.effect (hH : HashFn hf) (f : Facts a H) (A : Atomic hf capacity a H) {a' : Atom} {t : Tid} {c : Call}
    {es : List Effect} {e : Effect} (h : a.now t = some (c, es)) (n : Next c es e) (o : Occurs hf a e a') :
    Facts (a'.at t (some (c, es ++ [e]))) H := by
  have hnow : a'.now = a.now := by cases o <;> rfl
  have hst : ∀ y i, inserted a.tr y = some i → inserted a'.tr y = some i := by
    intro y i hi
    cases o with
    | op ha e => exact inserted_stable hH A.reach ha e hi
    | _ => exact hi
  have hne : ∀ y, inserted a.tr y ≠ none → inserted a'.tr y ≠ none := by
    intro y hy
    cases hi : inserted a.tr y with
    | none => exact absurd hi hy
    | some i => rw [hst _ _ hi]; exact Option.some_ne_none _
  have hgo : ∀ kb y, Gone a.tr kb y → Gone a'.tr kb y := by
    intro kb y hg
    cases o with
    | op ha e => exact hg.step hH A.reach ha e
    | _ => exact hg
  obtain ⟨H1, hp1⟩ := A.pendAt h
  refine ⟨?_, ?_, ?_, ?_, ?_, ?_, ?_, ?_, ?_, ?_⟩
  · exact fun c' H0 x hr => (f.ret c' H0 x hr).mono hst
  · intro u c' es' x hn dn
    simp only [Atom.at, hnow] at hn
    split at hn
    · injection hn with hn
      injection hn with h1 h2
      subst h1; subst h2
      show Fact a'.tr c x
      cases n.is with
      | insert k v ch d y =>
        cases o with
        | op ha e =>
          obtain ⟨y', hy, rfl⟩ := dn
          injection hy with hy
          injection hy with hy
          injection hy with _ hy
          injection hy with hy
          subst hy
          exact ⟨y, rfl, by simp [inserted]⟩
      | lookup k y =>
        cases o with
        | op ha e =>
          obtain ⟨y', hy, rfl⟩ := dn
          injection hy with hy
          injection hy with hy
          injection hy with _ hy
          subst hy
          cases y with
          | none => exact Or.inl rfl
          | some y =>
            obtain ⟨c2, r2, e2, h2⟩ := Props.C26_lookup hH A.reach ha
            rw [e2] at e
            injection e with e
            injection e with e3 e4
            obtain ⟨-, i, hi, hk, -⟩ := h2 y e4
            exact Or.inr ⟨y, i, rfl, hst _ _ hi, hk⟩
      | value y v =>
        cases o with
        | value ho e =>
          obtain ⟨v', hy, rfl⟩ := dn
          injection hy with hy
          injection hy with _ hy
          subst hy
          obtain ⟨i, hi, hv, -⟩ := Props.C27_held_handle hH A.reach ho
          rw [hv] at e
          injection e with e
          exact ⟨i, hi, by rw [e]⟩
      | _ => trivial
    · exact (f.pend _ _ _ _ hn dn).mono hst
  · exact fun y hy => hne y (f.got y hy)
  · intro y i hi
    show ∃ t k v ch d, _
    cases o with
    | @op o c' x ha e =>
      cases n.is with
      | insert k v ch d y' =>
        change inserted (⟨.insert k v ch d, some y'⟩ :: a.tr) y = some i at hi
        simp only [inserted] at hi
        split at hi
        · injection hi with hi
          exact ⟨t, k, v, ch, d, pendingAt_mem hp1, hi.symm⟩
        · exact f.origin _ _ hi
      | lookup k y' => exact f.origin _ _ hi
      | release y' => exact f.origin _ _ hi
      | erase k => exact f.origin _ _ hi
      | prune hj => exact f.origin _ _ hi
    | _ => exact f.origin _ _ hi
  · exact fun u c' H0 y hp hg => hne y (f.got0 u c' H0 y hp hg)
  · exact fun kb y hs => hgo kb y (f.stale kb y hs)
  · intro u c' es' e' kb y H0 hn hp hw hg
    simp only [Atom.at, hnow] at hn
    split at hn
    · rename_i eu
      subst eu
      injection hn with hn
      injection hn with h1 h2
      subst h1
      have hi := f.got0 _ _ _ _ hp hg
      show Gone a'.tr kb y
      cases n.is with
      | insert k v ch d y' =>
        cases o with
        | op ha e => exact Gone.writes hH A.reach ha e hi (Or.inl ⟨k, v, ch, d, rfl, hw⟩)
      | erase k =>
        cases o with
        | op ha e => exact Gone.writes hH A.reach ha e hi (Or.inr ⟨k, rfl, hw⟩)
      | _ => cases hw
    · exact hgo kb y (f.wrote _ _ _ _ _ _ _ hn hp hw hg)
  · exact fun u c' H0 kb y hp hs => hgo kb y (f.stale0 u c' H0 kb y hp hs)
  · intro u k es' y H0 hn hp hs
    simp only [Atom.at, hnow] at hn ⊢
    split at hn
    · rename_i eu
      subst eu
      rw [if_pos rfl]
      injection hn with hn
      injection hn with h1 h2
      subst h1
      cases n.is with
      | lookup _ y' =>
        cases o with
        | op ha e =>
          have hg := f.stale0 _ _ _ _ _ hp hs
          show y' ≠ some y
          rintro rfl
          obtain ⟨c2, r2, e2, h2⟩ := Props.C26_lookup hH A.reach ha
          rw [e2] at e
          injection e with e
          injection e with e3 e4
          exact hg.2 (h2 y e4).1
    · rename_i ne
      rw [if_neg ne]
      exact f.looked _ _ _ _ _ hn hp hs
  · exact f.retStale

theorem Atomic.facts (hH : HashFn hf) (A : Atomic hf capacity a H) : Facts a H := by
  induction A with
  | init h => exact Facts.init
  | call r h ih => exact ih.call
  | effect r h n o ih => exact ih.effect hH r h n o
  | ret r h d ih => exact ih.ret' r h d

end CacheConc
end Lsmdb
