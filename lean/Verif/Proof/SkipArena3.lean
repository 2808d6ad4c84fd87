import Verif.Proof.SkipArena2

/-!
# The list in the arena: insertion, iterators, reachable states
-/

namespace Lsmdb
namespace SkipArena
open SkipList (Ptr Build Pos Search Step assertIf kMaxHeight IterOp Valid Mem Node SL Ev)
open Spec

section
variable {K : Type} {sz : Nat} {α : Nat → Nat} {s : FL K} {A log : List Arena.Alloc}
variable {cmp : K → K → Int} {b : Build}

theorem sim_ctorLoop : ∀ (n i : Nat) (s : FL K) (sl sl' : SL K), Sim sz α s sl.mem A log → s.head = α 0 →
    SkipList.ctorLoop sl i n = .ok sl' →
    ∃ s', ctorLoop sz s i n = .ok s' ∧ Sim sz α s' sl'.mem A log ∧ s'.head = s.head ∧ s'.rnd = s.rnd := by
  intro n
  induction n with
  | zero => intro i s sl sl' h hh hr; cases hr; exact ⟨s, rfl, h, rfl, rfl⟩
  | succ n ih =>
    intro i s sl sl' h hh hr
    simp only [SkipList.ctorLoop, bind, Except.bind] at hr
    cases h1 : SkipList.SetNext sl (some 0) i none true with
    | error e => rw [h1] at hr; cases hr
    | ok sl1 =>
      rw [h1] at hr
      obtain ⟨s1, e1, g1, _, g3, g4, _, _, _⟩ := sim_set h h1 (fun _ e => by cases e)
      obtain ⟨s', e2, g5, g6, g7⟩ := ih (i + 1) s1 sl1 sl' g1 (g4.trans hh) hr
      refine ⟨s', ?_, g5, g6.trans g4, g7.trans g3⟩
      simp only [ctorLoop, bind, Except.bind]
      rw [show setNext sz s (some s.head) i none = .ok s1 by rw [hh]; exact e1]
      exact e2

/-- The constructor. -/
theorem sim_construct (hsz : 0 < sz) (hb : nodeBytes sz kMaxHeight + 8 ≤ 2 ^ 64) {ar : Arena.State} (hi : Arena.Inv ar A) (mem : Memory K)
    (k0 : K) (seed : UInt32) {new : Option Nat} (hnew : NewGood ar (nodeBytes sz kMaxHeight) new) :
    (construct sz ar mem k0 seed new = .ok none ∧ new = none) ∨
    ∃ s α log, construct sz ar mem k0 seed new = .ok (some s) ∧ Sim sz α s (SkipList.baseMem k0) A log ∧ s.head = α 0 ∧
      s.rnd = Random.init seed := by
  let sl0 : SL K := ⟨⟨[], 1⟩, [], Random.init seed⟩
  have h0 : Sim sz (fun _ => 0) ⟨ar, mem, 0, 1, Random.init seed⟩ sl0.mem A A := by
    have hno : ∀ (i : Nat) (n : Node K), ¬ sl0.mem.nodes[i]? = some n := by intro i n e; simp [sl0] at e
    exact ⟨rfl, by simp [sl0], fun i n e => (hno i n e).elim, fun i n _ _ e => (hno i n e).elim, fun i n _ _ e => (hno i n e).elim, hi,
      fun _ h => h, fun i n e => (hno i n e).elim, fun i _ n _ _ e => (hno i n e).elim, fun i n e => (hno i n e).elim⟩
  rcases sim_new hsz h0 k0 (by decide) hb hnew with ⟨e, hn⟩ | ⟨a, s1, log', e, g1, g2, _, _⟩
  · exact Or.inl ⟨by simp only [construct, e, bind, Except.bind, pure, Except.pure], hn⟩
  · right
    obtain ⟨sl', hc, hm⟩ : ∃ sl', SkipList.ctorLoop (sl0.emit (.new k0 kMaxHeight)) 0 kMaxHeight = .ok sl' ∧
        sl'.mem = SkipList.baseMem k0 := ⟨_, rfl, rfl⟩
    have g1' : Sim sz (ext (fun _ => 0) sl0.mem.nodes.length a) { s1 with head := a } (sl0.emit (.new k0 kMaxHeight)).mem A log' := by
      exact ⟨g1.maxH, g1.fuel, g1.keyAt, g1.linkAt, g1.closed, g1.inv, g1.client, g1.node, g1.nodes_disj, g1.client_disj⟩
    obtain ⟨s', e2, g5, g6, g7⟩ := sim_ctorLoop kMaxHeight 0 _ _ sl' g1' rfl hc
    rw [hm] at g5
    refine ⟨s', _, log', ?_, g5, g6, g7.trans g2⟩
    simp only [construct, e, bind, Except.bind, pure, Except.pure, e2]

/-! ## Insert -/

theorem sim_getPrev {prev : List (Option Ptr)} {i : Nat} {p : Ptr} (h : SkipList.getPrev prev i = .ok p) :
    SkipList.getPrev (mapPrev α prev) i = .ok (p.map α) ∧ prev[i]? = some (some p) := by
  unfold SkipList.getPrev at h ⊢
  cases hp : prev[i]? with
  | none => rw [hp] at h; cases h
  | some o =>
    rw [hp] at h
    cases o with
    | none => cases h
    | some q =>
      cases h
      refine ⟨?_, rfl⟩
      simp [mapPrev, List.getElem?_map, hp]

theorem sim_linkLoop {x : Ptr} {prev : List (Option Ptr)} : ∀ (n i : Nat) (s : FL K) (sl sl' : SL K), Sim sz α s sl.mem A log →
    InR sl.mem x → SkipList.linkLoop x prev sl i n = .ok sl' →
    ∃ s', linkLoop sz (x.map α) (mapPrev α prev) s i n = .ok s' ∧ Sim sz α s' sl'.mem A log ∧ s'.head = s.head ∧ s'.rnd = s.rnd ∧
      sl'.rnd = sl.rnd ∧ SameData A s s' := by
  intro n
  induction n with
  | zero => intro i s sl sl' h _ hr; cases hr; exact ⟨s, rfl, h, rfl, rfl, rfl, .refl _ _⟩
  | succ n ih =>
    intro i s sl sl' h hx hr
    simp only [SkipList.linkLoop, bind, Except.bind] at hr
    cases h1 : SkipList.getPrev prev i with
    | error e => rw [h1] at hr; cases hr
    | ok p =>
      rw [h1] at hr
      simp only at hr
      cases h2 : sl.mem.next p i with
      | error e => rw [h2] at hr; cases hr
      | ok nx =>
        rw [h2] at hr
        simp only at hr
        cases h3 : SkipList.SetNext sl x i nx false with
        | error e => rw [h3] at hr; cases hr
        | ok sl1 =>
          rw [h3] at hr
          simp only at hr
          cases h4 : SkipList.SetNext sl1 p i x true with
          | error e => rw [h4] at hr; cases hr
          | ok sl2 =>
            rw [h4] at hr
            simp only at hr
            obtain ⟨e1, _⟩ := sim_getPrev (α := α) h1
            obtain ⟨e2, _, hnx⟩ := sim_next h h2
            obtain ⟨s1, e3, g1, _, g3, g4, g5, g6, g7⟩ := sim_set h h3 hnx
            obtain ⟨s2, e4, f1, _, f3, f4, f5, f6, f7⟩ := sim_set g1 h4 (fun j hj => by rw [g6]; exact hx j hj)
            obtain ⟨s', e5, k1, k2, k3, k4, k5⟩ := ih (i + 1) s2 sl2 sl' f1 (fun j hj => by rw [f6, g6]; exact hx j hj) hr
            refine ⟨s', ?_, k1, k2.trans (f4.trans g4), k3.trans (f3.trans g3), k4.trans (f5.trans g5),
              SameData.trans (s' := s1) g7 (SameData.trans (s' := s2) f7 k5)⟩
            simp only [linkLoop, bind, Except.bind, e1, e2, e3, e4, e5]

theorem sim_fillPrev : ∀ (n i : Nat) (arr arr' : List (Option Ptr)), SkipList.fillPrev arr i n = .ok arr' →
    fillPrev (α 0) (mapPrev α arr) i n = .ok (mapPrev α arr') := by
  intro n
  induction n with
  | zero => intro i arr arr' h; cases h; rfl
  | succ n ih =>
    intro i arr arr' h
    simp only [SkipList.fillPrev] at h
    simp only [fillPrev, mapPrev, List.length_map]
    by_cases hi : i < arr.length
    · rw [if_pos hi] at h ⊢
      have := ih (i + 1) _ _ h
      simp only [mapPrev, List.map_set, Option.map_some] at this
      exact this
    · rw [if_neg hi] at h; cases h

theorem fillPrev_range {m : Mem K} (h0 : 0 < m.nodes.length) : ∀ (n i : Nat) (arr arr' : List (Option Ptr)),
    SkipList.fillPrev arr i n = .ok arr' → PrevR m (some arr) → PrevR m (some arr') := by
  intro n
  induction n with
  | zero => intro i arr arr' h hp; cases h; exact hp
  | succ n ih =>
    intro i arr arr' h hp
    simp only [SkipList.fillPrev] at h
    by_cases hi : i < arr.length
    · rw [if_pos hi] at h
      refine ih _ _ _ h ?_
      intro a e j p hj
      cases e
      rw [List.getElem?_set] at hj
      by_cases hij : i = j
      · rw [if_pos hij, if_pos hi] at hj
        cases hj
        intro k hk; cases hk; exact h0
      · rw [if_neg hij] at hj
        exact hp arr rfl j p hj
    · rw [if_neg hi] at h; cases h

theorem sim_raise {sl sl1 : SL K} (h : Sim sz α s sl.mem A log) (hh : s.head = α 0) (h0 : 0 < sl.mem.nodes.length) {arr prev' : List (Option Ptr)}
    {height : Nat} {rnd : UInt32} (hp : PrevR sl.mem (some arr))
    (hr : SkipList.raiseHeight { sl with rnd := rnd } arr height = .ok (prev', sl1)) :
    ∃ s1, raiseHeight { s with rnd := rnd } (mapPrev α arr) height = .ok (mapPrev α prev', s1) ∧ Sim sz α s1 sl1.mem A log ∧
      s1.head = s.head ∧ s1.rnd = sl1.rnd ∧ s1.arena = s.arena ∧ s1.mem = s.mem ∧ sl1.mem.nodes = sl.mem.nodes ∧
      PrevR sl.mem (some prev') := by
  simp only [SkipList.raiseHeight] at hr
  by_cases hgt : height > sl.mem.maxH
  · rw [if_pos hgt] at hr
    simp only [bind, Except.bind] at hr
    cases hf : SkipList.fillPrev arr sl.mem.maxH (height - sl.mem.maxH) with
    | error e => rw [hf] at hr; cases hr
    | ok arr' =>
      rw [hf] at hr
      simp only [pure, Except.pure] at hr
      cases hr
      have := sim_fillPrev (α := α) _ _ _ _ hf
      refine ⟨{ s with rnd := rnd, maxH := height }, ?_,
        ⟨rfl, h.fuel, h.keyAt, h.linkAt, h.closed, h.inv, h.client, h.node, h.nodes_disj, h.client_disj⟩, rfl, rfl, rfl, rfl, rfl,
        fillPrev_range h0 _ _ _ _ hf hp⟩
      simp only [raiseHeight, h.maxH, gt_iff_lt, hgt, if_true, bind, Except.bind, hh, this, pure, Except.pure]
  · rw [if_neg hgt] at hr
    cases hr
    refine ⟨{ s with rnd := rnd }, ?_, ⟨h.maxH, h.fuel, h.keyAt, h.linkAt, h.closed, h.inv, h.client, h.node, h.nodes_disj, h.client_disj⟩,
      rfl, rfl, rfl, rfl, rfl, hp⟩
    simp only [raiseHeight, h.maxH, gt_iff_lt, hgt, if_false]

theorem sim_dup {m : Mem K} (h : Sim sz α s m A log) {k : K} {x : Ptr} (hr : SkipList.dupAssert cmp b m k x = .ok ()) :
    dupAssert sz cmp b s k (x.map α) = .ok () := by
  unfold SkipList.dupAssert at hr
  unfold dupAssert
  unfold assertIf at hr ⊢
  cases hb : b.asserts with
  | false => simp
  | true =>
    simp only [hb, if_true] at hr ⊢
    cases x with
    | none => exact hr
    | some y =>
      simp only [Option.map_some, bind, Except.bind] at hr ⊢
      cases hk : m.key (some y) with
      | error e => rw [hk] at hr; cases hr
      | ok k' =>
        rw [hk] at hr
        rw [show keyOf sz s (some (α y)) = .ok k' from sim_key h hk]
        exact hr

/-- The list after an `Insert` whose `new[]` threw: only `max_height_` and the generator may have changed. -/
def Raised (b : Build) (sl sl1 : SL K) : Prop :=
  ∃ height rnd arr prev, SkipList.RandomHeight b sl.rnd = .ok (height, rnd) ∧
    SkipList.raiseHeight { sl with rnd := rnd } arr height = .ok (prev, sl1)

theorem sim_insert (hsz : 0 < sz) (hb12 : nodeBytes sz kMaxHeight + 8 ≤ 2 ^ 64) (hb : b.line249 = false) {sl sl' : SL K} {k : K}
    {new : Option Nat} (h : Sim sz α s sl.mem A log) (h0 : 0 < sl.mem.nodes.length) (hh : s.head = α 0) (hrnd : s.rnd = sl.rnd)
    (hnew : InsertNew sz b s new) (hr : SkipList.Insert cmp b sl k = .ok sl') :
    (∃ s1 sl1, Insert sz cmp b s k new = .ok (false, s1) ∧ new = none ∧ Sim sz α s1 sl1.mem A log ∧ s1.head = s.head ∧ s1.rnd = sl1.rnd ∧
      s1.mem = s.mem ∧ s1.arena = s.arena ∧ Raised b sl sl1) ∨
    (∃ a s' log', Insert sz cmp b s k new = .ok (true, s') ∧ Sim sz (ext α sl.mem.nodes.length a) s' sl'.mem A log' ∧ s'.head = s.head ∧
      s'.rnd = sl'.rnd ∧ SameData A s s') := by
  simp only [SkipList.Insert, bind, Except.bind] at hr
  cases h1 : SkipList.find cmp b sl.mem (.ge k) (some (List.replicate kMaxHeight none)) with
  | error e => rw [h1] at hr; cases hr
  | ok r =>
    obtain ⟨x, pos⟩ := r
    rw [h1] at hr
    simp only at hr
    obtain ⟨e1, _, hpr⟩ := sim_find h hh h1 (by
      intro arr e i p hi
      cases e
      simp only [List.getElem?_replicate] at hi
      split at hi <;> cases hi)
    have e1' : find sz cmp b s (.ge k) (some (List.replicate kMaxHeight none)) = .ok (x.map α, mapPos α pos) := by
      rw [← e1]; simp [mapPrev]
    cases h2 : pos.prev with
    | none => rw [h2] at hr; cases hr
    | some arr =>
      rw [h2] at hr
      simp only [pure, Except.pure] at hr
      rw [h2] at hpr
      cases h3 : SkipList.dupAssert cmp b sl.mem k x with
      | error e => rw [h3] at hr; cases hr
      | ok _ =>
        rw [h3] at hr
        simp only at hr
        obtain ⟨height, rnd, h4, hh1, hh2⟩ := SkipList.RandomHeight_ok b hb sl.rnd
        rw [h4] at hr
        simp only at hr
        cases h5 : SkipList.raiseHeight ({ sl with rnd := rnd } : SL K) arr height with
        | error e => rw [h5] at hr; cases hr
        | ok r =>
          obtain ⟨prev', sl1⟩ := r
          rw [h5] at hr
          simp only [SkipList.NewNode] at hr
          obtain ⟨s1, e5, g1, g2, g3, g4, g5, g6, g7⟩ := sim_raise h hh h0 hpr h5
          have hnf : NewGood s1.arena (nodeBytes sz height) new := by
            rw [g4]; exact hnew height rnd (by rw [hrnd]; exact h4)
          have hpre : ∀ (r : M (Bool × FL K)), (match newNode sz s1 k height new with
              | .error e => .error e
              | .ok none => .ok (false, s1)
              | .ok (some (a, s2)) => match linkLoop sz (some a) (mapPrev α prev') s2 0 height with
                | .error e => .error e
                | .ok s3 => .ok (true, s3)) = r → Insert sz cmp b s k new = r := by
            intro r hr'
            rw [← hr']
            simp only [Insert, bind, Except.bind, e1', mapPos, h2, Option.map_some, pure, Except.pure, sim_dup h h3, hrnd, h4, e5]
            rcases newNode sz s1 k height new with e | (_ | ⟨a, s2⟩)
            · rfl
            · rfl
            · simp only
              cases linkLoop sz (some a) (mapPrev α prev') s2 0 height <;> rfl
          have hbk : nodeBytes sz height + 8 ≤ 2 ^ 64 := by
            refine Nat.le_trans ?_ hb12
            unfold nodeBytes kMaxHeight; omega
          rcases sim_new hsz g1 k hh1 hbk hnf with ⟨e, hn⟩ | ⟨a, s2, log', e, f1, f2, f3, f4⟩
          · left
            exact ⟨s1, sl1, hpre _ (by rw [e]), hn, g1, g2, g3, g5, g4, ⟨height, rnd, arr, prev', h4, h5⟩⟩
          · right
            have hlen1 : sl1.mem.nodes.length = sl.mem.nodes.length := by rw [g6]
            obtain ⟨s3, e6, k1, k2, k3, k4, k5⟩ := sim_linkLoop (x := some sl1.mem.nodes.length) (prev := prev') height 0 s2 _ sl' f1
              (by intro j hj; cases hj; simp [SL.emit, Mem.apply]) hr
            have hx : (some sl1.mem.nodes.length : Ptr).map (ext α sl1.mem.nodes.length a) = some a := by simp [ext]
            have hprev : mapPrev (ext α sl1.mem.nodes.length a) prev' = mapPrev α prev' := by
              unfold mapPrev
              apply List.map_congr_left
              intro o ho
              cases o with
              | none => rfl
              | some p =>
                obtain ⟨i, hi⟩ := List.mem_iff_getElem?.mp ho
                simp only [Option.map_some, Option.some.injEq]
                exact ext_map (fun j hj => by rw [hlen1]; exact g7 prev' rfl i p hi j hj)
            rw [hx, hprev] at e6
            refine ⟨a, s3, log', hpre _ (by rw [e]; simp only [e6]), by rw [← hlen1]; exact k1, k2.trans (f3.trans g2), ?_, ?_⟩
            · rw [k3, f2, g3, k4]; rfl
            · have hs1 : SameData A s s1 := by
                intro x hx a n hin; rw [g4, g5]
              exact hs1.trans (f4.trans k5)

/-! ## Contains and the iterator -/

theorem sim_contains {m : Mem K} (h : Sim sz α s m A log) (hh : s.head = α 0) {k : K} {r : Bool} (hr : SkipList.Contains cmp b m k = .ok r) :
    Contains sz cmp b s k = .ok r := by
  simp only [SkipList.Contains, bind, Except.bind] at hr
  cases h1 : SkipList.find cmp b m (.ge k) none with
  | error e => rw [h1] at hr; cases hr
  | ok p =>
    obtain ⟨x, pos⟩ := p
    rw [h1] at hr
    have e1 := (sim_find h hh h1 (fun _ e => by cases e)).1
    simp only [Option.map_none] at e1
    simp only [Contains, bind, Except.bind, e1]
    cases x with
    | none => exact hr
    | some y =>
      simp only at hr
      cases hk : m.key (some y) with
      | error e => rw [hk] at hr; cases hr
      | ok k' =>
        rw [hk] at hr
        simp only [Option.map_some]
        rw [show keyOf sz s (some (α y)) = .ok k' from sim_key h hk]
        exact hr

theorem sim_dropHead {m : Mem K} (h : Sim sz α s m A log) (hh : s.head = α 0) {p : Ptr} (hp : InR m p) :
    dropHead s (p.map α) = (SkipList.dropHead p).map α := by
  unfold dropHead SkipList.dropHead
  cases p with
  | none => simp
  | some y =>
    simp only [Option.map_some, Option.some.injEq]
    have hy := hp y rfl
    by_cases h0 : y = 0
    · subst h0; simp [hh]
    · have : α y ≠ s.head := by
        rw [hh]; intro e; exact h0 (h.inj hy (by omega) e)
      rw [if_neg this, if_neg h0]; rfl

theorem sim_iter {m : Mem K} (h : Sim sz α s m A log) (hh : s.head = α 0) (h0 : 0 < m.nodes.length) {node node' : Ptr} {o : IterOp K}
    (hr : SkipList.iter cmp b m node o = .ok node') : iter sz cmp b s (node.map α) o = .ok (node'.map α) := by
  have hv : Valid (node.map α) = Valid node := by cases node <;> rfl
  cases o with
  | seek t =>
    simp only [SkipList.iter, bind, Except.bind] at hr
    cases h1 : SkipList.find cmp b m (.ge t) none with
    | error e => rw [h1] at hr; cases hr
    | ok p =>
      obtain ⟨x, pos⟩ := p
      rw [h1] at hr
      cases hr
      have e1 := (sim_find h hh h1 (fun _ e => by cases e)).1
      simp only [Option.map_none] at e1
      simp only [iter, bind, Except.bind, e1, pure, Except.pure]
  | seekToFirst =>
    simp only [SkipList.iter] at hr
    simp only [iter, hh]
    exact (sim_next h hr).1
  | seekToLast =>
    simp only [SkipList.iter, bind, Except.bind] at hr
    cases h1 : SkipList.find cmp b m .last none with
    | error e => rw [h1] at hr; cases hr
    | ok p =>
      obtain ⟨x, pos⟩ := p
      rw [h1] at hr
      cases hr
      obtain ⟨e1, hx, _⟩ := sim_find h hh h1 (fun _ e => by cases e)
      simp only [Option.map_none] at e1
      simp only [iter, bind, Except.bind, e1, pure, Except.pure, sim_dropHead h hh hx]
  | next =>
    simp only [SkipList.iter, bind, Except.bind] at hr
    simp only [iter, bind, Except.bind, hv]
    cases h1 : assertIf b.asserts (pure (Valid node)) with
    | error e => rw [h1] at hr; cases hr
    | ok _ =>
      rw [h1] at hr
      exact (sim_next h hr).1
  | prev =>
    simp only [SkipList.iter, bind, Except.bind] at hr
    simp only [iter, bind, Except.bind, hv]
    cases h1 : assertIf b.asserts (pure (Valid node)) with
    | error e => rw [h1] at hr; cases hr
    | ok _ =>
      rw [h1] at hr
      simp only at hr
      cases h2 : m.key node with
      | error e => rw [h2] at hr; cases hr
      | ok k =>
        rw [h2] at hr
        simp only at hr
        rw [sim_key h h2]
        cases h3 : SkipList.find cmp b m (.lt k) none with
        | error e => rw [h3] at hr; cases hr
        | ok p =>
          obtain ⟨x, pos⟩ := p
          rw [h3] at hr
          cases hr
          obtain ⟨e1, hx, _⟩ := sim_find h hh h3 (fun _ e => by cases e)
          simp only [Option.map_none] at e1
          simp only [e1, pure, Except.pure, sim_dropHead h hh hx]

end
end SkipArena
end Lsmdb
