import Verif.Proof.SkipArena3

/-!
# The list in the arena: reachable states
-/

namespace Lsmdb
namespace SkipArena
open SkipList (Ptr Build Pos Search Step assertIf kMaxHeight IterOp Valid Mem Node SL Ev Quiet baseMem keyFn NodeOK pub)
open Spec

section
variable {K : Type} {sz : Nat} {cmp : K → K → Int} {b : Build}

theorem quiet_raised (hb : b.line249 = false) {base : Mem K} {key : Nat → K} {sl sl1 : SL K} {n : Nat} (h : Quiet cmp base key sl n)
    (hr : Raised b sl sl1) : Quiet cmp base key sl1 n ∧ pub sl1.log = pub sl.log := by
  obtain ⟨height, rnd, arr, prev, h1, h2⟩ := hr
  obtain ⟨height', rnd', h1', hh1, hh2⟩ := SkipList.RandomHeight_ok b hb sl.rnd
  rw [h1] at h1'
  cases h1'
  simp only [SkipList.raiseHeight] at h2
  by_cases hgt : height > sl.mem.maxH
  · rw [if_pos hgt] at h2
    simp only [bind, Except.bind] at h2
    cases hf : SkipList.fillPrev arr sl.mem.maxH (height - sl.mem.maxH) with
    | error e => rw [hf] at h2; cases h2
    | ok arr' =>
      rw [hf] at h2
      cases h2
      have hpub : pub (sl.log ++ [Ev.setMax height]) = pub sl.log := SkipList.pub_eq_of_not (by intro _ _ _ e; cases e)
      have hlin : SkipList.lin (sl.log ++ [Ev.setMax (K := K) height]) = SkipList.lin sl.log := SkipList.lin_eq_of_not rfl
      refine ⟨⟨?_, ?_, hlin.trans h.count, h.len, ?_⟩, hpub⟩
      · change sl.mem.apply (.setMax height) = base.replay (sl.log ++ [.setMax height])
        rw [SkipList.replay_append, h.mem]
      · refine h.good.push ⟨?_, ?_, ?_, SkipList.priv_of_not (by intro _ _ _ e; cases e)⟩
        · rw [SkipList.replay_append, hpub]; exact SkipList.inv_setMax h.good.now.inv _
        · rw [SkipList.replay_append]; exact ⟨hh1, hh2⟩
        · intro y; rw [hpub, hlin]; exact h.good.now.level0 y
      · intro l y hl
        change ¬ pub (sl.log ++ [Ev.setMax height]) l y
        rw [hpub]
        have : height ≤ l := hl
        exact h.top l y (by omega)
  · rw [if_neg hgt] at h2
    cases h2
    exact ⟨⟨h.mem, h.good, h.count, h.len, h.top⟩, rfl⟩

/-- What holds in a reachable state. -/
structure Rel (sz : Nat) (cmp : K → K → Int) (s : FL K) (A : List Arena.Alloc) (ks : List K) (node : Ptr) (α : Nat → Nat)
    (log : List Arena.Alloc) (sl : SL K) (k0 : K) (node0 : Ptr) : Prop where
  sim : Sim sz α s sl.mem A log
  head : s.head = α 0
  rnd : s.rnd = sl.rnd
  quiet : ∀ key : Nat → K, (∀ i, i ≤ ks.length → key i = keyFn k0 ks i) → Quiet cmp (baseMem k0) key sl ks.length
  iter : node = node0.map α
  nodeOK : NodeOK (pub sl.log) node0

theorem Rel.q {s : FL K} {A log : List Arena.Alloc} {ks : List K} {node : Ptr} {α : Nat → Nat} {sl : SL K} {k0 : K} {node0 : Ptr}
    (h : Rel sz cmp s A ks node α log sl k0 node0) : Quiet cmp (baseMem k0) (keyFn k0 ks) sl ks.length := h.quiet _ (fun _ _ => rfl)

theorem keyFn_append (k0 k : K) (ks : List K) {i : Nat} (h : i ≤ ks.length) : keyFn k0 (ks ++ [k]) i = keyFn k0 ks i := by
  unfold keyFn
  rw [show k0 :: (ks ++ [k]) = (k0 :: ks) ++ [k] from rfl, List.getElem?_append_left (by simp only [List.length_cons]; omega)]

theorem keyFn_last (k0 k : K) (ks : List K) : keyFn k0 (ks ++ [k]) (ks.length + 1) = k := by simp [keyFn]

theorem keyFn_mem (k0 : K) (ks : List K) {i : Nat} (h1 : 1 ≤ i) (h2 : i ≤ ks.length) : keyFn k0 ks i ∈ ks := by
  obtain ⟨j, rfl⟩ : ∃ j, i = j + 1 := ⟨i - 1, by omega⟩
  rw [SkipList.keyFn_succ k0 ks j (by omega)]
  exact List.getElem_mem _

theorem rel_at {s : FL K} {A log : List Arena.Alloc} {ks : List K} {node : Ptr} {α : Nat → Nat} {sl : SL K} {k0 : K} {node0 : Ptr}
    (h : Rel sz cmp s A ks node α log sl k0 node0) : seenKey sz b s node = .ok (node0.map (keyFn k0 ks)) := by
  have hi := h.iter
  subst hi
  rcases h.nodeOK with rfl | ⟨y, rfl, hy⟩
  · rfl
  · have hk := sim_key h.sim (h.q.inv.key_ok hy)
    simp only [Option.map_some] at hk
    have ha : assertIf b.asserts (pure (Valid (some (α y)))) = .ok () := by
      unfold assertIf; cases b.asserts <;> rfl
    simp only [seenKey, Option.map_some, Valid, Option.isSome_some, if_true, iterKey, bind, Except.bind] at ha ⊢
    rw [ha]
    simp only [hk, pure, Except.pure]

theorem rel_insert (hc : CmpOK cmp) (hsz : 0 < sz) (hb12 : nodeBytes sz kMaxHeight + 8 ≤ 2 ^ 64) (hb : b.line249 = false) {s : FL K}
    {A log : List Arena.Alloc} {ks : List K} {node : Ptr} {α : Nat → Nat} {sl : SL K} {k0 : K} {node0 : Ptr}
    (h : Rel sz cmp s A ks node α log sl k0 node0) {k : K} (hk : ∀ k' ∈ ks, cmp k k' ≠ 0) {new : Option Nat} (hnew : InsertNew sz b s new) :
    ∃ done s' α' log' sl', Insert sz cmp b s k new = .ok (done, s') ∧ (done = false → new = none) ∧
      Rel sz cmp s' A (if done then ks ++ [k] else ks) node α' log' sl' k0 node0 ∧ SameData A s s' := by
  have hlen := h.q.len
  have hins : ∀ key : Nat → K, (∀ i, i ≤ ks.length + 1 → key i = keyFn k0 (ks ++ [k]) i) →
      ∃ sl', SkipList.Insert cmp b sl k = .ok sl' ∧ Quiet cmp (baseMem k0) key sl' (ks.length + 1) ∧ ∃ ex, sl'.log = sl.log ++ ex := by
    intro key hkey
    have hq := h.quiet key (fun i hi => by rw [hkey i (by omega), keyFn_append k0 k ks hi])
    refine SkipList.insert_ok hc b hb hq (by rw [hkey _ (Nat.le_refl _), keyFn_last]) ?_
    intro y h1 h2
    rw [hkey y (by omega), keyFn_append k0 k ks h2]
    exact hk _ (keyFn_mem k0 ks h1 h2)
  obtain ⟨sl', e, _, ⟨ex, hex⟩⟩ := hins (keyFn k0 (ks ++ [k])) (fun _ _ => rfl)
  rcases sim_insert hsz hb12 hb h.sim (by omega) h.head h.rnd hnew e with
    ⟨s1, sl1, g1, g2, g3, g4, g5, g6, g7, g8⟩ | ⟨a, s', log', g1, g2, g3, g4, g5⟩
  · refine ⟨false, s1, α, log, sl1, g1, fun _ => g2, ?_, ?_⟩
    · simp only [Bool.false_eq_true, if_false]
      refine ⟨g3, g4.trans h.head, g5, fun key hkey => (quiet_raised hb (h.quiet key hkey) g8).1, h.iter, ?_⟩
      rw [(quiet_raised hb h.q g8).2]; exact h.nodeOK
    · intro x hx a n hin; rw [g6, g7]
  · refine ⟨true, s', SkipArena.ext α sl.mem.nodes.length a, log', sl', g1, (fun e => by cases e), ?_, g5⟩
    simp only [if_true]
    refine ⟨g2, ?_, g4, ?_, ?_, ?_⟩
    · rw [g3, h.head]; unfold ext; rw [if_neg (by omega)]
    · intro key hkey
      simp only [List.length_append, List.length_cons, List.length_nil] at hkey ⊢
      obtain ⟨sl'', e', q, _⟩ := hins key hkey
      rw [e] at e'; cases e'; exact q
    · rw [h.iter]
      refine (ext_map ?_).symm
      intro j hj
      rcases h.nodeOK with h' | ⟨y, hy, hp⟩
      · rw [h'] at hj; cases hj
      · rw [hy] at hj; cases hj
        exact (h.q.inv.valid 0 _ hp).2.1
    · rcases h.nodeOK with h' | ⟨y, hy, x, hp⟩
      · exact Or.inl h'
      · exact Or.inr ⟨y, hy, x, by rw [hex]; exact List.mem_append_left _ hp⟩

theorem rel_iter (hc : CmpOK cmp) {s : FL K} {A log : List Arena.Alloc} {ks : List K} {node : Ptr} {α : Nat → Nat} {sl : SL K} {k0 : K}
    {node0 : Ptr} (h : Rel sz cmp s A ks node α log sl k0 node0) {o : IterOp K} (hp : IterPre (Valid node) o) :
    ∃ node' node0', iter sz cmp b s node o = .ok node' ∧ Rel sz cmp s A ks node' α log sl k0 node0' ∧
      IterSpec cmp ks (node0.map (keyFn k0 ks)) o (node0'.map (keyFn k0 ks)) := by
  have hv : Valid node = Valid node0 := by rw [h.iter]; cases node0 <;> rfl
  rw [hv] at hp
  obtain ⟨node0', e, hn, hs⟩ := SkipList.iter_ok hc b h.q.inv h.q.height h.q.keysAre h.nodeOK o hp
  refine ⟨node0'.map α, node0', ?_, ⟨h.sim, h.head, h.rnd, h.quiet, rfl, hn⟩, hs⟩
  rw [h.iter]
  exact sim_iter h.sim h.head (by have := h.q.len; omega) e

theorem reach_rel (hc : CmpOK cmp) (hsz : 0 < sz) (hb12 : nodeBytes sz kMaxHeight + 8 ≤ 2 ^ 64) (hb : b.line249 = false) {s : FL K}
    {A : List Arena.Alloc} {ks : List K} {node : Ptr} (h : ListReach sz cmp b s A ks node) :
    ∃ α log sl k0 node0, Rel sz cmp s A ks node α log sl k0 node0 := by
  induction h with
  | @start hist ar A mem k0 seed new s he hr hnew hcon =>
    obtain ⟨ar', A', hr', hi, _, _⟩ := Arena.run_inv Arena.inv_init hist he
    rw [hr] at hr'
    cases hr'
    rcases sim_construct hsz hb12 hi mem k0 seed hnew with ⟨e, _⟩ | ⟨s', α, log, e, g1, g2, g3⟩
    · rw [hcon] at e; cases e
    · rw [hcon] at e; cases e
      exact ⟨α, log, ⟨baseMem k0, [], Random.init seed⟩, k0, none, g1, g2, g3, fun key _ => SkipList.quiet_init k0 seed key, rfl, Or.inl rfl⟩
  | insert _ hk hnew hins ih =>
    obtain ⟨α, log, sl, k0, node0, h⟩ := ih
    obtain ⟨done, s', α', log', sl', e, _, h', _⟩ := rel_insert hc hsz hb12 hb h hk hnew
    rw [hins] at e
    cases e
    exact ⟨α', log', sl', k0, node0, h'⟩
  | @alloc s A ks node c new p ar _ hcb hnew hstep ih =>
    obtain ⟨α, log, sl, k0, node0, h⟩ := ih
    rcases Arena.step_inv h.sim.inv c new hcb hnew with ⟨e, _⟩ | ⟨p', ar', e, hi, _⟩
    · rw [hstep] at e; cases e
    · rw [hstep] at e; cases e
      exact ⟨α, _, sl, k0, node0, sim_client_alloc h.sim hstep hi, h.head, h.rnd, h.quiet, h.iter, h.nodeOK⟩
  | write _ hx hin hw ih =>
    obtain ⟨α, log, sl, k0, node0, h⟩ := ih
    exact ⟨α, log, sl, k0, node0, sim_client_write h.sim hx hin hw, h.head, h.rnd, h.quiet, h.iter, h.nodeOK⟩
  | fresh _ ih =>
    obtain ⟨α, log, sl, k0, node0, h⟩ := ih
    exact ⟨α, log, sl, k0, none, h.sim, h.head, h.rnd, h.quiet, rfl, Or.inl rfl⟩
  | op _ hp hi ih =>
    obtain ⟨α, log, sl, k0, node0, h⟩ := ih
    obtain ⟨node', node0', e, h', _⟩ := rel_iter (b := b) hc h hp
    rw [hi] at e
    cases e
    exact ⟨α, log, sl, k0, node0', h'⟩

end
end SkipArena
end Lsmdb
