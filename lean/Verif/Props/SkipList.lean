import Verif.Proof.SkipList7

/-!
# C20–C25: the skip list

`cmp` is any comparator of a total preorder, `ks` any list of keys no two of which compare equal, in
insertion order; `k0` is the (irrelevant) key of the head node and `seed` the seed of the generator of
tower heights (0xdeadbeef in the code): the theorems hold for all.  `Build.release` is the build without
assertions; C25 explains why an assertion-enabled build cannot insert at all.
-/

namespace Lsmdb
namespace Props
open Spec SkipList

section
variable {K : Type} {cmp : K → K → Int} (hc : CmpOK cmp) (k0 : K) (seed : UInt32) {ks : List K}
  (hd : Distinct cmp ks)
include hc hd

/-- C20: after inserting `ks`, `Contains k` is true exactly when a key comparing equal to `k` was
inserted. -/
theorem C20_contains :
    ∃ s, SkipList.build cmp .release k0 seed ks = .ok s ∧
      ∀ k, ∃ r, Contains cmp .release s.mem k = .ok r ∧ (r = true ↔ ∃ k' ∈ ks, cmp k k' = 0) := by
  obtain ⟨s, h1, h2⟩ := build_ok hc .release rfl k0 seed hd
  exact ⟨s, h1, fun k => contains_ok hc _ h2.inv h2.height h2.keysAre k⟩

/-- C21: the loop `SeekToFirst; while Valid: key, Next` ends and visits exactly the inserted keys, each
once, in strictly increasing order; `SeekToLast`/`Prev` ends and visits exactly the inserted keys, each
once, in strictly decreasing order. -/
theorem C21_iteration :
    ∃ s, SkipList.build cmp .release k0 seed ks = .ok s ∧
      (∃ node L fuel0, iter cmp .release s.mem none .seekToFirst = .ok node ∧
        (∀ fuel, fuel0 ≤ fuel → scanForward cmp .release s.mem fuel node = .ok L) ∧
        L.Perm ks ∧ L.Pairwise (fun a c => cmp a c < 0)) ∧
      (∃ node L fuel0, iter cmp .release s.mem none .seekToLast = .ok node ∧
        (∀ fuel, fuel0 ≤ fuel → scanBackward cmp .release s.mem fuel node = .ok L) ∧
        L.Perm ks ∧ L.Pairwise (fun a c => cmp c a < 0)) := by
  obtain ⟨s, h1, h2⟩ := build_ok hc .release rfl k0 seed hd
  exact ⟨s, h1, forward_all hc _ h2.inv h2.keysAre hd, backward_all hc _ h2.inv h2.height h2.keysAre hd⟩

/-- C21: after `SeekToFirst` or `SeekToLast` the iterator is valid exactly when the list is not empty. -/
theorem C21_valid :
    ∃ s, SkipList.build cmp .release k0 seed ks = .ok s ∧
      ∀ node, IterReach cmp .release s.mem node → ∀ op, op = IterOp.seekToFirst ∨ op = IterOp.seekToLast →
        ∃ node', iter cmp .release s.mem node op = .ok node' ∧ (Valid node' = true ↔ ks ≠ []) := by
  obtain ⟨s, h1, h2⟩ := build_ok hc .release rfl k0 seed hd
  refine ⟨s, h1, ?_⟩
  intro node hreach op hop
  have hn : NodeOK (pub s.log) node := by
    clear hop
    induction hreach with
    | fresh => exact Or.inl rfl
    | op _ hpre hrun ih =>
      obtain ⟨n2, e1, e2, _⟩ := iter_ok hc .release h2.inv h2.height h2.keysAre ih _ hpre
      rw [hrun] at e1; cases e1; exact e2
  obtain ⟨node', e1, _, e3⟩ := iter_ok hc .release h2.inv h2.height h2.keysAre hn op (by
    rcases hop with rfl | rfl <;> trivial)
  refine ⟨node', e1, ?_⟩
  have hne : node' = none → ks = [] := by
    rintro rfl
    apply List.eq_nil_iff_forall_not_mem.mpr
    intro k hk
    rcases hop with rfl | rfl
    · exact e3 k hk trivial
    · exact e3 k hk trivial
  cases node' with
  | none => simp [Valid, hne rfl]
  | some y =>
    simp only [Valid, Option.isSome_some, true_iff]
    rintro rfl
    rcases hop with rfl | rfl <;> cases e3.1

/-- C22: whatever legal operations an iterator went through, the next operation puts it where an ordered
set says: `Seek t` at the smallest key not below `t` (not valid if there is none), `Prev` from a key at
the greatest smaller key, `Next` at the smallest greater key, and so on. -/
theorem C22_positions :
    ∃ s, SkipList.build cmp .release k0 seed ks = .ok s ∧
      ∀ node, IterReach cmp .release s.mem node → ∀ op, IterPre (Valid node) op →
        ∃ node' cur r, iter cmp .release s.mem node op = .ok node' ∧
          position .release s.mem node = .ok cur ∧ position .release s.mem node' = .ok r ∧
          IterSpec cmp ks cur op r := by
  obtain ⟨s, h1, h2⟩ := build_ok hc .release rfl k0 seed hd
  refine ⟨s, h1, ?_⟩
  intro node hreach op hop
  have hn : NodeOK (pub s.log) node := by
    clear hop
    induction hreach with
    | fresh => exact Or.inl rfl
    | op _ hpre hrun ih =>
      obtain ⟨n2, e1, e2, _⟩ := iter_ok hc .release h2.inv h2.height h2.keysAre ih _ hpre
      rw [hrun] at e1; cases e1; exact e2
  obtain ⟨node', e1, e2, e3⟩ := iter_ok hc .release h2.inv h2.height h2.keysAre hn op hop
  exact ⟨node', _, _, e1, position_ok _ h2.inv hn, position_ok _ h2.inv e2, e3⟩

/-- C23: readers without locks.  Let the writer insert `ks`; `s.log` are its stores.  There is a
numbering `lin` (after `T` stores exactly the first `lin T` keys are in the set) that grows with time,
counts every insertion completed within the first `T` stores and none that has not begun, such that:
whatever an iterator's reader session did before, whatever legal values its loads return now (including
a stale height), an operation does not fault, and the reader's new view `T'` (between the old view and
now) is a moment at which the answer is right: the new position is where the ordered set of the first
`lin T'` keys says. -/
theorem C23_linearizable :
    ∃ s, SkipList.build cmp .release k0 seed ks = .ok s ∧
    ∃ lin : Nat → Nat, (∀ T T', T ≤ T' → lin T ≤ lin T') ∧
      (∀ i, i ≤ ks.length → ∃ si, SkipList.build cmp .release k0 seed (ks.take i) = .ok si ∧
        si.log <+: s.log ∧ (∀ T, si.log.length ≤ T → i ≤ lin T) ∧ (∀ T, T ≤ si.log.length → lin T ≤ i)) ∧
      ∃ base, SkipList.construct k0 seed = .ok ⟨base, [], Random.init seed⟩ ∧
      ∀ node T N, Session cmp .release base s.log node T N → ∀ op, IterPre (Valid node) op →
        ∀ th, th ≤ N → ∀ ts res, citer cmp .release base (s.log.take N) th ts T node op = some res →
        ∃ node' T' cur r, res = .ok (node', T') ∧ T ≤ T' ∧ T' ≤ N ∧
          viewPosition .release base s.log T node = .ok cur ∧
          viewPosition .release base s.log T' node' = .ok r ∧
          IterSpec cmp (ks.take (lin T')) cur op r := by
  obtain ⟨s, h1, h2⟩ := build_ok hc .release rfl k0 seed hd
  have hlinle : ∀ T, SkipList.lin (s.log.take T) ≤ ks.length := by
    intro T
    rw [← h2.count]
    by_cases h : T ≤ s.log.length
    · have := lin_take_mono s.log h; rwa [List.take_length] at this
    · rw [List.take_of_length_le (by omega)]; exact Nat.le_refl _
  refine ⟨s, h1, fun T => SkipList.lin (s.log.take T), fun T T' h => lin_take_mono s.log h, ?_, baseMem k0,
    construct_eq k0 seed, ?_⟩
  · intro i hi
    -- the history up to the i-th insertion
    have hsplit : ks = ks.take i ++ ks.drop i := (List.take_append_drop i ks).symm
    have hdi : Distinct cmp (ks.take i) := List.Pairwise.sublist (List.take_sublist i ks) hd
    have mid : ∃ si, insertAll cmp .release ⟨baseMem k0, [], Random.init seed⟩ (ks.take i) = .ok si ∧
        Quiet cmp (baseMem k0) (keyFn k0 (ks.take i)) si (ks.take i).length := by
      obtain ⟨si, e1, e2, _⟩ := insertAll_ok hc .release rfl k0 hdi (ks.take i) [] _ rfl
        (quiet_init k0 seed (keyFn k0 (ks.take i)))
      exact ⟨si, e1, e2⟩
    obtain ⟨si, e1, e2⟩ := mid
    have happ : ∀ (l1 l2 : List K) (s0 s1 : SL K), insertAll cmp .release s0 l1 = .ok s1 →
        insertAll cmp .release s0 (l1 ++ l2) = insertAll cmp .release s1 l2 := by
      intro l1
      induction l1 with
      | nil => intro l2 s0 s1 h; cases h; rfl
      | cons a l1 ih =>
        intro l2 s0 s1 h
        simp only [List.cons_append, insertAll, bind, Except.bind] at h ⊢
        cases hx : SkipList.Insert cmp .release s0 a with
        | error f => rw [hx] at h; cases h
        | ok s2 => rw [hx] at h; simp only at h ⊢; exact ih l2 s2 s1 h
    have hall : insertAll cmp .release ⟨baseMem k0, [], Random.init seed⟩ ks = .ok s := by
      simpa [SkipList.build, construct_eq, bind, Except.bind] using h1
    have hmono : ∀ (l : List K) (s0 s1 : SL K), insertAll cmp .release s0 l = .ok s1 → s0.log <+: s1.log := by
      intro l
      -- every insertion only appends to the log
      have hins : ∀ (s0 s1 : SL K) (k : K), SkipList.Insert cmp .release s0 k = .ok s1 → s0.log <+: s1.log := by
        intro s0 s1 k h
        have hset : ∀ (a c : SL K) p l v rel, SetNext a p l v rel = .ok c → a.log <+: c.log := by
          intro a c p l v rel h
          unfold SetNext at h
          split at h
          · cases h
          · split at h
            · cases h
            · split at h
              · cases h; exact ⟨_, rfl⟩
              · cases h
        have hlink : ∀ (n : Nat) x prev (a : SL K) i c, linkLoop x prev a i n = .ok c → a.log <+: c.log := by
          intro n
          induction n with
          | zero => intro x prev a i c h; cases h; exact List.prefix_refl _
          | succ n ih =>
            intro x prev a i c h
            simp only [linkLoop, bind, Except.bind] at h
            cases g1 : getPrev prev i with
            | error f => rw [g1] at h; cases h
            | ok p =>
              rw [g1] at h; simp only at h
              cases g2 : a.mem.next p i with
              | error f => rw [g2] at h; cases h
              | ok nx =>
                rw [g2] at h; simp only at h
                cases g3 : SetNext a x i nx false with
                | error f => rw [g3] at h; cases h
                | ok a1 =>
                  rw [g3] at h; simp only at h
                  cases g4 : SetNext a1 p i x true with
                  | error f => rw [g4] at h; cases h
                  | ok a2 =>
                    rw [g4] at h; simp only at h
                    exact (hset _ _ _ _ _ _ g3).trans ((hset _ _ _ _ _ _ g4).trans (ih _ _ _ _ _ h))
        unfold SkipList.Insert at h
        simp only [bind, Except.bind] at h
        cases g1 : find cmp .release s0.mem (.ge k) (some (List.replicate kMaxHeight none)) with
        | error f => rw [g1] at h; cases h
        | ok q =>
          obtain ⟨x, pos⟩ := q
          rw [g1] at h; simp only at h
          cases g2 : pos.prev with
          | none => rw [g2] at h; cases h
          | some arr =>
            rw [g2] at h; simp only [pure, Except.pure] at h
            cases g3 : dupAssert cmp .release s0.mem k x with
            | error f => rw [g3] at h; cases h
            | ok u =>
              rw [g3] at h; simp only at h
              cases g4 : RandomHeight .release s0.rnd with
              | error f => rw [g4] at h; cases h
              | ok hr =>
                obtain ⟨height, rnd⟩ := hr
                rw [g4] at h; simp only at h
                cases g5 : raiseHeight { s0 with rnd := rnd } arr height with
                | error f => rw [g5] at h; cases h
                | ok pr =>
                  obtain ⟨prev', s2⟩ := pr
                  rw [g5] at h; simp only [NewNode] at h
                  have p1 : s0.log <+: s2.log := by
                    unfold raiseHeight at g5
                    split at g5
                    · simp only [bind, Except.bind] at g5
                      split at g5
                      · cases g5
                      · cases g5; exact ⟨_, rfl⟩
                    · cases g5; exact List.prefix_refl _
                  have p2 : s2.log <+: (s2.emit (.new k height)).log := ⟨_, rfl⟩
                  exact p1.trans (p2.trans (hlink _ _ _ _ _ _ h))
      induction l with
      | nil => intro s0 s1 h; cases h; exact List.prefix_refl _
      | cons a l ih =>
        intro s0 s1 h
        simp only [insertAll, bind, Except.bind] at h
        cases hx : SkipList.Insert cmp .release s0 a with
        | error f => rw [hx] at h; cases h
        | ok s2 => rw [hx] at h; exact (hins _ _ _ hx).trans (ih _ _ h)
    have hpre : si.log <+: s.log := by
      have := happ (ks.take i) (ks.drop i) _ _ e1
      rw [← hsplit, hall] at this
      exact hmono _ _ _ this.symm
    have hlen : (ks.take i).length = i := by simp; omega
    have hcnt : SkipList.lin (s.log.take si.log.length) = i := by
      obtain ⟨ext, he⟩ := hpre
      rw [← he, List.take_left, e2.count, hlen]
    refine ⟨si, by simp [SkipList.build, construct_eq, bind, Except.bind, e1], hpre, ?_, ?_⟩
    · intro T hT
      have := lin_take_mono s.log hT
      simp only; omega
    · intro T hT
      have := lin_take_mono s.log hT
      simp only; omega
  · intro node T N hs op hop th hth ts res hrun
    have hk : ∀ T, T ≤ s.log.length →
        KeysAre (keyFn k0 ks) (pub (s.log.take T)) (ks.take (SkipList.lin (s.log.take T))) :=
      fun T hT => keysAre_of (h2.good T hT) (hlinle T)
    obtain ⟨hTN, hN, hnode⟩ := session_ok hc .release h2.good (fun T => ks.take (SkipList.lin (s.log.take T))) hk hs
    have hlen : (s.log.take N).length = N := by simp; omega
    obtain ⟨r, T', e1, e2, e3, e4, e5⟩ := citer_ok hc .release (h2.good.take N) (by omega) (by omega)
      (by rw [take_take_le s.log hTN]; exact hnode) op hop (fun T => ks.take (SkipList.lin (s.log.take T)))
      (fun T hT => by rw [take_take_le s.log (by omega)]; exact hk T (by omega)) hrun
    refine ⟨r, T', _, _, e1, e2, by omega, position_ok _ (h2.good T (by omega)).inv hnode,
      position_ok _ (h2.good T' (by omega)).inv ?_, e5⟩
    rw [take_take_le s.log (by omega)] at e4; exact e4

/-- C23 for `Contains`: under the same conditions a reader's `Contains k` does not fault and answers
whether `k` is among the first `lin T'` keys, at its new view `T'`.  (`lin` is the numbering of
`C23_linearizable`: number of keys linked by the first `T'` stores.) -/
theorem C23_contains :
    ∃ s, SkipList.build cmp .release k0 seed ks = .ok s ∧
    ∃ lin : Nat → Nat, (∀ T T', T ≤ T' → lin T ≤ lin T') ∧
      (∀ i, i ≤ ks.length → ∃ si, SkipList.build cmp .release k0 seed (ks.take i) = .ok si ∧
        (∀ T, si.log.length ≤ T → i ≤ lin T) ∧ (∀ T, T ≤ si.log.length → lin T ≤ i)) ∧
      ∃ base, SkipList.construct k0 seed = .ok ⟨base, [], Random.init seed⟩ ∧
      ∀ T N, T ≤ N → N ≤ s.log.length →
        ∀ th, th ≤ N → ∀ k ts res, ccontains cmp .release base (s.log.take N) th ts T k = some res →
        ∃ r T', res = .ok (r, T') ∧ T ≤ T' ∧ T' ≤ N ∧
          (r = true ↔ ∃ k' ∈ ks.take (lin T'), cmp k k' = 0) := by
  obtain ⟨s, h1, lin0, hmono, hcomp, base, hbase, _⟩ := C23_linearizable hc k0 seed hd
  obtain ⟨s', h1', h2⟩ := build_ok hc .release rfl k0 seed hd
  rw [h1] at h1'; cases h1'
  have hb : base = baseMem k0 := by rw [construct_eq] at hbase; cases hbase; rfl
  subst hb
  have hlinle : ∀ T, SkipList.lin (s.log.take T) ≤ ks.length := by
    intro T
    rw [← h2.count]
    by_cases h : T ≤ s.log.length
    · have := lin_take_mono s.log h; rwa [List.take_length] at this
    · rw [List.take_of_length_le (by omega)]; exact Nat.le_refl _
  refine ⟨s, h1, fun T => SkipList.lin (s.log.take T), fun T T' h => lin_take_mono s.log h, ?_, baseMem k0,
    hbase, ?_⟩
  · intro i hi
    obtain ⟨si, e1, e2, _, _⟩ := hcomp i hi
    refine ⟨si, e1, ?_⟩
    have hdi : Distinct cmp (ks.take i) := List.Pairwise.sublist (List.take_sublist i ks) hd
    obtain ⟨si', e1', q⟩ := build_ok hc .release rfl k0 seed hdi
    rw [e1] at e1'; cases e1'
    have hlen : (ks.take i).length = i := by simp; omega
    have hcnt : SkipList.lin (s.log.take si.log.length) = i := by
      obtain ⟨ext, he⟩ := e2
      rw [← he, List.take_left, q.count, hlen]
    constructor
    · intro T hT
      have := lin_take_mono s.log hT
      simp only; omega
    · intro T hT
      have := lin_take_mono s.log hT
      simp only; omega
  · intro T N hTN hN th hth k ts res hrun
    have hk : ∀ T, T ≤ s.log.length →
        KeysAre (keyFn k0 ks) (pub (s.log.take T)) (ks.take (SkipList.lin (s.log.take T))) :=
      fun T hT => keysAre_of (h2.good T hT) (hlinle T)
    have hlen : (s.log.take N).length = N := by simp; omega
    obtain ⟨r, T', e1, e2, e3, e4⟩ := ccontains_ok hc .release (h2.good.take N) (by omega) (by omega) k
      (fun T => ks.take (SkipList.lin (s.log.take T)))
      (fun T hT => by rw [take_take_le s.log (by omega)]; exact hk T (by omega)) hrun
    exact ⟨r, T', e1, e2, by omega, e4⟩

/-- C24: on the list holding `ks`, every operation ends without fault: `Insert` of any fresh key,
`Contains` of any key, and every legal operation of every iterator.  (A fault would be a null
dereference, a link outside a tower or never written, an uninitialised `prev` entry, or a loop that
does not end.) -/
theorem C24_no_fault :
    ∃ s, SkipList.build cmp .release k0 seed ks = .ok s ∧
      (∀ k, (∀ k' ∈ ks, cmp k k' ≠ 0) → ∃ s', SkipList.Insert cmp .release s k = .ok s') ∧
      (∀ k, ∃ r, Contains cmp .release s.mem k = .ok r) ∧
      (∀ node, IterReach cmp .release s.mem node → ∀ op, IterPre (Valid node) op →
        ∃ node', iter cmp .release s.mem node op = .ok node') := by
  obtain ⟨s, h1, h2⟩ := build_ok hc .release rfl k0 seed hd
  refine ⟨s, h1, ?_, ?_, ?_⟩
  · intro k hk
    have hd' : Distinct cmp (ks ++ [k]) := by
      unfold Distinct
      rw [List.pairwise_append]
      refine ⟨hd, by simp, ?_⟩
      intro a ha c hcm
      simp only [List.mem_singleton] at hcm
      subst hcm
      exact fun e => hk a ha (cmp_zero_symm hc e)
    obtain ⟨s2, e1, e2, _⟩ := insertAll_ok hc .release rfl k0 hd' (ks ++ [k]) [] _ rfl
      (quiet_init k0 seed (keyFn k0 (ks ++ [k])))
    have happ : ∀ (l : List K) (s0 s1 : SL K), insertAll cmp .release s0 (l ++ [k]) = .ok s1 →
        ∃ sm, insertAll cmp .release s0 l = .ok sm ∧ SkipList.Insert cmp .release sm k = .ok s1 := by
      intro l
      induction l with
      | nil =>
        intro s0 s1 h
        simp only [List.nil_append, insertAll, bind, Except.bind] at h
        cases hx : SkipList.Insert cmp .release s0 k with
        | error f => rw [hx] at h; cases h
        | ok s2 => rw [hx] at h; cases h; exact ⟨s0, rfl, hx⟩
      | cons a l ih =>
        intro s0 s1 h
        simp only [List.cons_append, insertAll, bind, Except.bind] at h ⊢
        cases hx : SkipList.Insert cmp .release s0 a with
        | error f => rw [hx] at h; cases h
        | ok s2 => rw [hx] at h; simp only at h ⊢; exact ih s2 s1 h
    obtain ⟨sm, g1, g2⟩ := happ ks _ _ e1
    have : sm = s := by
      have h1' : insertAll cmp .release ⟨baseMem k0, [], Random.init seed⟩ ks = .ok s := by
        simpa [SkipList.build, construct_eq, bind, Except.bind] using h1
      rw [h1'] at g1; cases g1; rfl
    subst this
    exact ⟨s2, g2⟩
  · intro k
    obtain ⟨r, e, _⟩ := contains_ok hc .release h2.inv h2.height h2.keysAre k
    exact ⟨r, e⟩
  · intro node hr op hop
    obtain ⟨s', h1', h3⟩ := C22_positions hc k0 seed hd
    rw [h1] at h1'; cases h1'
    obtain ⟨node', _, _, e, _⟩ := h3 node hr op hop
    exact ⟨node', e⟩

/-- C24 for readers concurrent with the writer: whatever `max_height_` the reader reads and whatever its loads return, a search that runs
while the writer has performed at most the stores of its first `i` insertions ends after at most `i + 12` loads, none of which faults. -/
theorem C24_readers_end :
    ∃ s, SkipList.build cmp .release k0 seed ks = .ok s ∧
    ∃ base, SkipList.construct k0 seed = .ok ⟨base, [], Random.init seed⟩ ∧
      ∀ i, i ≤ ks.length → ∃ si, SkipList.build cmp .release k0 seed (ks.take i) = .ok si ∧
      ∀ N, N ≤ si.log.length → N ≤ s.log.length →
        ∀ th T0, th ≤ N → T0 ≤ N → ∃ p0, startPos (memAt base (s.log.take N) th).maxH none = .ok p0 ∧
        ∀ q n p T, Searching cmp .release base (s.log.take N) q p0 T0 n p T → n < i + 12 ∧
          ∀ t, T ≤ t → t ≤ N → q.pre cmp .release (ckey base (s.log.take N) T) p = .ok () ∧
            ∃ next T' r, cload base (s.log.take N) T t p.x p.level = .ok (next, T') ∧
              q.body cmp (ckey base (s.log.take N) T') p next = .ok r := by
  obtain ⟨s, h1, lin0, _, hcomp, base, hbase, _⟩ := C23_linearizable hc k0 seed hd
  obtain ⟨s', h1', h2⟩ := build_ok hc .release rfl k0 seed hd
  rw [h1] at h1'; cases h1'
  have hb : base = baseMem k0 := by rw [construct_eq] at hbase; cases hbase; rfl
  subst hb
  refine ⟨s, h1, _, hbase, fun i hi => ?_⟩
  obtain ⟨si, e1, e2, _, _⟩ := hcomp i hi
  have hdi : Distinct cmp (ks.take i) := List.Pairwise.sublist (List.take_sublist i ks) hd
  obtain ⟨si', e1', q⟩ := build_ok hc .release rfl k0 seed hdi
  rw [e1] at e1'; cases e1'
  have hlen : (ks.take i).length = i := by simp; omega
  have hcnt : SkipList.lin (s.log.take si.log.length) = i := by
    obtain ⟨ext, he⟩ := e2
    rw [← he, List.take_left, q.count, hlen]
  refine ⟨si, e1, fun N hN hNs th T0 hth hT0 => ?_⟩
  have hg := h2.good.take N
  have hN' : (s.log.take N).length = N := by simp; omega
  have hH := (hg th (by omega)).height
  have hlin : SkipList.lin (s.log.take N) ≤ i := by rw [← hcnt]; exact lin_take_mono s.log hN
  refine ⟨⟨some 0, (memAt (baseMem k0) (s.log.take N) th).maxH - 1, none⟩, ?_, ?_⟩
  · unfold startPos memAt; rw [if_neg (by omega)]
  · intro q n p T hs
    have hlt : (memAt (baseMem k0) (s.log.take N) th).maxH - 1 < 12 := by simp only [memAt]; omega
    obtain ⟨g1, g2, g3, g4⟩ := searching_ok hc .release hg ⟨0, rfl, hlt, Or.inl rfl⟩ rfl (by omega) hs
    refine ⟨?_, fun t hTt ht => searching_next hc .release hg g1 g2 hTt (by omega)⟩
    obtain ⟨x, hx, _⟩ := g1
    have := g4 0 x rfl hx
    have h5 := above_lin hg.now ((baseMem k0).replay (s.log.take N)).nodes.length 0
    simp only at this
    omega

/-- C25, the part that holds: with the assertion of line 249 compiled out (in a release build there is
none; but also with every other assertion enabled), inserting any keys no two of which compare equal
succeeds, whatever the state of the generator. -/
theorem C25_insert_partial (b : Build) (hb : b.line249 = false) :
    ∃ s, SkipList.build cmp b k0 seed ks = .ok s := by
  obtain ⟨s, h, _⟩ := build_ok hc b hb k0 seed hd
  exact ⟨s, h⟩

/-- C25 fails in an assertion-enabled build: `assert(height < 0)` aborts the insertion of any fresh key
into any reachable list (in such a build only the empty list is reachable). -/
theorem C25_debug_build_aborts (hne : ks ≠ []) :
    SkipList.build cmp .debug k0 seed ks = .error .assertFail := by
  obtain ⟨k, rest, rfl⟩ := List.exists_cons_of_ne_nil hne
  have hq := quiet_init (cmp := cmp) k0 seed (fun _ => k0)
  obtain ⟨r, p, hf, hret, hpn, hpv⟩ := find_ok hc .debug hq.inv hq.height (.ge k)
    (some (List.replicate kMaxHeight none)) (by intro arr e; cases e; simp [kMaxHeight])
  have hr : r = none := by
    cases r with
    | none => rfl
    | some y => exact absurd hret.1 (pub_nil 0 y)
  subst hr
  simp only [SkipList.build, construct_eq, bind, Except.bind, insertAll, SkipList.Insert, hf]
  cases hpp : p.prev with
  | none => exact absurd hpp (hpn (by simp))
  | some arr => simp [dupAssert, assertIf, cassert, RandomHeight_debug, bind, Except.bind, pure, Except.pure]

end

/-- C24: every tower height the code can choose is between 1 and 12. -/
theorem C24_height (rnd : UInt32) :
    ∃ h rnd', RandomHeight .release rnd = .ok (h, rnd') ∧ 1 ≤ h ∧ h ≤ 12 :=
  RandomHeight_ok .release rfl rnd

/-! ### Concrete cases -/

/-- A comparator of natural numbers. -/
def natCmp (a c : Nat) : Int := (a : Int) - c

example : CmpOK natCmp := ⟨fun a c => by unfold natCmp; omega, fun a c d => by unfold natCmp; omega⟩
example : Distinct natCmp [50, 10, 40, 20, 30] := by unfold Distinct natCmp; simp

/-- Inserting five keys, then iterating both ways, seeking and asking. -/
example : (do
    let s ← SkipList.build natCmp .release 0 0xdeadbeef [50, 10, 40, 20, 30]
    let f ← iter natCmp .release s.mem none .seekToFirst
    let l ← iter natCmp .release s.mem none .seekToLast
    let t ← iter natCmp .release s.mem none (.seek 35)
    return (← scanForward natCmp .release s.mem 9 f, ← scanBackward natCmp .release s.mem 9 l,
      ← position .release s.mem t, ← Contains natCmp .release s.mem 20,
      ← Contains natCmp .release s.mem 25)) =
    .ok ([10, 20, 30, 40, 50], [50, 40, 30, 20, 10], some 40, true, false) := by decide +kernel

/-- A reader that seeks while the second of two insertions is half done: with a stale load it still
answers for the set {50}, with a fresh one for {50, 10}. -/
example : (do
    let s ← SkipList.build natCmp .release 0 0xdeadbeef [50, 10]
    let n := s.log.length
    let b := (⟨[⟨0, List.replicate 12 (some none)⟩], 1⟩ : Mem Nat)
    let key (r : Option (M (Ptr × Nat))) := match r with
      | some (.ok (p, T)) => (memAt b s.log T).key p
      | _ => .error .diverges
    return (← key (citer natCmp .release b s.log 0 [n - 3] (n - 3) none (.seek 5)),
      ← key (citer natCmp .release b s.log 0 [n] (n - 3) none (.seek 5)))) = .ok (50, 10) := by
  decide +kernel

/-- A reader that knows nothing of the writer's stores looks for 60, reads the newest link and has moved to node 2 (key 10). -/
example : ∃ s p, SkipList.build natCmp .release 0 0xdeadbeef [50, 10] = .ok s ∧
    Searching natCmp .release ⟨[⟨0, List.replicate 12 (some none)⟩], 1⟩ s.log (.ge 60) ⟨some 0, 0, none⟩ 0 1 p s.log.length ∧
    p.x = some 2 := by
  refine ⟨_, ⟨some 2, 0, none⟩, rfl, .load (t := _) (next := some 2) .start (Nat.zero_le _) (Nat.le_refl _) rfl ?_ ?_, rfl⟩
  · rfl
  · rfl

end Props
end Lsmdb
