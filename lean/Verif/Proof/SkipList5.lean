import Verif.Proof.SkipList4

namespace Lsmdb
namespace SkipList
open Spec

section
variable {K : Type} {cmp : K → K → Int} {base : Mem K} {key : Nat → K}

/-- Is `e` a store to link `l` of node `x`? -/
def StoresTo (x l : Nat) (e : Ev K) : Prop := ∃ v rel, e = .store x l v rel

theorem next_apply_of_not {m : Mem K} {x l : Nat} {r : Ptr} {e : Ev K} (h : m.next (some x) l = .ok r)
    (hne : ¬ StoresTo x l e) : (m.apply e).next (some x) l = .ok r := by
  cases e with
  | new k n =>
    obtain ⟨nd, hnd, _⟩ := next_of_key h
    rw [next_new _ _ _ _ _ (List.getElem?_eq_some_iff.mp hnd).1]; exact h
  | setMax n => rw [next_setMax]; exact h
  | store x' l' v rel =>
    rw [next_store_other]; exact h
    rintro ⟨rfl, rfl⟩; exact hne ⟨v, rel, rfl⟩

theorem next_replay_of_not {x l : Nat} {r : Ptr} : ∀ (es : List (Ev K)) (m : Mem K),
    m.next (some x) l = .ok r → (∀ e ∈ es, ¬ StoresTo x l e) → (m.replay es).next (some x) l = .ok r := by
  intro es
  induction es with
  | nil => intro m h _; exact h
  | cons e es ih =>
    intro m h hne
    exact ih (m.apply e) (next_apply_of_not h (hne e (by simp))) (fun e' he' => hne e' (by simp [he']))

theorem lastStore_spec (x l : Nat) : ∀ (es : List (Ev K)) (i : Nat) (acc : Option (Nat × Bool)),
    (lastStore x l es i acc = acc ∧ ∀ e ∈ es, ¬ StoresTo x l e) ∨
    (∃ a v rel c, es = a ++ .store x l v rel :: c ∧ lastStore x l es i acc = some (i + a.length + 1, rel) ∧
      ∀ e ∈ c, ¬ StoresTo x l e) := by
  intro es
  induction es with
  | nil => intro i acc; exact Or.inl ⟨rfl, by simp⟩
  | cons e es ih =>
    intro i acc
    have key : ∀ acc', lastStore x l (e :: es) i acc = lastStore x l es (i + 1) acc' →
        ((acc' = acc ∧ ¬ StoresTo x l e) ∨ (∃ v rel, e = .store x l v rel ∧ acc' = some (i + 1, rel))) →
        (lastStore x l (e :: es) i acc = acc ∧ ∀ e' ∈ e :: es, ¬ StoresTo x l e') ∨
        (∃ a v rel c, e :: es = a ++ .store x l v rel :: c ∧
          lastStore x l (e :: es) i acc = some (i + a.length + 1, rel) ∧ ∀ e ∈ c, ¬ StoresTo x l e) := by
      intro acc' h1 h2
      rcases ih (i + 1) acc' with ⟨h3, h4⟩ | ⟨a, v, rel, c, h3, h4, h5⟩
      · rcases h2 with ⟨h6, h7⟩ | ⟨v, rel, h6, h7⟩
        · left
          refine ⟨by rw [h1, h3, h6], ?_⟩
          intro e' he'
          rcases List.mem_cons.mp he' with rfl | he'
          · exact h7
          · exact h4 e' he'
        · right
          exact ⟨[], v, rel, es, by rw [h6]; rfl, by rw [h1, h3, h7]; rfl, h4⟩
      · right
        refine ⟨e :: a, v, rel, c, by rw [h3]; rfl, ?_, h5⟩
        rw [h1, h4, List.length_cons]
        simp only [Option.some.injEq, Prod.mk.injEq, and_true]; omega
    cases e with
    | new k n => exact key acc rfl (Or.inl ⟨rfl, by rintro ⟨_, _, h⟩; cases h⟩)
    | setMax n => exact key acc rfl (Or.inl ⟨rfl, by rintro ⟨_, _, h⟩; cases h⟩)
    | store x' l' v rel =>
      by_cases he : x' = x ∧ l' = l
      · refine key (some (i + 1, rel)) ?_ (Or.inr ⟨v, rel, by rw [he.1, he.2], rfl⟩)
        simp only [lastStore]; rw [if_pos he]
      · refine key acc ?_ (Or.inl ⟨rfl, ?_⟩)
        · simp only [lastStore]; rw [if_neg he]
        · rintro ⟨v', rel', h⟩; cases h; exact he ⟨rfl, rfl⟩

theorem take_split (log : List (Ev K)) {s t : Nat} (h : s ≤ t) :
    log.take t = log.take s ++ (log.drop s).take (t - s) := by
  conv => lhs; rw [show t = s + (t - s) by omega]
  rw [List.take_add]

theorem memAt_split (log : List (Ev K)) {s t : Nat} (h : s ≤ t) :
    memAt base log t = (memAt base log s).replay ((log.drop s).take (t - s)) := by
  unfold memAt
  rw [take_split log h, Mem.replay, List.foldl_append]; rfl

theorem pub_mono (log : List (Ev K)) {s t : Nat} (h : s ≤ t) {l y : Nat} (hp : pub (log.take s) l y) :
    pub (log.take t) l y := by
  obtain ⟨x, hx⟩ := hp
  refine ⟨x, ?_⟩
  rw [take_split log h]
  exact List.mem_append_left _ hx

/-- A legal load by a reader positioned on the list of level `l`: it does not fault, and its value is the
current one at the reader's new view. -/
theorem cload_ok {log : List (Ev K)} (hg : Good cmp base key log) {T t x l : Nat} (hTt : T ≤ t)
    (ht : t ≤ log.length) (hl : l < 12) (hx : x = 0 ∨ pub (log.take T) l x) :
    ∃ r T', cload base log T t (some x) l = .ok (r, T') ∧ T ≤ T' ∧ T' ≤ t ∧
      (memAt base log T').next (some x) l = .ok r := by
  obtain ⟨r0, hr0, _⟩ := (hg T (by omega)).inv.linked l x hl hx
  obtain ⟨r, hr, _⟩ := (hg t ht).inv.linked l x hl (hx.imp_right (pub_mono log hTt))
  -- if no store to the link after time `s` (with `s ≥ T`) then the value at `s` is the one at `t`
  have stable (s : Nat) (hs : T ≤ s) (hst : s ≤ t)
      (hno : ∀ e ∈ (log.drop s).take (t - s), ¬ StoresTo x l e) :
      (memAt base log s).next (some x) l = .ok r := by
    obtain ⟨r1, hr1, _⟩ := (hg s (by omega)).inv.linked l x hl (hx.imp_right (pub_mono log hs))
    have h2 := next_replay_of_not _ (base.replay (log.take s)) hr1 hno
    have h3 : (memAt base log t).next (some x) l = .ok r1 := by
      rw [memAt_split log hst]; exact h2
    have h4 : (memAt base log t).next (some x) l = .ok r := hr
    rw [h3] at h4
    cases h4
    exact hr1
  have hsub (s : Nat) (c : List (Ev K)) (hc : ∃ a, log.take t = a ++ c ∧ a.length ≤ s) (hst : s ≤ t) :
      ∀ e ∈ (log.drop s).take (t - s), e ∈ c := by
    obtain ⟨a, ha, hlen⟩ := hc
    intro e he
    have h1 : (log.take t).drop s = (log.drop s).take (t - s) := by
      rw [List.drop_take]
    rw [← h1, ha, List.drop_append] at he
    rw [List.drop_eq_nil_of_le hlen] at he
    simp only [List.nil_append] at he
    exact List.mem_of_mem_drop he
  have hv0 : (memAt base log T).next (some x) l = .ok r0 := hr0
  have hv : (memAt base log t).next (some x) l = .ok r := hr
  rcases lastStore_spec x l (log.take t) 0 none with ⟨h1, h2⟩ | ⟨a, v, rel, c, h1, h2, h3⟩
  · refine ⟨r, T, ?_, Nat.le_refl _, hTt, ?_⟩
    · simp only [cload, hv0, hv, h1, bind, Except.bind, pure, Except.pure]
    · apply stable T (Nat.le_refl _) hTt
      intro e he
      exact h2 e (hsub T (log.take t) ⟨[], rfl, by simp⟩ hTt e he)
  · have hal : a.length + 1 ≤ t := by
      have := congrArg List.length h1
      simp only [List.length_take, List.length_append, List.length_cons] at this
      omega
    cases rel with
    | true =>
      refine ⟨r, max T (0 + a.length + 1), ?_, Nat.le_max_left _ _, by omega, ?_⟩
      · simp only [cload, hv0, hv, h2, bind, Except.bind, pure, Except.pure]
      · apply stable _ (Nat.le_max_left _ _) (by omega)
        intro e he
        exact h3 e (hsub _ c ⟨a ++ [.store x l v true], by rw [h1]; simp, by simp; omega⟩ (by omega) e he)
    | false =>
      refine ⟨r, T, ?_, Nat.le_refl _, hTt, ?_⟩
      · simp only [cload, hv0, hv, h2, bind, Except.bind, pure, Except.pure]
      · by_cases hold : a.length + 1 ≤ T
        · apply stable T (Nat.le_refl _) hTt
          intro e he
          exact h3 e (hsub T c ⟨a ++ [.store x l v false], by rw [h1]; simp, by simp; omega⟩ hTt e he)
        · -- a relaxed store to a link that is already part of a list: impossible
          exfalso
          have htake : log.take (a.length + 1) = a ++ [.store x l v false] := by
            have h5 : (log.take t).take (a.length + 1) = log.take (a.length + 1) := by
              rw [List.take_take]; congr 1; omega
            rw [← h5, h1, List.take_append]
            simp [List.take_of_length_le]
          have hp := (hg (a.length + 1) (by omega)).priv a x l v htake
          have ha : a = log.take a.length := by
            have h5 : (log.take (a.length + 1)).take a.length = log.take a.length := by
              rw [List.take_take]; congr 1; omega
            rw [← h5, htake]; simp
          rcases hx with e | e
          · exact hp.1 e
          · apply hp.2
            rw [ha]
            exact pub_mono log (by omega) e

theorem PosOK.mono {log : List (Ev K)} {q : Search K} {p : Pos} {T T' : Nat} (h : T ≤ T')
    (hp : PosOK cmp key (pub (log.take T)) q p) : PosOK cmp key (pub (log.take T')) q p := by
  obtain ⟨x, h1, h2, h3⟩ := hp
  exact ⟨x, h1, h2, h3.imp_right (fun e => ⟨pub_mono log h e.1, e.2⟩)⟩

/-- A search run by a reader against the writer, whatever values its loads return: no fault, and the
result is correct for the memory at the reader's final view. -/
theorem cloop_ok (hc : CmpOK cmp) (b : Build) {log : List (Ev K)} (hg : Good cmp base key log) (q : Search K) :
    ∀ (ts : List Nat) (p : Pos) (T : Nat), PosOK cmp key (pub (log.take T)) q p → p.prev = none →
      T ≤ log.length → ∀ res, cloop cmp b base log q ts p T = some res →
      ∃ r T', res = .ok (r, T') ∧ T ≤ T' ∧ T' ≤ log.length ∧ RetOK cmp key (pub (log.take T')) q r := by
  intro ts
  induction ts with
  | nil => intro p T _ _ _ res h; simp [cloop] at h
  | cons t ts ih =>
    intro p T hp hpn hT res h
    unfold cloop at h
    by_cases hleg : T ≤ t ∧ t ≤ log.length
    · rw [if_pos hleg] at h
      have hpre : q.pre cmp b (ckey base log T) p = .ok () := pre_ok b (hg T hT).inv hp
      obtain ⟨x, hx, hl, hb⟩ := hp
      obtain ⟨r, T', hcl, h1, h2, hr⟩ := cload_ok hg hleg.1 hleg.2 hl (hb.imp_right And.left)
      rw [← hx] at hcl hr
      simp only [hpre, hcl] at h
      have hp' : PosOK cmp key (pub (log.take T')) q p := PosOK.mono h1 ⟨x, hx, hl, hb⟩
      have hstep := step_ok hc (hg T' (by omega)).inv hp' hr (hi := 12) hl (by
        cases q with
        | ge k => intro arr e; rw [hpn] at e; cases e
        | lt k => trivial
        | last => trivial)
      rcases hstep with ⟨p2, hbody, hp2, _, hn2, _, _, _⟩ | ⟨p2, r2, hbody, hret, _, _⟩
      · have hbody' : q.body cmp (ckey base log T') p r = .ok (.go p2) := hbody
        simp only [hbody'] at h
        obtain ⟨r3, T3, e1, e2, e3, e4⟩ := ih p2 T' hp2 (hn2 hpn) (by omega) res h
        exact ⟨r3, T3, e1, by omega, e3, e4⟩
      · have hbody' : q.body cmp (ckey base log T') p r = .ok (.ret (r2, p2)) := hbody
        simp only [hbody', Option.some.injEq] at h
        exact ⟨r2, T', h.symm, h1, by omega, hret⟩
    · rw [if_neg hleg] at h; cases h

theorem cfind_ok (hc : CmpOK cmp) (b : Build) {log : List (Ev K)} (hg : Good cmp base key log) (q : Search K)
    {th : Nat} (hth : th ≤ log.length) {ts : List Nat} {T : Nat} (hT : T ≤ log.length) {res}
    (h : cfind cmp b base log q th ts T = some res) :
    ∃ r T', res = .ok (r, T') ∧ T ≤ T' ∧ T' ≤ log.length ∧ RetOK cmp key (pub (log.take T')) q r := by
  have hH := (hg th hth).height
  have hstart : startPos (memAt base log th).maxH none = .ok ⟨some 0, (memAt base log th).maxH - 1, none⟩ := by
    unfold startPos memAt; rw [if_neg (by omega)]
  unfold cfind at h
  rw [hstart] at h
  simp only at h
  refine cloop_ok hc b hg q ts _ T ⟨0, rfl, ?_, Or.inl rfl⟩ rfl hT res h
  simp only [memAt]; omega

/-- `Contains` and the iterator operations run by a reader. -/
theorem citer_ok (hc : CmpOK cmp) (b : Build) {log : List (Ev K)} (hg : Good cmp base key log)
    {th : Nat} (hth : th ≤ log.length) {ts : List Nat} {T : Nat} (hT : T ≤ log.length) {node : Ptr}
    (hn : NodeOK (pub (log.take T)) node) (op : IterOp K) (hpre : IterPre (Valid node) op)
    (ks : Nat → List K) (hk : ∀ T, T ≤ log.length → KeysAre key (pub (log.take T)) (ks T)) {res}
    (h : citer cmp b base log th ts T node op = some res) :
    ∃ r T', res = .ok (r, T') ∧ T ≤ T' ∧ T' ≤ log.length ∧ NodeOK (pub (log.take T')) r ∧
      IterSpec cmp (ks T') (node.map key) op (r.map key) := by
  have one {x : Nat} (hx : x = 0 ∨ pub (log.take T) 0 x) {res} (h : cload1 base log ts T (some x) = some res) :
      ∃ r T', res = .ok (r, T') ∧ T ≤ T' ∧ T' ≤ log.length ∧ NextOK cmp key (pub (log.take T')) 0 x r := by
    unfold cload1 at h
    cases ts with
    | nil => cases h
    | cons t ts =>
      simp only at h
      by_cases hleg : T ≤ t ∧ t ≤ log.length
      · rw [if_pos hleg] at h
        obtain ⟨r, T', h1, h2, h3, h4⟩ := cload_ok hg hleg.1 hleg.2 (by omega : 0 < 12) hx
        cases h
        obtain ⟨r', hr', hok⟩ := (hg T' (by omega)).inv.linked 0 x (by omega) (hx.imp_right (pub_mono log h2))
        have : (base.replay (log.take T')).next (some x) 0 = .ok r := h4
        rw [hr'] at this; cases this
        exact ⟨r, T', h1, h2, by omega, hok⟩
      · rw [if_neg hleg] at h; cases h
  cases op with
  | seek t =>
    obtain ⟨r, T', h1, h2, h3, h4⟩ := cfind_ok hc b hg (.ge t) hth hT h
    exact ⟨r, T', h1, h2, h3, ge_node h4, spec_ge (hk T' h3) h4⟩
  | seekToFirst =>
    obtain ⟨r, T', h1, h2, h3, h4⟩ := one (Or.inl rfl) h
    exact ⟨r, T', h1, h2, h3, next_node h4, spec_first (hg T' h3).inv hc (hk T' h3) h4⟩
  | seekToLast =>
    simp only [citer, Option.map_eq_some_iff] at h
    obtain ⟨r0, h, rfl⟩ := h
    obtain ⟨r, T', h1, h2, h3, h4⟩ := cfind_ok hc b hg .last hth hT h
    have := spec_last (hg T' h3).inv hc (hk T' h3) h4
    subst h1
    exact ⟨_, T', rfl, h2, h3, this.2, this.1⟩
  | next =>
    rcases hn with rfl | ⟨x, rfl, hx⟩
    · cases hpre
    · have ha : assertIf b.asserts (pure (Valid (some x))) = .ok () := by
        unfold assertIf; cases b.asserts <;> rfl
      simp only [citer, ha] at h
      obtain ⟨r, T', h1, h2, h3, h4⟩ := one (Or.inr hx) h
      refine ⟨r, T', h1, h2, h3, next_node h4, key x, rfl, ?_⟩
      exact spec_next (hg T' h3).inv hc (hk T' h3) ((hg T hT).inv.valid 0 x hx).1 h4
  | prev =>
    rcases hn with rfl | ⟨x, rfl, hx⟩
    · cases hpre
    · have ha : assertIf b.asserts (pure (Valid (some x))) = .ok () := by
        unfold assertIf; cases b.asserts <;> rfl
      have hkey : ckey base log T (some x) = .ok (key x) := (hg T hT).inv.key_ok hx
      simp only [citer, ha, hkey, Option.map_eq_some_iff] at h
      obtain ⟨r0, h, rfl⟩ := h
      obtain ⟨r, T', h1, h2, h3, h4⟩ := cfind_ok hc b hg (.lt (key x)) hth hT h
      have := spec_lt (hg T' h3).inv hc (hk T' h3) h4
      subst h1
      exact ⟨_, T', rfl, h2, h3, this.2, key x, rfl, this.1⟩

theorem ccontains_ok (hc : CmpOK cmp) (b : Build) {log : List (Ev K)} (hg : Good cmp base key log)
    {th : Nat} (hth : th ≤ log.length) {ts : List Nat} {T : Nat} (hT : T ≤ log.length) (k : K)
    (ks : Nat → List K) (hk : ∀ T, T ≤ log.length → KeysAre key (pub (log.take T)) (ks T)) {res}
    (h : ccontains cmp b base log th ts T k = some res) :
    ∃ r T', res = .ok (r, T') ∧ T ≤ T' ∧ T' ≤ log.length ∧ (r = true ↔ ∃ k' ∈ ks T', cmp k k' = 0) := by
  simp only [ccontains, Option.map_eq_some_iff] at h
  obtain ⟨r0, h, rfl⟩ := h
  obtain ⟨r, T', h1, h2, h3, h4⟩ := cfind_ok hc b hg (.ge k) hth hT h
  subst h1
  cases r with
  | none =>
    refine ⟨false, T', rfl, h2, h3, ?_⟩
    constructor
    · intro h; cases h
    · rintro ⟨k', hk', he⟩
      obtain ⟨z, hz, rfl⟩ := (hk T' h3 k').mp hk'
      have h5 := h4 z hz
      have h6 := cmp_zero_symm hc he
      omega
  | some y =>
    obtain ⟨h5, h6, h7⟩ := h4
    have hkey : ckey base log T' (some y) = .ok (key y) := (hg T' h3).inv.key_ok h5
    refine ⟨decide (cmp k (key y) = 0), T', ?_, h2, h3, ?_⟩
    · simp [hkey, bind, Except.bind, pure, Except.pure]
    rw [decide_eq_true_eq]
    constructor
    · intro h; exact ⟨key y, (hk T' h3 _).mpr ⟨y, h5, rfl⟩, h⟩
    · rintro ⟨k', hk', he⟩
      obtain ⟨z, hz, rfl⟩ := (hk T' h3 k').mp hk'
      have hz0 := cmp_zero_symm hc he
      have hle := h7 z hz (by omega)
      have h8 := hc.trans (key y) (key z) k hle (by omega)
      have h9 : cmp (key y) k = 0 := by omega
      exact cmp_zero_symm hc h9

end
end SkipList
end Lsmdb
