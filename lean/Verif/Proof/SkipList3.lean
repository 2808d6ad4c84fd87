import Verif.Proof.SkipList2

namespace Lsmdb
namespace SkipList
open Spec

section
variable {K : Type}

/-- Node `y` has been linked at level `l` by a release store of the log. -/
def pub (log : List (Ev K)) (l y : Nat) : Prop := ∃ x, Ev.store x l (some y) true ∈ log

/-- Is this the store that makes a key part of the set? -/
def isPub0 : Ev K → Bool
  | .store _ 0 (some _) true => true
  | _ => false

/-- Number of keys that are part of the set after the stores of `log`. -/
def lin (log : List (Ev K)) : Nat := (log.filter isPub0).length

theorem lin_append (a c : List (Ev K)) : lin (a ++ c) = lin a + lin c := by simp [lin]

theorem lin_take_mono (log : List (Ev K)) {s t : Nat} (h : s ≤ t) : lin (log.take s) ≤ lin (log.take t) := by
  have : log.take t = log.take s ++ (log.drop s).take (t - s) := by
    conv => lhs; rw [show t = s + (t - s) by omega]
    rw [List.take_add]
  rw [this, lin_append]; omega

theorem pub_append (log : List (Ev K)) (e : Ev K) (l y : Nat) :
    pub (log ++ [e]) l y ↔ pub log l y ∨ ∃ x, e = .store x l (some y) true := by
  unfold pub
  simp only [List.mem_append, List.mem_singleton]
  constructor
  · rintro ⟨x, h | h⟩
    · exact Or.inl ⟨x, h⟩
    · exact Or.inr ⟨x, h.symm⟩
  · rintro (⟨x, h⟩ | ⟨x, h⟩)
    · exact ⟨x, Or.inl h⟩
    · exact ⟨x, Or.inr h.symm⟩

theorem replay_append (m : Mem K) (log : List (Ev K)) (e : Ev K) :
    m.replay (log ++ [e]) = (m.replay log).apply e := by simp [Mem.replay]

variable (cmp : K → K → Int) (base : Mem K) (key : Nat → K)

/-- What holds after any prefix of the writer's stores. -/
structure GoodAt (log : List (Ev K)) : Prop where
  inv : Inv cmp key (base.replay log) (pub log)
  height : 1 ≤ (base.replay log).maxH ∧ (base.replay log).maxH ≤ 12
  level0 : ∀ y, pub log 0 y ↔ 1 ≤ y ∧ y ≤ lin log
  priv : ∀ lg x l v, log = lg ++ [Ev.store x l v false] → x ≠ 0 ∧ ¬ pub lg l x

def Good (log : List (Ev K)) : Prop := ∀ t, t ≤ log.length → GoodAt cmp base key (log.take t)

variable {cmp base key}

theorem Good.now {log : List (Ev K)} (h : Good cmp base key log) : GoodAt cmp base key log := by
  have := h log.length (Nat.le_refl _)
  rwa [List.take_length] at this

theorem Good.push {log : List (Ev K)} (h : Good cmp base key log) {e : Ev K}
    (he : GoodAt cmp base key (log ++ [e])) : Good cmp base key (log ++ [e]) := by
  intro t ht
  by_cases hlt : t ≤ log.length
  · rw [List.take_append_of_le_length hlt]; exact h t hlt
  · have : t = (log ++ [e]).length := by simp at ht ⊢; omega
    rw [this, List.take_length]; exact he

theorem priv_of_not {log : List (Ev K)} {e : Ev K} (h : ∀ x l v, e ≠ .store x l v false) :
    ∀ lg x l v, log ++ [e] = lg ++ [Ev.store x l v false] → x ≠ 0 ∧ ¬ pub lg l x := by
  intro lg x l v he
  have h2 := (List.append_inj' he rfl).2
  simp only [List.cons.injEq, and_true] at h2
  exact absurd h2 (h x l v)

theorem priv_of {log : List (Ev K)} {x l : Nat} {v : Ptr} (h0 : x ≠ 0) (h : ¬ pub log l x) :
    ∀ lg x' l' v', log ++ [Ev.store x l v false] = lg ++ [Ev.store x' l' v' false] →
      x' ≠ 0 ∧ ¬ pub lg l' x' := by
  intro lg x' l' v' he
  obtain ⟨h1, h2⟩ := List.append_inj' he rfl
  simp only [List.cons.injEq, and_true, Ev.store.injEq] at h2
  obtain ⟨rfl, rfl, rfl⟩ := h2
  subst h1
  exact ⟨h0, h⟩

theorem pub_eq_of_not {log : List (Ev K)} {e : Ev K} (h : ∀ x l y, e ≠ .store x l (some y) true) :
    pub (log ++ [e]) = pub log := by
  funext l y
  apply propext
  rw [pub_append]
  exact ⟨fun h' => h'.elim id (fun ⟨x, hx⟩ => absurd hx (h x l y)), Or.inl⟩

theorem lin_eq_of_not {log : List (Ev K)} {e : Ev K} (h : isPub0 e = false) : lin (log ++ [e]) = lin log := by
  simp [lin, h]

theorem randomLoop_ok : ∀ (fuel h : Nat) (rnd : UInt32), 1 ≤ h → h ≤ 12 → 12 - h < fuel →
    ∃ h' rnd', randomLoop fuel h rnd = .ok (h', rnd') ∧ 1 ≤ h' ∧ h' ≤ 12 := by
  intro fuel
  induction fuel with
  | zero => intro h rnd _ _ hf; omega
  | succ fuel ih =>
    intro h rnd h1 h2 hf
    unfold randomLoop kMaxHeight
    by_cases hlt : h < 12
    · rw [if_pos hlt]
      simp only
      split
      · exact ih (h + 1) _ (by omega) (by omega) (by omega)
      · exact ⟨h, _, rfl, h1, h2⟩
    · rw [if_neg hlt]
      exact ⟨h, rnd, rfl, h1, h2⟩

theorem RandomHeight_ok (b : Build) (hb : b.line249 = false) (rnd : UInt32) :
    ∃ h rnd', RandomHeight b rnd = .ok (h, rnd') ∧ 1 ≤ h ∧ h ≤ 12 := by
  obtain ⟨h, rnd', h1, h2, h3⟩ := randomLoop_ok 12 1 rnd (by omega) (by omega) (by omega)
  refine ⟨h, rnd', ?_, h2, h3⟩
  unfold RandomHeight
  simp only [h1, bind, Except.bind, pure, Except.pure, assertIf, hb, Bool.false_eq_true, if_false, kMaxHeight]
  cases b.asserts <;> simp [h3, cassert]

theorem RandomHeight_debug (rnd : UInt32) : RandomHeight Build.debug rnd = .error .assertFail := by
  obtain ⟨h, rnd', h1, h2, h3⟩ := randomLoop_ok 12 1 rnd (by omega) (by omega) (by omega)
  unfold RandomHeight
  simp [h1, bind, Except.bind, pure, Except.pure, assertIf, Build.debug, cassert]

theorem fillPrev_ok : ∀ (n : Nat) (arr : List (Option Ptr)) (i : Nat), arr.length = 12 → i + n ≤ 12 →
    ∃ arr', fillPrev arr i n = .ok arr' ∧ arr'.length = 12 ∧
      ∀ j, arr'[j]? = if i ≤ j ∧ j < i + n then some (some (some 0)) else arr[j]? := by
  intro n
  induction n with
  | zero =>
    intro arr i hl hle
    refine ⟨arr, rfl, hl, fun j => ?_⟩
    rw [if_neg (by omega)]
  | succ n ih =>
    intro arr i hl hle
    obtain ⟨arr', h1, h2, h3⟩ := ih (arr.set i (some (some 0))) (i + 1) (by simp [hl]) (by omega)
    refine ⟨arr', ?_, h2, fun j => ?_⟩
    · simp only [fillPrev]; rw [if_pos (by omega)]; exact h1
    · rw [h3 j]
      by_cases hij : i = j
      · subst hij
        rw [if_neg (by omega), if_pos (by omega), List.getElem?_set_self (by omega)]
      · rw [List.getElem?_set_ne hij]
        by_cases hc : i + 1 ≤ j ∧ j < i + 1 + n
        · rw [if_pos hc, if_pos (by omega)]
        · rw [if_neg hc, if_neg (by omega)]

theorem next_of_key {m : Mem K} {x l : Nat} {r : Ptr} (h : m.next (some x) l = .ok r) :
    ∃ n, m.nodes[x]? = some n ∧ l < n.next.length := by
  unfold Mem.next at h
  simp only at h
  cases hn : m.nodes[x]? with
  | none => rw [hn] at h; simp at h
  | some n =>
    rw [hn] at h; simp only at h
    refine ⟨n, rfl, ?_⟩
    cases hg : n.next[l]? with
    | none => rw [hg] at h; simp at h
    | some _ => exact (List.getElem?_eq_some_iff.mp hg).1

theorem linkLoop_ok (hc : CmpOK cmp) {prev : List (Option Ptr)} {k : K} {x height nn : Nat}
    (hx : x = nn + 1) (hkx : key x = k) (hh : height ≤ 12) (hh1 : 1 ≤ height) :
    ∀ (n i : Nat) (s : SL K), i + n = height → s.mem = base.replay s.log → Good cmp base key s.log →
      (∀ j, pub s.log j x ↔ j < i) →
      (∀ y, pub s.log 0 y ↔ (1 ≤ y ∧ y ≤ nn) ∨ (0 < i ∧ y = x)) →
      lin s.log = nn + (if 0 < i then 1 else 0) →
      (∃ nd, s.mem.nodes[x]? = some nd ∧ nd.next.length = height) →
      (∀ y, pub s.log 0 y → y ≠ x → cmp (key x) (key y) ≠ 0) →
      (∀ j, i ≤ j → j < height → ∃ p, prev[j]? = some (some (some p)) ∧ PrevOK cmp key (pub s.log) k j p) →
      s.mem.nodes.length = nn + 2 →
      (∀ l y, s.mem.maxH ≤ l → ¬ pub s.log l y) → height ≤ s.mem.maxH →
      ∃ s', linkLoop (some x) prev s i n = .ok s' ∧ s'.mem = base.replay s'.log ∧
        Good cmp base key s'.log ∧ lin s'.log = nn + 1 ∧ s'.mem.nodes.length = nn + 2 ∧
        (∀ l y, s'.mem.maxH ≤ l → ¬ pub s'.log l y) ∧ (∃ ext, s'.log = s.log ++ ext) := by
  intro n
  induction n with
  | zero =>
    intro i s hin hmem hgood _ hp0 hlin _ _ _ hlen htop hmax
    refine ⟨s, rfl, hmem, hgood, ?_, hlen, htop, [], by simp⟩
    rw [hlin, if_pos (by omega)]
  | succ n ih =>
    intro i s hin hmem hgood hpx hp0 hlin hnd hdist hprev hlen htop hmax
    obtain ⟨p, hpa, hpok⟩ := hprev i (Nat.le_refl _) (by omega)
    have hinv : Inv cmp key s.mem (pub s.log) := by rw [hmem]; exact hgood.now.inv
    have hpS : p = 0 ∨ pub s.log i p := hpok.1.imp_right And.left
    obtain ⟨r, hr, hrok⟩ := hinv.linked i p (by omega) hpS
    obtain ⟨nd, hnd1, hnd2⟩ := hnd
    have hx0 : x ≠ 0 := by omega
    have hnot : ¬ pub s.log i x := fun e => by have := (hpx i).mp e; omega
    have hpx' : p ≠ x := by
      rintro rfl
      rcases hpS with e | e
      · exact hx0 e
      · exact hnot e
    -- first store: private
    let s1 := s.emit (.store x i r false)
    have hs1 : SetNext s (some x) i r false = .ok s1 := by
      simp only [SetNext, hnd1]; rw [if_pos (by omega)]
    have hpub1 : pub s1.log = pub s.log := pub_eq_of_not (by intro _ _ _ e; cases e)
    have hinv1 : Inv cmp key s1.mem (pub s1.log) := by
      rw [hpub1]; exact inv_store_private hinv r false hx0 hnot
    have hmem1 : s1.mem = base.replay s1.log := by
      change s.mem.apply (.store x i r false) = base.replay (s.log ++ [.store x i r false])
      rw [replay_append, hmem]
    have hlin1 : lin s1.log = lin s.log := lin_eq_of_not (by cases i <;> cases r <;> rfl)
    have hgood1 : Good cmp base key s1.log := by
      refine hgood.push ⟨?_, ?_, ?_, priv_of hx0 hnot⟩
      · have := hinv1; rw [hmem1] at this; exact this
      · have h := hgood.now.height
        have e : (base.replay (s.log ++ [Ev.store x i r false])).maxH = (base.replay s.log).maxH := by
          rw [replay_append]; rfl
        rw [e]; exact h
      · intro y
        change pub s1.log 0 y ↔ 1 ≤ y ∧ y ≤ lin s1.log
        rw [hpub1, hlin1]; exact hgood.now.level0 y
    -- second store: publication
    have hnx : s1.mem.next (some x) i = .ok r :=
      next_store_same s.mem x i r false hnd1 (by omega)
    have hnp : s1.mem.next (some p) i = .ok r := by
      have e := next_store_other s.mem x i r false p i (by rintro ⟨e, _⟩; exact hpx' e)
      exact e.trans hr
    obtain ⟨ndp, hndp, hlp⟩ := next_of_key hnp
    let s2 := s1.emit (.store p i (some x) true)
    have hs2 : SetNext s1 (some p) i (some x) true = .ok s2 := by
      simp only [SetNext, hndp]; rw [if_pos hlp]
    have hlen1 : s1.mem.nodes.length = nn + 2 := by
      exact (len_store s.mem x i r false).trans hlen
    have hpub2 : pub s2.log = fun l y => pub s1.log l y ∨ (l = i ∧ y = x) := by
      funext l y
      apply propext
      change pub (s1.log ++ [Ev.store p i (some x) true]) l y ↔ _
      rw [pub_append]
      constructor
      · rintro (h | ⟨w, h⟩)
        · exact Or.inl h
        · cases h; exact Or.inr ⟨rfl, rfl⟩
      · rintro (h | ⟨rfl, rfl⟩)
        · exact Or.inl h
        · exact Or.inr ⟨p, rfl⟩
    have hnltpx : nlt cmp key p x := by
      refine ⟨hx0, ?_⟩
      rw [hkx]
      exact hpok.1.imp_right And.right
    have hinv2 : Inv cmp key s2.mem (pub s2.log) := by
      rw [hpub2]
      refine inv_publish hc hinv1 true hx0 (by omega) (by omega) (by rw [hpub1]; exact hnot) ?_ ?_ ?_
        hnltpx ?_ (by rw [hnx, hnp])
      · intro j hj; rw [hpub1]; exact (hpx j).mpr hj
      · intro y hy hne; rw [hpub1] at hy; exact hdist y hy hne
      · rw [hpub1]; exact hpS
      · intro z hz hlt
        rw [hpub1] at hz
        refine ⟨hlt.1, Or.inr ?_⟩
        have hz' := hpok.2 z hz hlt
        rw [hkx]
        -- z is at or above k, and not equal to it
        have hzx : z ≠ x := fun e => hnot (e ▸ hz)
        have hd := hdist z (hinv.sub0 hz) hzx
        rw [hkx] at hd
        have hle := le_of_not_lt hc hz'
        omega
    have hmem2 : s2.mem = base.replay s2.log := by
      change s1.mem.apply (.store p i (some x) true) = base.replay (s1.log ++ [.store p i (some x) true])
      rw [replay_append, hmem1]
    have hlin2 : lin s2.log = nn + 1 := by
      change lin (s1.log ++ [Ev.store p i (some x) true]) = _
      rw [lin_append, hlin1, hlin]
      cases i with
      | zero => simp [lin, isPub0]
      | succ i => simp [lin, isPub0]
    have hp02 : ∀ y, pub s2.log 0 y ↔ (1 ≤ y ∧ y ≤ nn) ∨ (0 < i + 1 ∧ y = x) := by
      intro y
      rw [hpub2]
      simp only
      rw [hpub1, hp0 y]
      by_cases hi0 : i = 0
      · subst hi0; simp
      · constructor
        · rintro ((h | h) | h)
          · exact Or.inl h
          · exact Or.inr ⟨by omega, h.2⟩
          · exact absurd h.1.symm hi0
        · rintro (h | h)
          · exact Or.inl (Or.inl h)
          · exact Or.inl (Or.inr ⟨by omega, h.2⟩)
    have hgood2 : Good cmp base key s2.log := by
      refine hgood1.push ⟨?_, ?_, ?_, priv_of_not (by intro _ _ _ e; cases e)⟩
      · have := hinv2; rw [hmem2] at this; exact this
      · have h := hgood1.now.height
        have e : (base.replay (s1.log ++ [Ev.store p i (some x) true])).maxH = (base.replay s1.log).maxH := by
          rw [replay_append]; rfl
        rw [e]; exact h
      · intro y
        change pub s2.log 0 y ↔ 1 ≤ y ∧ y ≤ lin s2.log
        rw [hlin2, hp02 y]; omega
    obtain ⟨s', h1, h2, h3, h4, h5, h6, ext, h7⟩ := ih (i + 1) s2 (by omega) hmem2 hgood2 (by
        intro j
        rw [hpub2]
        simp only
        rw [hpub1, hpx j]; simp only [and_true]; omega) hp02 (by rw [hlin2, if_pos (by omega)]) (by
        -- the tower of x keeps its size
        have hx1 : ∃ nd1, s1.mem.nodes[x]? = some nd1 ∧ nd1.next.length = height := by
          refine ⟨{ nd with next := nd.next.set i (some r) }, ?_, by simp [hnd2]⟩
          change (s.mem.apply (.store x i r false)).nodes[x]? = _
          simp [Mem.apply, hnd1]
        obtain ⟨nd1, e1, e2⟩ := hx1
        refine ⟨nd1, ?_, e2⟩
        change (s1.mem.apply (.store p i (some x) true)).nodes[x]? = _
        simp [Mem.apply, List.getElem?_modify, e1, hpx']) (by
        intro y hy hne
        refine hdist y ?_ hne
        rw [hpub2] at hy
        rcases hy with hy | hy
        · rw [hpub1] at hy; exact hy
        · exact absurd hy.2 hne) (by
        intro j hj1 hj2
        obtain ⟨pj, e1, e2, e3⟩ := hprev j (by omega) hj2
        have hSj : ∀ z, pub s2.log j z ↔ pub s.log j z := by
          intro z; rw [hpub2]; simp only; rw [hpub1]
          exact ⟨fun h => h.elim id (fun h => absurd h.1 (by omega)), Or.inl⟩
        refine ⟨pj, e1, e2.imp_right (fun h => ⟨(hSj pj).mpr h.1, h.2⟩), fun z hz => e3 z ((hSj z).mp hz)⟩) (by
        exact (len_store s1.mem p i (some x) true).trans hlen1) (by
        intro l y hl
        have hm : s2.mem.maxH = s.mem.maxH := rfl
        rw [hm] at hl
        rw [hpub2]
        simp only
        rw [hpub1]
        rintro (h | h)
        · exact htop l y hl h
        · omega) hmax
    refine ⟨s', ?_, h2, h3, h4, h5, h6, [Ev.store x i r false, Ev.store p i (some x) true] ++ ext, ?_⟩
    · have hgp : getPrev prev i = .ok (some p) := by simp [getPrev, hpa]
      simp only [linkLoop, hgp, hr, hs1, hs2, bind, Except.bind, h1]
    · rw [h7]
      change (s.log ++ [.store x i r false]) ++ [.store p i (some x) true] ++ ext = _
      simp

/-- The state between two insertions, `n` keys having been inserted. -/
structure Quiet (cmp : K → K → Int) (base : Mem K) (key : Nat → K) (s : SL K) (n : Nat) : Prop where
  mem : s.mem = base.replay s.log
  good : Good cmp base key s.log
  count : lin s.log = n
  len : s.mem.nodes.length = n + 1
  top : ∀ l y, s.mem.maxH ≤ l → ¬ pub s.log l y

theorem insert_ok (hc : CmpOK cmp) (b : Build) (hb : b.line249 = false) {s : SL K} {n : Nat}
    (h : Quiet cmp base key s n) {k : K} (hk : key (n + 1) = k)
    (hd : ∀ y, 1 ≤ y → y ≤ n → cmp k (key y) ≠ 0) :
    ∃ s', Insert cmp b s k = .ok s' ∧ Quiet cmp base key s' (n + 1) ∧ ∃ ext, s'.log = s.log ++ ext := by
  have hinv : Inv cmp key s.mem (pub s.log) := by rw [h.mem]; exact h.good.now.inv
  have hH : 1 ≤ s.mem.maxH ∧ s.mem.maxH ≤ 12 := by rw [h.mem]; exact h.good.now.height
  obtain ⟨r, p, hf, hret, hpn, hpv⟩ := find_ok hc b hinv hH (.ge k) (some (List.replicate kMaxHeight none))
    (by intro arr e; cases e; simp [kMaxHeight])
  have hlvl0 : ∀ y, pub s.log 0 y ↔ 1 ≤ y ∧ y ≤ n := by
    intro y; rw [h.good.now.level0 y, h.count]
  cases hpp : p.prev with
  | none => exact absurd hpp (hpn (by simp))
  | some arr =>
    obtain ⟨harrlen, harr⟩ := hpv arr hpp
    obtain ⟨height, rnd, hrh, hh1, hh2⟩ := RandomHeight_ok b hb s.rnd
    -- the duplicate assertion holds
    have hassert : dupAssert cmp b s.mem k r = .ok () := by
      unfold dupAssert assertIf
      cases b.asserts with
      | false => simp
      | true =>
        cases r with
        | none => simp [cassert, bind, Except.bind, pure, Except.pure]
        | some y =>
          have hy := (hlvl0 y).mp hret.1
          have hky := hinv.key_ok hret.1
          have := hd y hy.1 hy.2
          simp [cassert, bind, Except.bind, pure, Except.pure, hky, this]
    -- after the optional raise of max_height_
    have hraise : ∃ prev' s1, raiseHeight ({ s with rnd := rnd } : SL K) arr height = .ok (prev', s1) ∧
        s1.mem = base.replay s1.log ∧ Good cmp base key s1.log ∧ pub s1.log = pub s.log ∧
        lin s1.log = n ∧ s1.mem.nodes.length = n + 1 ∧ s1.mem.nodes = s.mem.nodes ∧
        (∀ l y, s1.mem.maxH ≤ l → ¬ pub s1.log l y) ∧ height ≤ s1.mem.maxH ∧
        (∃ ext, s1.log = s.log ++ ext) ∧
        (∀ j, j < height → ∃ p, prev'[j]? = some (some (some p)) ∧ PrevOK cmp key (pub s.log) k j p) := by
      by_cases hgt : height > s.mem.maxH
      · obtain ⟨arr', ha1, ha2, ha3⟩ := fillPrev_ok (height - s.mem.maxH) arr s.mem.maxH harrlen (by omega)
        have hpube : pub (s.log ++ [Ev.setMax height]) = pub s.log :=
          pub_eq_of_not (by intro _ _ _ e; cases e)
        have hline : lin (s.log ++ [Ev.setMax (K := K) height]) = lin s.log := lin_eq_of_not rfl
        refine ⟨arr', ({ s with rnd := rnd } : SL K).emit (.setMax height), ?_, ?_, ?_, hpube, ?_, h.len, rfl,
          ?_, ?_, ⟨_, rfl⟩, ?_⟩
        · rw [raiseHeight, if_pos hgt]; simp [ha1, bind, Except.bind, pure, Except.pure]
        · change s.mem.apply (.setMax height) = base.replay (s.log ++ [.setMax height])
          rw [replay_append, h.mem]
        · refine h.good.push ⟨?_, ?_, ?_, priv_of_not (by intro _ _ _ e; cases e)⟩
          · rw [replay_append, hpube]; exact inv_setMax h.good.now.inv _
          · rw [replay_append]; exact ⟨hh1, hh2⟩
          · intro y; rw [hpube, hline]; exact h.good.now.level0 y
        · exact hline.trans h.count
        · intro l y hl
          change ¬ pub (s.log ++ [Ev.setMax height]) l y
          rw [hpube]
          have : height ≤ l := hl
          exact h.top l y (by omega)
        · exact Nat.le_refl _
        · intro j hj
          rw [ha3 j]
          by_cases hjm : j < s.mem.maxH
          · rw [if_neg (by omega)]
            exact harr j (Nat.zero_le _) hjm
          · rw [if_pos (by omega)]
            exact ⟨0, rfl, Or.inl rfl, fun z hz => absurd hz (h.top j z (by omega))⟩
      · refine ⟨arr, { s with rnd := rnd }, by rw [raiseHeight, if_neg hgt], h.mem, h.good, rfl, h.count, h.len, rfl,
          h.top, by simp only; omega, ⟨[], by simp⟩, fun j hj => harr j (Nat.zero_le _) (by omega)⟩
    obtain ⟨prev', s1, hr1, hm1, hg1, hp1, hl1, hn1, _, ht1, hmx1, ⟨e1, he1⟩, hpr1⟩ := hraise
    -- NewNode
    let s2 := s1.emit (.new k height)
    have hpub2 : pub s2.log = pub s1.log := pub_eq_of_not (by intro _ _ _ e; cases e)
    have hlin2 : lin s2.log = lin s1.log := lin_eq_of_not rfl
    have hinv1 : Inv cmp key s1.mem (pub s1.log) := by rw [hm1]; exact hg1.now.inv
    have hinv2 : Inv cmp key s2.mem (pub s2.log) := by
      rw [hpub2]; exact inv_new hinv1 k height (by rw [hn1]; exact hk)
    have hmem2 : s2.mem = base.replay s2.log := by
      change s1.mem.apply (.new k height) = base.replay (s1.log ++ [.new k height])
      rw [replay_append, hm1]
    have hlen2 : s2.mem.nodes.length = n + 2 := by
      change (s1.mem.apply (.new k height)).nodes.length = _; simp [Mem.apply, hn1]
    have hgood2 : Good cmp base key s2.log := by
      refine hg1.push ⟨?_, ?_, ?_, priv_of_not (by intro _ _ _ e; cases e)⟩
      · have := hinv2; rw [hmem2] at this; exact this
      · have hh := hg1.now.height
        have e : (base.replay (s1.log ++ [Ev.new k height])).maxH = (base.replay s1.log).maxH := by
          rw [replay_append]; rfl
        rw [e]; exact hh
      · intro y
        change pub s2.log 0 y ↔ 1 ≤ y ∧ y ≤ lin s2.log
        rw [hpub2, hlin2]; exact hg1.now.level0 y
    obtain ⟨s', h1, h2, h3, h4, h5, h6, ext, h7⟩ := linkLoop_ok (base := base) hc (prev := prev') (k := k)
      (x := n + 1) (height := height) (nn := n) rfl hk hh2 hh1 height 0 s2 (by omega) hmem2 hgood2
      (by
        intro j
        rw [hpub2, hp1]
        constructor
        · intro e
          have := (hlvl0 _).mp (hinv.sub0 e); omega
        · intro e; omega)
      (by intro y; rw [hpub2, hp1, hlvl0 y]; simp)
      (by rw [hlin2, hl1]; simp)
      (by
        refine ⟨⟨k, List.replicate height none⟩, ?_, by simp⟩
        change (s1.mem.apply (.new k height)).nodes[n + 1]? = _
        simp only [Mem.apply]
        rw [← hn1, List.getElem?_concat_length])
      (by
        intro y hy _
        rw [hpub2, hp1] at hy
        have := (hlvl0 y).mp hy
        rw [hk]; exact hd y this.1 this.2)
      (by intro j _ hj; rw [hpub2, hp1]; exact hpr1 j hj)
      hlen2
      (by intro l y hl; rw [hpub2]; exact ht1 l y hl)
      hmx1
    refine ⟨s', ?_, ⟨h2, h3, h4, h5, h6⟩, ⟨e1 ++ [Ev.new k height] ++ ext, ?_⟩⟩
    · unfold Insert
      simp only [hf, hpp, bind, Except.bind, pure, Except.pure]
      simp only [hassert, hrh, hr1]
      simp only [NewNode, hn1]
      exact h1
    · rw [h7]
      change (s1.log ++ [.new k height]) ++ ext = _
      rw [he1]; simp

end
end SkipList
end Lsmdb
