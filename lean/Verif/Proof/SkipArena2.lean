import Verif.Proof.SkipArena1

/-!
# The list in the arena simulates the list of `Model/SkipList`: operations
-/

namespace Lsmdb
namespace SkipArena
open SkipList (Ptr Build Pos Search Step assertIf kMaxHeight IterOp Valid Mem Node SL Ev)
open Spec

section
variable {K : Type} {sz : Nat} {α : Nat → Nat} {s : FL K} {m : Mem K} {A log : List Arena.Alloc}

/-- The same map with another address for `n`. -/
def ext (α : Nat → Nat) (n a : Nat) : Nat → Nat := fun i => if i = n then a else α i

theorem ext_map {n a : Nat} {p : Ptr} (h : ∀ j, p = some j → j < n) : p.map (ext α n a) = p.map α := by
  cases p with
  | none => rfl
  | some j =>
    have := h j rfl
    simp only [Option.map_some, ext, Option.some.injEq]
    rw [if_neg (by omega)]

/-- What the client's data are is the same in both states. -/
def SameData (A : List Arena.Alloc) (s s' : FL K) : Prop :=
  ∀ x ∈ A, ∀ a n, Inside a n x.addr x.size → readAt s'.arena s'.mem a n = readAt s.arena s.mem a n

theorem SameData.refl (A : List Arena.Alloc) (s : FL K) : SameData A s s := fun _ _ _ _ _ => rfl

theorem SameData.trans {s s' s'' : FL K} (h : SameData A s s') (h' : SameData A s' s'') : SameData A s s'' :=
  fun x hx a n hi => (h' x hx a n hi).trans (h x hx a n hi)

/-- An allocation leaves the nodes where they are; it is not part of any node. -/
theorem sim_alloc (h : Sim sz α s m A log) {c : Arena.Call} {new : Option Nat} {p : Nat} {ar : Arena.State}
    (hs : Arena.step s.arena c new = .ok (some (p, ar))) (hi : Arena.Inv ar (log ++ [⟨p, c.bytes, c.aligned⟩])) :
    Sim sz α { s with arena := ar } m A (log ++ [⟨p, c.bytes, c.aligned⟩]) := by
  obtain ⟨e, he⟩ := step_blocks hs
  refine ⟨h.maxH, h.fuel, ?_, ?_, h.closed, hi, fun x hx => List.mem_append_left _ (h.client x hx), ?_, h.nodes_disj, h.client_disj⟩
  · intro i n hn
    have := h.keyAt i n hn
    rw [← this]
    exact readAt_mono he (readAt_owned this)
  · intro i n l q hn hq
    have := h.linkAt i n l q hn hq
    rw [← this]
    exact readAt_mono he (readAt_owned this)
  · intro i n hn
    exact ⟨(h.node i n hn).1, List.mem_append_left _ (h.node i n hn).2⟩

theorem alloc_same (h : Sim sz α s m A log) {c : Arena.Call} {new : Option Nat} {p : Nat} {ar : Arena.State}
    (hs : Arena.step s.arena c new = .ok (some (p, ar))) : SameData A s { s with arena := ar } := by
  obtain ⟨e, he⟩ := step_blocks hs
  intro x hx a n hin
  exact readAt_mono he (owned_of h.inv (h.client x hx) hin)

theorem alloc_disj {ar : Arena.State} {x y : Arena.Alloc} (hi : Arena.Inv ar (log ++ [y])) (hx : x ∈ log) :
    Spec.Disjoint x.addr x.size y.addr y.size := by
  have := hi.log_disj
  rw [List.pairwise_append] at this
  exact this.2.2 x hx y (by simp)

/-- The client is given memory. -/
theorem sim_client_alloc (h : Sim sz α s m A log) {c : Arena.Call} {new : Option Nat} {p : Nat} {ar : Arena.State}
    (hs : Arena.step s.arena c new = .ok (some (p, ar))) (hi : Arena.Inv ar (log ++ [⟨p, c.bytes, c.aligned⟩])) :
    Sim sz α { s with arena := ar } m (A ++ [⟨p, c.bytes, c.aligned⟩]) (log ++ [⟨p, c.bytes, c.aligned⟩]) := by
  have g := sim_alloc h hs hi
  refine { g with client := ?_, client_disj := ?_ }
  · intro x hx
    rcases List.mem_append.mp hx with hx | hx
    · exact g.client x hx
    · exact List.mem_append_right _ hx
  · intro i n hn x hx
    rcases List.mem_append.mp hx with hx | hx
    · exact g.client_disj i n hn x hx
    · simp only [List.mem_singleton] at hx
      subst hx
      exact alloc_disj hi (h.node i n hn).2

/-- The client stores into what it was given. -/
theorem sim_client_write (h : Sim sz α s m A log) {x : Arena.Alloc} (hx : x ∈ A) {a n : Nat} {o : Obj K} {mem : Memory K}
    (hin : Inside a n x.addr x.size) (hw : writeAt s.arena s.mem a n o = .ok mem) : Sim sz α { s with mem := mem } m A log := by
  have hmem : mem = (a, n, o) :: s.mem := by
    unfold writeAt at hw
    split at hw
    · cases hw; rfl
    · cases hw
  subst hmem
  have hpos := h.inv.log_pos x (h.client x hx)
  refine ⟨h.maxH, ?_, ?_, ?_, h.closed, h.inv, h.client, h.node, h.nodes_disj, h.client_disj⟩
  · have := h.fuel; simp only [List.length_cons]; omega
  · intro i nd hn
    rw [← h.keyAt i nd hn]
    exact readAt_other (no_overlap (h.client_disj i nd hn x hx) (nodeBytes_pos _ _) hpos (key_inside _ _ _) hin)
  · intro i nd l q hn hq
    rw [← h.linkAt i nd l q hn hq]
    exact readAt_other (no_overlap (h.client_disj i nd hn x hx) (nodeBytes_pos _ _) hpos (link_inside _ _ (lt_of_get hq)) hin)

/-- `NewNode`. -/
theorem sim_new (hsz : 0 < sz) {sl : SL K} (h : Sim sz α s sl.mem A log) (k : K) {height : Nat} {new : Option Nat} (hh : 1 ≤ height)
    (hb : nodeBytes sz height + 8 ≤ 2 ^ 64) (hnew : NewGood s.arena (nodeBytes sz height) new) :
    (newNode sz s k height new = .ok none ∧ new = none) ∨
    ∃ a s' log', newNode sz s k height new = .ok (some (a, s')) ∧
      Sim sz (ext α sl.mem.nodes.length a) s' (sl.emit (.new k height)).mem A log' ∧ s'.rnd = s.rnd ∧ s'.head = s.head ∧ SameData A s s' := by
  rcases Arena.step_inv h.inv ⟨nodeBytes sz height, true⟩ new ⟨nodeBytes_pos _ _, hb⟩ hnew with ⟨hs, hn⟩ | ⟨p, ar, hs, hi, _⟩
  · left
    simp only [Arena.step, if_true] at hs
    refine ⟨?_, hn⟩
    simp only [newNode, hs, bind, Except.bind, pure, Except.pure]
  · right
    have g := sim_alloc h hs hi
    have gs := alloc_same h hs
    simp only at hi g gs
    have hal : p % 8 = 0 := hi.aligned ⟨p, nodeBytes sz height, true⟩ (by simp) rfl
    have hown : owned ar p sz = true := owned_of hi (x := ⟨p, nodeBytes sz height, true⟩) (by simp) (key_inside sz p height)
    have hlen : (sl.emit (.new k height)).mem.nodes = sl.mem.nodes ++ [⟨k, List.replicate height none⟩] := rfl
    have hd : ∀ x ∈ log, Spec.Disjoint x.addr x.size p (nodeBytes sz height) := fun x hx => alloc_disj hi hx
    have hnode : ∀ i (nd : Node K), (sl.emit (.new k height)).mem.nodes[i]? = some nd →
        (i < sl.mem.nodes.length ∧ sl.mem.nodes[i]? = some nd ∧ ext α sl.mem.nodes.length p i = α i) ∨
        (i = sl.mem.nodes.length ∧ nd = ⟨k, List.replicate height none⟩ ∧ ext α sl.mem.nodes.length p i = p) := by
      intro i nd hi
      rw [hlen] at hi
      by_cases hlt : i < sl.mem.nodes.length
      · rw [List.getElem?_append_left hlt] at hi
        exact Or.inl ⟨hlt, hi, by unfold ext; rw [if_neg (by omega)]⟩
      · have := lt_of_get hi
        simp only [List.length_append, List.length_cons, List.length_nil] at this
        have e : i = sl.mem.nodes.length := by omega
        subst e
        rw [List.getElem?_concat_length] at hi
        cases hi
        exact Or.inr ⟨rfl, rfl, by unfold ext; rw [if_pos rfl]⟩
    refine ⟨p, { s with arena := ar, mem := (p, sz, .key k) :: s.mem }, log ++ [⟨p, nodeBytes sz height, true⟩], ?_, ?_, rfl, rfl, ?_⟩
    · simp only [Arena.step, if_true] at hs
      simp only [newNode, hs, bind, Except.bind, pure, Except.pure, hal, if_true, writeAt, hown]
    · refine ⟨h.maxH, ?_, ?_, ?_, ?_, hi, g.client, ?_, ?_, ?_⟩
      · have := h.fuel; rw [hlen]; simp only [List.length_cons, List.length_append, List.length_nil]; omega
      · intro i nd hn
        rcases hnode i nd hn with ⟨hlt, h0, e⟩ | ⟨hi', rfl, e⟩
        · rw [e, ← g.keyAt i nd h0]
          exact readAt_other (no_overlap (hd _ (h.node i nd h0).2) (nodeBytes_pos _ _) (nodeBytes_pos _ _) (key_inside _ _ _) (key_inside _ _ _))
        · rw [e]; exact readAt_same hown hsz
      · intro i nd l q hn hq
        rcases hnode i nd hn with ⟨hlt, h0, e⟩ | ⟨hi', rfl, e⟩
        · rw [e, ext_map (fun j hj => by subst hj; exact h.closed i nd l j h0 hq), ← g.linkAt i nd l q h0 hq]
          exact readAt_other (no_overlap (hd _ (h.node i nd h0).2) (nodeBytes_pos _ _) (nodeBytes_pos _ _) (link_inside _ _ (lt_of_get hq))
            (key_inside _ _ _))
        · simp only [List.getElem?_replicate] at hq
          split at hq <;> cases hq
      · intro i nd l j hn hq
        rw [hlen]
        simp only [List.length_append, List.length_cons, List.length_nil]
        rcases hnode i nd hn with ⟨hlt, h0, e⟩ | ⟨hi', rfl, e⟩
        · have := h.closed i nd l j h0 hq; omega
        · simp only [List.getElem?_replicate] at hq
          split at hq <;> cases hq
      · intro i nd hn
        rcases hnode i nd hn with ⟨hlt, h0, e⟩ | ⟨hi', rfl, e⟩
        · rw [e]; exact g.node i nd h0
        · rw [e]; simp only [List.length_replicate]; exact ⟨hh, by simp⟩
      · intro i j nd nd' hij hn hn'
        rcases hnode i nd hn with ⟨hlt, h0, e⟩ | ⟨hi', rfl, e⟩ <;> rcases hnode j nd' hn' with ⟨hlt', h0', e'⟩ | ⟨hj', rfl, e'⟩
        · rw [e, e']; exact h.nodes_disj i j nd nd' hij h0 h0'
        · rw [e, e']; simp only [List.length_replicate]; exact hd _ (h.node i nd h0).2
        · rw [e, e']; simp only [List.length_replicate]; exact disj_symm (hd _ (h.node j nd' h0').2)
        · omega
      · intro i nd hn x hx
        rcases hnode i nd hn with ⟨hlt, h0, e⟩ | ⟨hi', rfl, e⟩
        · rw [e]; exact h.client_disj i nd h0 x hx
        · rw [e]; simp only [List.length_replicate]; exact disj_symm (hd _ (h.client x hx))
    · intro x hx a n hin
      rw [← gs x hx a n hin]
      exact readAt_other (no_overlap (hd _ (h.client x hx)) (h.inv.log_pos x (h.client x hx)) (nodeBytes_pos _ _) hin (key_inside _ _ _))

/-! ## Searches -/

variable (α) in
/-- The array behind `prev`. -/
def mapPrev (prev : List (Option Ptr)) : List (Option Ptr) := prev.map (fun o => o.map (fun p => p.map α))

variable (α) in
/-- Local variables of a search. -/
def mapPos (p : Pos) : Pos := ⟨p.x.map α, p.level, p.prev.map (mapPrev α)⟩

variable (α) in
def mapStep : Step Pos (Ptr × Pos) → Step Pos (Ptr × Pos)
  | .go p => .go (mapPos α p)
  | .ret (r, p) => .ret (r.map α, mapPos α p)

/-- The entries written to `prev` point to nodes. -/
def PrevR (m : Mem K) (prev : Option (List (Option Ptr))) : Prop :=
  ∀ (arr : List (Option Ptr)), prev = some arr → ∀ (i : Nat) (p : Ptr), arr[i]? = some (some p) → InR m p

variable {cmp : K → K → Int} {b : Build}

theorem sim_after (h : Sim sz α s m A log) {key : K} {n : Ptr} {r : Bool} (hr : SkipList.KeyIsAfterNode cmp m.key key n = .ok r) :
    SkipList.KeyIsAfterNode cmp (keyOf sz s) key (n.map α) = .ok r := by
  cases n with
  | none => exact hr
  | some y =>
    simp only [SkipList.KeyIsAfterNode, bind, Except.bind, Option.map_some] at hr ⊢
    cases hk : m.key (some y) with
    | error e => rw [hk] at hr; cases hr
    | ok k =>
      rw [hk] at hr
      rw [show keyOf sz s (some (α y)) = .ok k from sim_key h hk]
      exact hr

theorem sim_body (h : Sim sz α s m A log) {q : Search K} {p : Pos} {n : Ptr} {r : Step Pos (Ptr × Pos)}
    (hr : q.body cmp m.key p n = .ok r) : q.body cmp (keyOf sz s) (mapPos α p) (n.map α) = .ok (mapStep α r) := by
  cases q with
  | ge key =>
    simp only [Search.body, SkipList.geBody, bind, Except.bind] at hr ⊢
    cases ha : SkipList.KeyIsAfterNode cmp m.key key n with
    | error e => rw [ha] at hr; cases hr
    | ok r' =>
      rw [ha] at hr
      rw [sim_after h ha]
      cases r' with
      | true => simp only [if_true, pure, Except.pure] at hr ⊢; cases hr; rfl
      | false =>
        simp only [Bool.false_eq_true, if_false, pure, Except.pure] at hr ⊢
        cases hp : p.prev with
        | none =>
          rw [hp] at hr
          simp only [mapPos, hp, Option.map_none] at hr ⊢
          by_cases h0 : p.level = 0
          · rw [if_pos h0] at hr ⊢; cases hr; rfl
          · rw [if_neg h0] at hr ⊢; cases hr; rfl
        | some arr =>
          rw [hp] at hr
          simp only [mapPos, hp, Option.map_some] at hr ⊢
          have hl : (mapPrev α arr).length = arr.length := by simp [mapPrev]
          rw [hl]
          by_cases hlt : p.level < arr.length
          · rw [if_pos hlt] at hr ⊢
            have hset : (mapPrev α arr).set p.level (some (p.x.map α)) = mapPrev α (arr.set p.level (some p.x)) := by
              simp [mapPrev, List.map_set]
            try simp only at hr ⊢
            by_cases h0 : p.level = 0
            · rw [if_pos h0] at hr ⊢; cases hr; simp only [mapStep, mapPos, Option.map_some, hset]
            · rw [if_neg h0] at hr ⊢; cases hr; simp only [mapStep, mapPos, Option.map_some, hset]
          · rw [if_neg hlt] at hr; cases hr
  | lt key =>
    simp only [Search.body, SkipList.ltBody, bind, Except.bind] at hr ⊢
    cases n with
    | none =>
      simp only [Option.map_none, pure, Except.pure, if_true] at hr ⊢
      by_cases h0 : p.level = 0
      · rw [if_pos h0] at hr; rw [if_pos (show (mapPos α p).level = 0 from h0)]; cases hr; rfl
      · rw [if_neg h0] at hr; rw [if_neg (show ¬ (mapPos α p).level = 0 from h0)]; cases hr; rfl
    | some y =>
      simp only [Option.map_some] at hr ⊢
      cases hk : m.key (some y) with
      | error e => rw [hk] at hr; cases hr
      | ok k =>
        rw [hk] at hr
        rw [show keyOf sz s (some (α y)) = .ok k from sim_key h hk]
        simp only [pure, Except.pure] at hr ⊢
        by_cases hc : decide (cmp k key ≥ 0) = true
        · rw [if_pos hc] at hr ⊢
          by_cases h0 : p.level = 0
          · rw [if_pos h0] at hr; rw [if_pos (show (mapPos α p).level = 0 from h0)]; cases hr; rfl
          · rw [if_neg h0] at hr; rw [if_neg (show ¬ (mapPos α p).level = 0 from h0)]; cases hr; rfl
        · rw [if_neg hc] at hr ⊢; cases hr; rfl
  | last =>
    simp only [Search.body, SkipList.lastBody] at hr ⊢
    cases n with
    | none =>
      simp only [Option.map_none, pure, Except.pure] at hr ⊢
      by_cases h0 : p.level = 0
      · rw [if_pos h0] at hr; rw [if_pos (show (mapPos α p).level = 0 from h0)]; cases hr; rfl
      · rw [if_neg h0] at hr; rw [if_neg (show ¬ (mapPos α p).level = 0 from h0)]; cases hr; rfl
    | some y => simp only [Option.map_some, pure, Except.pure] at hr ⊢; cases hr; rfl

/-- The pointers in the result are among those at hand. -/
theorem body_range {q : Search K} {p : Pos} {n : Ptr} {r : Step Pos (Ptr × Pos)} {keyOf : Ptr → M K} (hr : q.body cmp keyOf p n = .ok r)
    (hx : InR m p.x) (hn : InR m n) (hp : PrevR m p.prev) :
    (∀ p', r = .go p' → PrevR m p'.prev) ∧ ∀ x p', r = .ret (x, p') → InR m x ∧ PrevR m p'.prev := by
  cases q with
  | ge key =>
    simp only [Search.body, SkipList.geBody, bind, Except.bind] at hr
    cases ha : SkipList.KeyIsAfterNode cmp keyOf key n with
    | error e => rw [ha] at hr; cases hr
    | ok r' =>
      rw [ha] at hr
      cases r' with
      | true =>
        simp only [if_true, pure, Except.pure] at hr; cases hr
        exact ⟨(fun p' e => by cases e; exact hp), (fun _ _ e => by cases e)⟩
      | false =>
        simp only [Bool.false_eq_true, if_false, pure, Except.pure] at hr
        cases hpv : p.prev with
        | none =>
          rw [hpv] at hr
          simp only at hr
          have hnone : PrevR m none := fun _ e => by cases e
          by_cases h0 : p.level = 0
          · rw [if_pos h0] at hr; cases hr
            exact ⟨(fun p' e => by cases e), (fun _ _ e => by cases e; exact ⟨hn, hnone⟩)⟩
          · rw [if_neg h0] at hr; cases hr
            exact ⟨(fun p' e => by cases e; exact hnone), (fun _ _ e => by cases e)⟩
        | some arr =>
          rw [hpv] at hr
          simp only at hr
          by_cases hlt : p.level < arr.length
          · rw [if_pos hlt] at hr
            have hset : PrevR m (some (arr.set p.level (some p.x))) := by
              intro arr' e i p' hi
              cases e
              rw [List.getElem?_set] at hi
              by_cases hpi : p.level = i
              · rw [if_pos hpi] at hi
                rw [if_pos (by omega)] at hi
                cases hi; exact hx
              · rw [if_neg hpi] at hi
                exact hp arr hpv i p' hi
            by_cases h0 : p.level = 0
            · simp only [if_pos h0] at hr; cases hr
              exact ⟨(fun p' e => by cases e), (fun _ _ e => by cases e; exact ⟨hn, hset⟩)⟩
            · simp only [if_neg h0] at hr; cases hr
              exact ⟨(fun p' e => by cases e; exact hset), (fun _ _ e => by cases e)⟩
          · rw [if_neg hlt] at hr; cases hr
  | lt key =>
    simp only [Search.body, SkipList.ltBody, bind, Except.bind] at hr
    cases n with
    | none =>
      simp only [pure, Except.pure, if_true] at hr
      by_cases h0 : p.level = 0
      · rw [if_pos h0] at hr; cases hr; exact ⟨(fun p' e => by cases e), (fun _ _ e => by cases e; exact ⟨hx, hp⟩)⟩
      · rw [if_neg h0] at hr; cases hr; exact ⟨(fun p' e => by cases e; exact hp), (fun _ _ e => by cases e)⟩
    | some y =>
      simp only at hr
      cases hk : keyOf (some y) with
      | error e => rw [hk] at hr; cases hr
      | ok k =>
        rw [hk] at hr
        simp only [pure, Except.pure] at hr
        by_cases hc : decide (cmp k key ≥ 0) = true
        · rw [if_pos hc] at hr
          by_cases h0 : p.level = 0
          · rw [if_pos h0] at hr; cases hr; exact ⟨(fun p' e => by cases e), (fun _ _ e => by cases e; exact ⟨hx, hp⟩)⟩
          · rw [if_neg h0] at hr; cases hr; exact ⟨(fun p' e => by cases e; exact hp), (fun _ _ e => by cases e)⟩
        · rw [if_neg hc] at hr
          cases hr; exact ⟨(fun p' e => by cases e; exact hp), (fun _ _ e => by cases e)⟩
  | last =>
    simp only [Search.body, SkipList.lastBody] at hr
    cases n with
    | none =>
      simp only [pure, Except.pure] at hr
      split at hr
      · cases hr; exact ⟨(fun p' e => by cases e), (fun _ _ e => by cases e; exact ⟨hx, hp⟩)⟩
      · cases hr; exact ⟨(fun p' e => by cases e; exact hp), (fun _ _ e => by cases e)⟩
    | some y =>
      simp only [pure, Except.pure] at hr
      cases hr; exact ⟨(fun p' e => by cases e; exact hp), (fun _ _ e => by cases e)⟩

theorem sim_pre (h : Sim sz α s m A log) (hh : s.head = α 0) {q : Search K} {p : Pos} (hr : q.pre cmp b m.key p = .ok ()) :
    pre sz cmp b s q (mapPos α p) = .ok () := by
  cases q with
  | ge key => rfl
  | last => rfl
  | lt key =>
    simp only [Search.pre, SkipList.ltPre] at hr
    simp only [pre]
    unfold assertIf at hr ⊢
    cases hb : b.asserts with
    | false => simp
    | true =>
      simp only [hb, if_true] at hr ⊢
      by_cases hx : p.x = some 0
      · have : (mapPos α p).x = some s.head := by simp only [mapPos, hx, Option.map_some, hh]
        rw [if_pos this]; rfl
      · rw [if_neg hx] at hr
        cases hk : m.key p.x with
        | error e => rw [hk] at hr; cases hr
        | ok k =>
          obtain ⟨i, n, hi, hn, _⟩ := key_node hk
          have hlt := lt_of_get hn
          have hne : (mapPos α p).x ≠ some s.head := by
            simp only [mapPos, hi, hh, Option.map_some, ne_eq, Option.some.injEq]
            intro e
            have := h.inj hlt (by omega) e
            subst this
            exact hx hi
          rw [if_neg hne, show keyOf sz s (mapPos α p).x = .ok k from sim_key h hk]
          rw [hk] at hr
          exact hr

theorem sim_loop (h : Sim sz α s m A log) (hh : s.head = α 0) {q : Search K} : ∀ (fuel fuel' : Nat) (p : Pos) (r : Ptr) (p' : Pos), fuel ≤ fuel' →
    SkipList.loop cmp b m q fuel p = .ok (r, p') → PrevR m p.prev →
    loop sz cmp b s q fuel' (mapPos α p) = .ok (r.map α, mapPos α p') ∧ InR m r ∧ PrevR m p'.prev := by
  intro fuel
  induction fuel with
  | zero => intro _ _ _ _ _ h; cases h
  | succ fuel ih =>
    intro fuel' p r p' hle hr hp
    obtain ⟨f, rfl⟩ : ∃ f, fuel' = f + 1 := ⟨fuel' - 1, by omega⟩
    simp only [SkipList.loop, bind, Except.bind] at hr
    cases h1 : q.pre cmp b m.key p with
    | error e => rw [h1] at hr; cases hr
    | ok _ =>
      rw [h1] at hr
      simp only at hr
      cases h2 : m.next p.x p.level with
      | error e => rw [h2] at hr; cases hr
      | ok n =>
        rw [h2] at hr
        simp only at hr
        cases h3 : q.body cmp m.key p n with
        | error e => rw [h3] at hr; cases hr
        | ok st =>
          rw [h3] at hr
          obtain ⟨e2, hx, hn⟩ := sim_next h h2
          have e3 := sim_body h h3
          have hrg := body_range h3 hx hn hp
          simp only [loop, bind, Except.bind, sim_pre h hh h1]
          rw [show next sz s (mapPos α p).x (mapPos α p).level = .ok (n.map α) from e2]
          simp only [e3]
          cases st with
          | ret r0 =>
            obtain ⟨r0, p0⟩ := r0
            simp only [pure, Except.pure] at hr
            cases hr
            exact ⟨rfl, hrg.2 _ _ rfl⟩
          | go p1 =>
            simp only [mapStep]
            exact ih f p1 r p' (by omega) hr (hrg.1 _ rfl)

theorem sim_find (h : Sim sz α s m A log) (hh : s.head = α 0) {q : Search K} {prev : Option (List (Option Ptr))} {r : Ptr} {p' : Pos}
    (hr : SkipList.find cmp b m q prev = .ok (r, p')) (hp : PrevR m prev) :
    find sz cmp b s q (prev.map (mapPrev α)) = .ok (r.map α, mapPos α p') ∧ InR m r ∧ PrevR m p'.prev := by
  simp only [SkipList.find, SkipList.startPos, bind, Except.bind] at hr
  by_cases h0 : m.maxH = 0
  · rw [if_pos h0] at hr; cases hr
  · rw [if_neg h0] at hr
    simp only at hr
    have := sim_loop h hh (SkipList.fuelFor m) (s.mem.length + 12) _ r p' (by have := h.fuel; unfold SkipList.fuelFor; omega) hr hp
    refine ⟨?_, this.2⟩
    unfold find
    rw [h.maxH, if_neg h0, hh]
    exact this.1

end
end SkipArena
end Lsmdb
