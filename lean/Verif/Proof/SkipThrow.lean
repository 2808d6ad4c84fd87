import Verif.Model.SkipThrow

/-!
# What the comparator's exceptions leave behind
-/

namespace Lsmdb
namespace SkipList
open T

variable {K σ α β : Type}

/-- The outcome of something that does not throw. -/
def outOf : M α → Out α
  | .ok a => .ok a
  | .error e => .fault e

/-- `t` does not change the object; unless an exception leaves it, it computes `r` of the object. -/
def RO (throws : Nat → Bool) (t : T σ α) (r : σ → M α) : Prop :=
  ∀ s n, ∃ n', (t s n = (outOf (r s), s, n')) ∨ (t s n = (.threw, s, n') ∧ ∃ m, throws m = true)

variable {throws : Nat → Bool} {cmp : K → K → Int} {b : Build}

theorem RO.pure (a : α) : RO throws (Pure.pure a : T σ α) fun _ => .ok a := fun _ n => ⟨n, .inl rfl⟩

theorem RO.get : RO throws (T.get : T σ σ) fun s => .ok s := fun _ n => ⟨n, .inl rfl⟩

theorem RO.lift (m : M α) : RO throws (T.lift m : T σ α) fun _ => m := fun _ n => ⟨n, .inl (by cases m <;> rfl)⟩

theorem RO.compare (x y : K) : RO throws (compareT cmp throws x y : T σ Int) fun _ => .ok (cmp x y) := fun s n => by
  refine ⟨n + 1, ?_⟩
  unfold compareT
  by_cases h : throws n = true
  · rw [if_pos h]; exact .inr ⟨rfl, n, h⟩
  · rw [if_neg h]; exact .inl rfl

theorem RO.bind {t : T σ α} {r : σ → M α} {f : α → T σ β} {g : α → σ → M β} (h : RO throws t r) (h' : ∀ a, RO throws (f a) (g a)) :
    RO throws (t >>= f) fun s => r s >>= fun a => g a s := by
  intro s n
  obtain ⟨n1, h1⟩ := h s n
  show ∃ n', (match t s n with
    | (.ok a, s, n) => f a s n
    | (.threw, s, n) => (.threw, s, n)
    | (.fault e, s, n) => (.fault e, s, n)) = _ ∨ (match t s n with
    | (.ok a, s, n) => f a s n
    | (.threw, s, n) => (.threw, s, n)
    | (.fault e, s, n) => (.fault e, s, n)) = _ ∧ _
  dsimp only
  rcases h1 with h1 | ⟨h1, hm⟩
  · rw [h1]
    cases r s with
    | ok a => exact h' a s n1
    | error e => exact ⟨n1, .inl rfl⟩
  · rw [h1]
    exact ⟨n1, .inr ⟨rfl, hm⟩⟩

theorem RO.congr {t : T σ α} {r r' : σ → M α} (h : RO throws t r) (he : ∀ s, r s = r' s) : RO throws t r' := by
  intro s n; rw [← he s]; exact h s n

theorem RO.ite {c : Prop} [Decidable c] {t t' : T σ α} {r r' : σ → M α} (h : RO throws t r) (h' : RO throws t' r') :
    RO throws (if c then t else t') fun s => if c then r s else r' s := by
  by_cases hc : c
  · simp only [hc, if_true]; exact h
  · simp only [hc, if_false]; exact h'

/-- `M` is a monad. -/
theorem M.assoc {α β γ : Type} (m : M α) (f : α → M β) (g : β → M γ) : (m >>= f) >>= g = m >>= fun a => f a >>= g := by
  cases m <;> rfl

theorem keyIsAfterNode_ro (mem : σ → Mem K) (key : K) (n : Ptr) :
    RO throws (keyIsAfterNodeT cmp throws mem key n) fun s => KeyIsAfterNode cmp (mem s).key key n := by
  cases n with
  | none => exact RO.pure false
  | some x =>
    unfold keyIsAfterNodeT
    refine (RO.get.bind fun s => (RO.lift _).bind fun k => (RO.compare k key).bind fun r => RO.pure _).congr fun s => ?_
    unfold KeyIsAfterNode
    show ((mem s).key (some x) >>= _) = _
    cases (mem s).key (some x) <;> rfl

theorem geLoop_ro (mem : σ → Mem K) (key : K) (fuel : Nat) (p : Pos) :
    RO throws (geLoopT cmp throws mem key fuel p) fun s => loop cmp b (mem s) (.ge key) fuel p := by
  induction fuel generalizing p with
  | zero => exact RO.lift _
  | succ fuel ih =>
    unfold geLoopT
    refine (RO.get.bind fun s => (RO.lift _).bind fun next => (keyIsAfterNode_ro mem key next).bind fun after =>
      RO.ite (c := after = true) (ih _) ((RO.lift _).bind fun prev => RO.ite (RO.pure _) (ih _))).congr fun s => ?_
    rw [loop]
    show ((mem s).next p.x p.level >>= _) = (Except.ok () >>= _)
    show ((mem s).next p.x p.level >>= _) = ((mem s).next p.x p.level >>= _)
    congr 1
    funext next
    show _ = (geBody cmp key (mem s).key p next >>= _)
    unfold geBody
    rw [M.assoc]
    congr 1
    funext after
    cases after with
    | true => rfl
    | false =>
      simp only [Bool.false_eq_true, if_false]
      cases hp : p.prev with
      | none =>
        by_cases hl : p.level = 0
        · simp only [hl, if_true]; rfl
        · simp only [hl, if_false]; rfl
      | some arr =>
        by_cases ha : p.level < arr.length
        · by_cases hl : p.level = 0
          · have ha' : 0 < arr.length := hl ▸ ha
            simp only [ha', hl, if_true]; rfl
          · simp only [ha, hl, if_true, if_false]; rfl
        · simp only [ha, if_false]; rfl

theorem findGE_ro (b : Build) (mem : σ → Mem K) (key : K) (prev : Option (List (Option Ptr))) :
    RO throws (findGreaterOrEqualT cmp throws mem key prev) fun s => find cmp b (mem s) (.ge key) prev := by
  unfold findGreaterOrEqualT
  refine fun s n => ?_
  -- the fuel depends on the object, which does not change
  have h : RO throws (T.lift (startPos (mem s).maxH prev) >>= fun p => geLoopT cmp throws mem key (fuelFor (mem s)) p)
      fun s' => startPos (mem s).maxH prev >>= fun p => loop cmp b (mem s') (.ge key) (fuelFor (mem s)) p :=
    (RO.lift _).bind fun p => geLoop_ro mem key _ p
  exact h s n

theorem ltPre_ro (mem : σ → Mem K) (key : K) (p : Pos) : RO throws (ltPreT cmp throws b mem key p) fun s => ltPre cmp b key (mem s).key p := by
  unfold ltPreT
  refine (RO.ite (RO.ite (RO.pure ()) (RO.get.bind fun s => (RO.lift _).bind fun k => (RO.compare k key).bind fun r => RO.lift _))
    (RO.pure ())).congr fun s => ?_
  unfold ltPre assertIf
  by_cases ha : b.asserts = true
  · simp only [ha, if_true]
    by_cases hx : p.x = some 0
    · simp only [hx, if_true]; rfl
    · simp only [hx, if_false]
      show ((mem s).key p.x >>= _) = _
      cases (mem s).key p.x <;> rfl
  · simp only [ha]; rfl

theorem ltLoop_ro (mem : σ → Mem K) (key : K) (fuel : Nat) (p : Pos) :
    RO throws (ltLoopT cmp throws b mem key fuel p) fun s => loop cmp b (mem s) (.lt key) fuel p := by
  induction fuel generalizing p with
  | zero => exact RO.lift _
  | succ fuel ih =>
    unfold ltLoopT
    have stop_ro : ∀ next : Ptr, RO throws (stopT cmp throws mem key next) fun s => (match next with
        | none => Pure.pure true
        | some _ => (mem s).key next >>= fun k => Pure.pure (decide (cmp k key ≥ 0))) := by
      intro next
      cases next with
      | none => exact RO.pure true
      | some x => exact RO.get.bind fun s => (RO.lift _).bind fun k => (RO.compare k key).bind fun r => RO.pure _
    refine ((ltPre_ro mem key p).bind fun _ => RO.get.bind fun s => (RO.lift _).bind fun next => (stop_ro next).bind fun stop =>
      RO.ite (c := stop = true) (RO.ite (c := p.level = 0) (RO.pure _) (ih _)) (ih _)).congr fun s => ?_
    rw [loop]
    show (ltPre cmp b key (mem s).key p >>= _) = (ltPre cmp b key (mem s).key p >>= _)
    congr 1
    funext _
    show ((mem s).next p.x p.level >>= _) = ((mem s).next p.x p.level >>= _)
    congr 1
    funext next
    show _ = (ltBody cmp key (mem s).key p next >>= _)
    unfold ltBody
    cases next with
    | none =>
      by_cases hl : p.level = 0
      · simp only [bind, Except.bind, pure, Except.pure, if_true, hl]
      · simp only [bind, Except.bind, pure, Except.pure, if_true, hl, if_false]
    | some x =>
      cases (mem s).key (some x) with
      | error e => rfl
      | ok k =>
        by_cases hk : cmp k key ≥ 0
        · by_cases hl : p.level = 0
          · simp only [bind, Except.bind, pure, Except.pure, if_true, hl, hk, decide_true]
          · simp only [bind, Except.bind, pure, Except.pure, if_true, hl, if_false, hk, decide_true]
        · simp only [bind, Except.bind, pure, Except.pure, hk, decide_false, Bool.false_eq_true, if_false]

theorem findLT_ro (mem : σ → Mem K) (key : K) :
    RO throws (findLessThanT cmp throws b mem key) fun s => find cmp b (mem s) (.lt key) none := by
  unfold findLessThanT
  refine fun s n => ?_
  have h : RO throws (T.lift (startPos (mem s).maxH none) >>= fun p => ltLoopT cmp throws b mem key (fuelFor (mem s)) p)
      fun s' => startPos (mem s).maxH none >>= fun p => loop cmp b (mem s') (.lt key) (fuelFor (mem s)) p :=
    (RO.lift _).bind fun p => ltLoop_ro mem key _ p
  exact h s n

theorem dupAssert_ro (mem : σ → Mem K) (key : K) (x : Ptr) :
    RO throws (dupAssertT cmp throws b mem key x) fun s => dupAssert cmp b (mem s) key x := by
  unfold dupAssertT
  cases x with
  | none =>
    refine (RO.ite (RO.pure ()) (RO.pure ())).congr fun s => ?_
    unfold dupAssert assertIf
    split <;> rfl
  | some x =>
    refine (RO.ite (RO.get.bind fun s => (RO.lift _).bind fun k => (RO.compare key k).bind fun r => RO.lift _) (RO.pure ())).congr fun s => ?_
    unfold dupAssert assertIf
    split
    · show ((mem s).key (some x) >>= _) = _
      cases (mem s).key (some x) <;> rfl
    · rfl

theorem contains_ro (key : K) : RO throws (ContainsT cmp throws key) fun m => Contains cmp b m key := by
  unfold ContainsT
  have tail : ∀ x : Ptr, RO throws (match x with
      | none => Pure.pure false
      | some _ => T.get >>= fun m => T.lift (m.key x) >>= fun k => compareT cmp throws key k >>= fun r => Pure.pure (decide (r = 0)))
      fun (m : Mem K) => (match x with
      | none => Pure.pure false
      | some _ => m.key x >>= fun k => Pure.pure (decide (cmp key k = 0))) := by
    intro x
    cases x with
    | none => exact RO.pure false
    | some x => exact RO.get.bind fun s => (RO.lift _).bind fun k => (RO.compare key k).bind fun r => RO.pure _
  refine ((findGE_ro b id key none).bind fun r => tail r.1).congr fun m => ?_
  unfold Contains
  show (find cmp b m (.ge key) none >>= _) = (find cmp b m (.ge key) none >>= _)
  rfl

theorem bind_ok {t : T σ α} {f : α → T σ β} {s s' : σ} {n n' : Nat} {a : α} (h : t s n = (.ok a, s', n')) :
    (t >>= f) s n = f a s' n' := by
  show (match t s n with
    | (.ok a, s, n) => f a s n
    | (.threw, s, n) => (.threw, s, n)
    | (.fault e, s, n) => (.fault e, s, n)) = _
  rw [h]

theorem bind_threw {t : T σ α} {f : α → T σ β} {s s' : σ} {n n' : Nat} (h : t s n = (.threw, s', n')) :
    (t >>= f) s n = (.threw, s', n') := by
  show (match t s n with
    | (.ok a, s, n) => f a s n
    | (.threw, s, n) => (.threw, s, n)
    | (.fault e, s, n) => (.fault e, s, n)) = _
  rw [h]

theorem bind_fault {t : T σ α} {f : α → T σ β} {s s' : σ} {n n' : Nat} {e : Fault} (h : t s n = (.fault e, s', n')) :
    (t >>= f) s n = (.fault e, s', n') := by
  show (match t s n with
    | (.ok a, s, n) => f a s n
    | (.threw, s, n) => (.threw, s, n)
    | (.fault e, s, n) => (.fault e, s, n)) = _
  rw [h]

theorem T.assoc {γ : Type} (t : T σ α) (f : α → T σ β) (g : β → T σ γ) : (t >>= f) >>= g = t >>= fun a => f a >>= g := by
  funext s n
  rcases h : t s n with ⟨o, s1, n1⟩
  cases o with
  | ok a => rw [bind_ok h]; exact (show (t >>= f >>= g) s n = (f a >>= g) s1 n1 from by
      show (match (t >>= f) s n with
        | (.ok a, s, n) => g a s n
        | (.threw, s, n) => (.threw, s, n)
        | (.fault e, s, n) => (.fault e, s, n)) = _
      rw [bind_ok h]; rfl)
  | threw => rw [bind_threw h, bind_threw (bind_threw h)]
  | fault e => rw [bind_fault h, bind_fault (bind_fault h)]

theorem T.pure_bind (a : α) (f : α → T σ β) : (Pure.pure a >>= f : T σ β) = f a := rfl

/-- What `Insert` does: it throws and leaves the list as it is, or it is `Insert`. -/
theorem insertT_cases (s : SL K) (n : Nat) (key : K) :
    ∃ n', (InsertT cmp throws b key s n = (.threw, s, n') ∧ ∃ m, throws m = true) ∨
      (∃ s', Insert cmp b s key = .ok s' ∧ InsertT cmp throws b key s n = (.ok (), s', n')) ∨
      (∃ e, Insert cmp b s key = .error e ∧ (InsertT cmp throws b key s n).1 = .fault e) := by
  -- the part that compares
  let head : T (SL K) (Ptr × List (Option Ptr)) :=
    findGreaterOrEqualT cmp throws SL.mem key (some (List.replicate kMaxHeight none)) >>= fun r =>
    T.lift (match r.2.prev with
      | some arr => Pure.pure arr
      | none => throw .nullDeref) >>= fun prev =>
    dupAssertT cmp throws b SL.mem key r.1 >>= fun _ => Pure.pure (r.1, prev)
  let headM : SL K → M (Ptr × List (Option Ptr)) := fun s =>
    find cmp b s.mem (.ge key) (some (List.replicate kMaxHeight none)) >>= fun r =>
    (match r.2.prev with
      | some arr => Pure.pure arr
      | none => throw .nullDeref) >>= fun prev =>
    dupAssert cmp b s.mem key r.1 >>= fun _ => Pure.pure (r.1, prev)
  have hh : RO throws head headM :=
    (findGE_ro b SL.mem key _).bind fun r => (RO.lift _).bind fun prev => (dupAssert_ro SL.mem key r.1).bind fun _ => RO.pure _
  -- the part that writes
  let tail : Ptr × List (Option Ptr) → T (SL K) Unit := fun r => do
    let prev := r.2
    let s ← T.get
    let (height, rnd) ← T.lift (RandomHeight b s.rnd)
    T.set { s with rnd := rnd }
    let s ← T.get
    let (prev, s) ← T.lift (raiseHeight s prev height)
    T.set s
    let s ← T.get
    let (x, s) := NewNode s key height
    T.set s
    let s ← T.get
    let s ← T.lift (linkLoop x prev s 0 height)
    T.set s
  let tailM : Ptr × List (Option Ptr) → SL K → M (SL K) := fun r s => do
    let prev := r.2
    let (height, rnd) ← RandomHeight b s.rnd
    let (prev, s) ← raiseHeight { s with rnd := rnd } prev height
    let (x, s) := NewNode s key height
    linkLoop x prev s 0 height
  have ht : ∀ r s n, (∃ s', tailM r s = .ok s' ∧ tail r s n = (.ok (), s', n)) ∨ (∃ e, tailM r s = .error e ∧ (tail r s n).1 = .fault e) := by
    intro r s n
    cases h1 : RandomHeight b s.rnd with
    | error e =>
      refine .inr ⟨e, ?_, ?_⟩
      · show (RandomHeight b s.rnd >>= _) = _
        rw [h1]; rfl
      · show ((T.lift (RandomHeight b s.rnd) >>= _ : T (SL K) Unit) s n).1 = _
        rw [h1]; rfl
    | ok hr =>
      obtain ⟨height, rnd⟩ := hr
      cases h2 : raiseHeight { s with rnd := rnd } r.2 height with
      | error e =>
        refine .inr ⟨e, ?_, ?_⟩
        · show (RandomHeight b s.rnd >>= _) = _
          rw [h1]
          show (raiseHeight { s with rnd := rnd } r.2 height >>= _) = _
          rw [h2]; rfl
        · show ((T.lift (RandomHeight b s.rnd) >>= _ : T (SL K) Unit) s n).1 = _
          rw [h1]
          show ((T.lift (raiseHeight { s with rnd := rnd } r.2 height) >>= _ : T (SL K) Unit) { s with rnd := rnd } n).1 = _
          rw [h2]; rfl
      | ok ps =>
        obtain ⟨prev, s2⟩ := ps
        have e1 : tailM r s = linkLoop (NewNode s2 key height).1 prev (NewNode s2 key height).2 0 height := by
          show (RandomHeight b s.rnd >>= _) = _
          rw [h1]
          show (raiseHeight { s with rnd := rnd } r.2 height >>= _) = _
          rw [h2]; rfl
        have e2 : tail r s n = (T.lift (linkLoop (NewNode s2 key height).1 prev (NewNode s2 key height).2 0 height) >>= fun s => T.set s :
            T (SL K) Unit) (NewNode s2 key height).2 n := by
          show (T.lift (RandomHeight b s.rnd) >>= _ : T (SL K) Unit) s n = _
          rw [h1]
          show (T.lift (raiseHeight { s with rnd := rnd } r.2 height) >>= _ : T (SL K) Unit) { s with rnd := rnd } n = _
          rw [h2]; rfl
        rw [e1, e2]
        cases linkLoop (NewNode s2 key height).1 prev (NewNode s2 key height).2 0 height with
        | error e => exact .inr ⟨e, rfl, rfl⟩
        | ok s' => exact .inl ⟨s', rfl, rfl⟩
  have eT : InsertT cmp throws b key = (head >>= tail : T (SL K) Unit) := by
    show _ = ((findGreaterOrEqualT cmp throws SL.mem key (some (List.replicate kMaxHeight none)) >>= fun r =>
      T.lift (match r.2.prev with
        | some arr => Pure.pure arr
        | none => throw .nullDeref) >>= fun prev =>
      dupAssertT cmp throws b SL.mem key r.1 >>= fun _ => Pure.pure (r.1, prev)) >>= tail : T (SL K) Unit)
    rw [T.assoc]
    show (_ >>= _) = (_ >>= _)
    congr 1
    funext r
    rw [T.assoc]
    show (_ >>= _) = (_ >>= _)
    congr 1
    funext prev
    rw [T.assoc]
    rfl
  have eM : Insert cmp b s key = (headM s >>= fun r => tailM r s) := by
    show (find cmp b s.mem (.ge key) (some (List.replicate kMaxHeight none)) >>= _) =
      ((find cmp b s.mem (.ge key) (some (List.replicate kMaxHeight none)) >>= _) >>= _)
    cases find cmp b s.mem (.ge key) (some (List.replicate kMaxHeight none)) with
    | error e => rfl
    | ok r =>
      obtain ⟨x, pos⟩ := r
      show (_ : M (SL K)) = _
      cases hp : pos.prev with
      | none => simp only [bind, Except.bind, hp]; rfl
      | some arr =>
        simp only [bind, Except.bind, hp, pure, Except.pure]
        cases dupAssert cmp b s.mem key x <;> rfl
  obtain ⟨n1, h1⟩ := hh s n
  rw [eT, eM]
  rcases h1 with h1 | ⟨h1, hm⟩
  · cases hM : headM s with
    | error e =>
      rw [hM] at h1
      refine ⟨n1, .inr (.inr ⟨e, rfl, ?_⟩)⟩
      rw [bind_fault h1]
    | ok r =>
      rw [hM] at h1
      have e3 : (head >>= tail : T (SL K) Unit) s n = tail r s n1 := bind_ok h1
      rw [e3]
      rcases ht r s n1 with ⟨s', h2, h3⟩ | ⟨e, h2, h3⟩
      · exact ⟨n1, .inr (.inl ⟨s', h2, h3⟩)⟩
      · exact ⟨n1, .inr (.inr ⟨e, h2, h3⟩)⟩
  · exact ⟨n1, .inl ⟨bind_threw h1, hm⟩⟩

end SkipList
end Lsmdb
