import Verif.Proof.PosixRes2

/-! # PosixEnv: objects, what they own, and the limiter counters -/

namespace Lsmdb
namespace Posix

open MemEnv (St lit)

/-- Descriptors of objects are either no descriptor or a non-negative number, as the open calls left them. -/
def ObjOk : Obj → Prop
  | .seq f => ∃ i : Nat, f.fd = i
  | .rand f => if f.has_permanent_fd then ∃ i : Nat, f.fd = i else f.fd = -1
  | .mmap _ => True
  | .wr f => (f.fd = -1 ∨ ∃ i : Nat, f.fd = i) ∧ ∃ b, BufHas f b
  | .lock fd _ => ∃ i : Nat, fd = i
  | .logger fd => ∃ i : Nat, fd = i

/-- The objects of the heap own exactly the open resources except those that were there before. -/
structure Own (ext extm : Nat → Prop) (objs : List (Option Obj)) (S T : Nat → Prop) : Prop where
  fds : ∀ i, S i ↔ ext i ∨ ∃ (h : Nat) (o : Obj), objs[h]? = some (some o) ∧ o.ownsFd i
  fd_uniq : ∀ (h h' : Nat) (o o' : Obj) i, objs[h]? = some (some o) → objs[h']? = some (some o') → o.ownsFd i →
    o'.ownsFd i → h = h'
  fd_ext : ∀ (h : Nat) (o : Obj) i, objs[h]? = some (some o) → o.ownsFd i → ¬ ext i
  maps : ∀ i, T i ↔ extm i ∨ ∃ (h : Nat) (o : Obj), objs[h]? = some (some o) ∧ o.ownsMap i
  map_uniq : ∀ (h h' : Nat) (o o' : Obj) i, objs[h]? = some (some o) → objs[h']? = some (some o') → o.ownsMap i →
    o'.ownsMap i → h = h'
  map_ext : ∀ (h : Nat) (o : Obj) i, objs[h]? = some (some o) → o.ownsMap i → ¬ extm i
  ok : ∀ (h : Nat) (o : Obj), objs[h]? = some (some o) → ObjOk o

theorem get_push {α : Type} {l : List α} {x y : α} {h : Nat} (e : (l ++ [x])[h]? = some y) :
    l[h]? = some y ∨ (h = l.length ∧ y = x) := by
  rcases Nat.lt_trichotomy h l.length with hl | hl | hl
  · rw [List.getElem?_append_left hl] at e; exact .inl e
  · subst hl; simp at e; exact .inr ⟨rfl, e.symm⟩
  · rw [List.getElem?_eq_none (by simp; omega)] at e; exact nomatch e

theorem push_get {α : Type} {l : List α} {x y : α} {h : Nat} (e : l[h]? = some y) : (l ++ [x])[h]? = some y := by
  rw [List.getElem?_append_left]
  · exact e
  · rcases Nat.lt_or_ge h l.length with hl | hl
    · exact hl
    · rw [List.getElem?_eq_none hl] at e; exact nomatch e

theorem get_set {α : Type} {l : List α} {x y : α} {h h' : Nat} (e : (l.set h x)[h']? = some y) :
    (h' ≠ h ∧ l[h']? = some y) ∨ (h' = h ∧ y = x) := by
  by_cases hh : h = h'
  · subst hh
    right
    rw [List.getElem?_set] at e
    simp at e
    exact ⟨rfl, e.2.symm⟩
  · rw [List.getElem?_set_ne hh] at e; exact .inl ⟨Ne.symm hh, e⟩

theorem set_get_self {α : Type} {l : List α} {x y : α} {h : Nat} (e : l[h]? = some y) : (l.set h x)[h]? = some x := by
  rw [List.getElem?_set_self]
  rcases Nat.lt_or_ge h l.length with hl | hl
  · exact hl
  · rw [List.getElem?_eq_none hl] at e; exact nomatch e

theorem Own.push {ext extm : Nat → Prop} {objs : List (Option Obj)} {S T : Nat → Prop} (H : Own ext extm objs S T)
    {o : Obj} (ho : ObjOk o) (hf : ∀ i, o.ownsFd i → ¬ S i) (hm : ∀ i, o.ownsMap i → ¬ T i) :
    Own ext extm (objs ++ [some o]) (fun i => S i ∨ o.ownsFd i) (fun i => T i ∨ o.ownsMap i) := by
  constructor
  · intro i
    rw [H.fds i]
    constructor
    · rintro ((h | ⟨h, o', a, b⟩) | h)
      · exact .inl h
      · exact .inr ⟨h, o', push_get a, b⟩
      · exact .inr ⟨objs.length, o, by simp, h⟩
    · rintro (h | ⟨h, o', a, b⟩)
      · exact .inl (.inl h)
      · rcases get_push a with a | ⟨_, a⟩
        · exact .inl (.inr ⟨h, o', a, b⟩)
        · injection a with a; subst a; exact .inr b
  · intro h h' a a' i e1 e2 k1 k2
    rcases get_push e1 with g1 | ⟨g1, x1⟩ <;> rcases get_push e2 with g2 | ⟨g2, x2⟩
    · exact H.fd_uniq h h' a a' i g1 g2 k1 k2
    · injection x2 with x2; subst x2
      exact absurd ((H.fds i).2 (.inr ⟨h, a, g1, k1⟩)) (hf i k2)
    · injection x1 with x1; subst x1
      exact absurd ((H.fds i).2 (.inr ⟨h', a', g2, k2⟩)) (hf i k1)
    · rw [g1, g2]
  · intro h a i e k hx
    rcases get_push e with e | ⟨_, x⟩
    · exact H.fd_ext h a i e k hx
    · injection x with x; subst x
      exact hf i k ((H.fds i).2 (.inl hx))
  · intro i
    rw [H.maps i]
    constructor
    · rintro ((h | ⟨h, o', a, b⟩) | h)
      · exact .inl h
      · exact .inr ⟨h, o', push_get a, b⟩
      · exact .inr ⟨objs.length, o, by simp, h⟩
    · rintro (h | ⟨h, o', a, b⟩)
      · exact .inl (.inl h)
      · rcases get_push a with a | ⟨_, a⟩
        · exact .inl (.inr ⟨h, o', a, b⟩)
        · injection a with a; subst a; exact .inr b
  · intro h h' a a' i e1 e2 k1 k2
    rcases get_push e1 with g1 | ⟨g1, x1⟩ <;> rcases get_push e2 with g2 | ⟨g2, x2⟩
    · exact H.map_uniq h h' a a' i g1 g2 k1 k2
    · injection x2 with x2; subst x2
      exact absurd ((H.maps i).2 (.inr ⟨h, a, g1, k1⟩)) (hm i k2)
    · injection x1 with x1; subst x1
      exact absurd ((H.maps i).2 (.inr ⟨h', a', g2, k2⟩)) (hm i k1)
    · rw [g1, g2]
  · intro h a i e k hx
    rcases get_push e with e | ⟨_, x⟩
    · exact H.map_ext h a i e k hx
    · injection x with x; subst x
      exact hm i k ((H.maps i).2 (.inl hx))
  · intro h a e
    rcases get_push e with e | ⟨_, x⟩
    · exact H.ok h a e
    · injection x with x; subst x; exact ho

theorem Own.drop {ext extm : Nat → Prop} {objs : List (Option Obj)} {S T : Nat → Prop} (H : Own ext extm objs S T)
    {h : Nat} {o : Obj} (ho : objs[h]? = some (some o)) :
    Own ext extm (objs.set h none) (fun i => S i ∧ ¬ o.ownsFd i) (fun i => T i ∧ ¬ o.ownsMap i) := by
  have back : ∀ {h' : Nat} {a : Obj}, (objs.set h none)[h']? = some (some a) → h' ≠ h ∧ objs[h']? = some (some a) := by
    intro h' a e
    rcases get_set e with e | ⟨_, e⟩
    · exact e
    · exact nomatch e
  have fwd : ∀ {h' : Nat} {a : Obj}, h' ≠ h → objs[h']? = some (some a) → (objs.set h none)[h']? = some (some a) := by
    intro h' a hne e
    rw [List.getElem?_set_ne (Ne.symm hne)]; exact e
  constructor
  · intro i
    rw [H.fds i]
    constructor
    · rintro ⟨h' | ⟨h', a, e, k⟩, hn⟩
      · exact .inl h'
      · refine .inr ⟨h', a, fwd ?_ e, k⟩
        rintro rfl
        rw [ho] at e; injection e with e; injection e with e; subst e
        exact hn k
    · rintro (h' | ⟨h', a, e, k⟩)
      · exact ⟨.inl h', fun k => H.fd_ext h o i ho k h'⟩
      · obtain ⟨e1, e2⟩ := back e
        exact ⟨.inr ⟨h', a, e2, k⟩, fun k' => e1 (H.fd_uniq h' h a o i e2 ho k k')⟩
  · intro h1 h2 a a' i e1 e2 k1 k2
    exact H.fd_uniq h1 h2 a a' i (back e1).2 (back e2).2 k1 k2
  · intro h1 a i e k
    exact H.fd_ext h1 a i (back e).2 k
  · intro i
    rw [H.maps i]
    constructor
    · rintro ⟨h' | ⟨h', a, e, k⟩, hn⟩
      · exact .inl h'
      · refine .inr ⟨h', a, fwd ?_ e, k⟩
        rintro rfl
        rw [ho] at e; injection e with e; injection e with e; subst e
        exact hn k
    · rintro (h' | ⟨h', a, e, k⟩)
      · exact ⟨.inl h', fun k => H.map_ext h o i ho k h'⟩
      · obtain ⟨e1, e2⟩ := back e
        exact ⟨.inr ⟨h', a, e2, k⟩, fun k' => e1 (H.map_uniq h' h a o i e2 ho k k')⟩
  · intro h1 h2 a a' i e1 e2 k1 k2
    exact H.map_uniq h1 h2 a a' i (back e1).2 (back e2).2 k1 k2
  · intro h1 a i e k
    exact H.map_ext h1 a i (back e).2 k
  · intro h1 a e
    exact H.ok h1 a (back e).2

/-- A writable file after a call: the same descriptor or none. -/
theorem Own.upd {ext extm : Nat → Prop} {objs : List (Option Obj)} {S T : Nat → Prop} (H : Own ext extm objs S T)
    {h : Nat} {f f' : WFile} (ho : objs[h]? = some (some (.wr f))) (hok : ObjOk (.wr f'))
    (hfd : f'.fd = f.fd ∨ f'.fd = -1) :
    Own ext extm (objs.set h (some (.wr f'))) (fun i => S i ∧ (f.fd = (i : Int) → f'.fd = (i : Int))) T := by
  have sub : ∀ i, Obj.ownsFd (.wr f') i → Obj.ownsFd (.wr f) i := by
    intro i k
    have k : f'.fd = (i : Int) := k
    show f.fd = (i : Int)
    rcases hfd with e | e
    · rw [← e]; exact k
    · rw [e] at k; omega
  have nomap : ∀ (g : WFile) i, ¬ Obj.ownsMap (.wr g) i := fun _ _ h => h
  have fwd : ∀ {h' : Nat} {a : Obj}, h' ≠ h → objs[h']? = some (some a) →
      (objs.set h (some (.wr f')))[h']? = some (some a) := by
    intro h' a hne e
    rw [List.getElem?_set_ne (Ne.symm hne)]; exact e
  have back : ∀ {h' : Nat} {a : Obj}, (objs.set h (some (.wr f')))[h']? = some (some a) →
      (h' ≠ h ∧ objs[h']? = some (some a)) ∨ (h' = h ∧ a = .wr f') := by
    intro h' a e
    rcases get_set e with e | ⟨e1, e2⟩
    · exact .inl e
    · injection e2 with e2; exact .inr ⟨e1, e2⟩
  constructor
  · intro i
    rw [H.fds i]
    constructor
    · rintro ⟨h' | ⟨h', a, e, k⟩, hn⟩
      · exact .inl h'
      · by_cases hh : h' = h
        · subst hh
          rw [ho] at e; injection e with e; injection e with e; subst e
          exact .inr ⟨h', .wr f', set_get_self ho, hn k⟩
        · exact .inr ⟨h', a, fwd hh e, k⟩
    · rintro (h' | ⟨h', a, e, k⟩)
      · exact ⟨.inl h', fun k => absurd h' (H.fd_ext h (.wr f) i ho k)⟩
      · rcases back e with ⟨e1, e2⟩ | ⟨rfl, rfl⟩
        · exact ⟨.inr ⟨h', a, e2, k⟩, fun k' => absurd (H.fd_uniq h' h a (.wr f) i e2 ho k k') e1⟩
        · exact ⟨.inr ⟨h', .wr f, ho, sub i k⟩, fun _ => k⟩
  · intro h1 h2 a a' i e1 e2 k1 k2
    rcases back e1 with ⟨d1, g1⟩ | ⟨rfl, rfl⟩ <;> rcases back e2 with ⟨d2, g2⟩ | ⟨d2, rfl⟩
    · exact H.fd_uniq h1 h2 a a' i g1 g2 k1 k2
    · subst d2; exact H.fd_uniq h1 h2 a _ i g1 ho k1 (sub i k2)
    · exact H.fd_uniq h1 h2 _ a' i ho g2 (sub i k1) k2
    · exact d2.symm
  · intro h1 a i e k
    rcases back e with ⟨_, e⟩ | ⟨rfl, rfl⟩
    · exact H.fd_ext h1 a i e k
    · exact H.fd_ext h1 _ i ho (sub i k)
  · intro i
    rw [H.maps i]
    constructor
    · rintro (h' | ⟨h', a, e, k⟩)
      · exact .inl h'
      · by_cases hh : h' = h
        · subst hh
          rw [ho] at e; injection e with e; injection e with e; subst e
          exact absurd k (nomap f i)
        · exact .inr ⟨h', a, fwd hh e, k⟩
    · rintro (h' | ⟨h', a, e, k⟩)
      · exact .inl h'
      · rcases back e with ⟨e1, e2⟩ | ⟨rfl, rfl⟩
        · exact .inr ⟨h', a, e2, k⟩
        · exact absurd k (nomap f' i)
  · intro h1 h2 a a' i e1 e2 k1 k2
    rcases back e1 with ⟨d1, g1⟩ | ⟨rfl, rfl⟩ <;> rcases back e2 with ⟨d2, g2⟩ | ⟨d2, rfl⟩
    · exact H.map_uniq h1 h2 a a' i g1 g2 k1 k2
    · exact absurd k2 (nomap f' i)
    · exact absurd k1 (nomap f' i)
    · exact d2.symm
  · intro h1 a i e k
    rcases back e with ⟨_, e⟩ | ⟨rfl, rfl⟩
    · exact H.map_ext h1 a i e k
    · exact absurd k (nomap f' i)
  · intro h1 a e
    rcases back e with ⟨_, e⟩ | ⟨rfl, rfl⟩
    · exact H.ok h1 a e
    · exact hok

theorem Own.congr {ext extm : Nat → Prop} {objs : List (Option Obj)} {S T S' T' : Nat → Prop}
    (H : Own ext extm objs S T) (hs : ∀ i, S i ↔ S' i) (ht : ∀ i, T i ↔ T' i) : Own ext extm objs S' T' :=
  ⟨fun i => (hs i).symm.trans (H.fds i), H.fd_uniq, H.fd_ext, fun i => (ht i).symm.trans (H.maps i), H.map_uniq,
    H.map_ext, H.ok⟩

/-! ## Counting -/

/-- Number of live objects in a heap with property `p`. -/
def cnt (p : Obj → Bool) (l : List (Option Obj)) : Nat :=
  (l.filter (fun o => match o with | some o => p o | none => false)).length

theorem count_eq (e : PEnv) (p : Obj → Bool) : e.count p = cnt p e.objs := rfl

theorem cnt_push (p : Obj → Bool) (l : List (Option Obj)) (o : Obj) :
    cnt p (l ++ [some o]) = cnt p l + if p o then 1 else 0 := by
  unfold cnt
  rw [List.filter_append, List.length_append]
  congr 1
  simp only [List.filter]
  cases p o <;> rfl

theorem cnt_cons (p : Obj → Bool) (x : Option Obj) (l : List (Option Obj)) :
    cnt p (x :: l) = cnt p [x] + cnt p l := by
  unfold cnt
  rw [← List.length_append, ← List.filter_append]; rfl

theorem cnt_one (p : Obj → Bool) (o : Obj) : cnt p [some o] = if p o then 1 else 0 := by
  unfold cnt; simp only [List.filter]; cases p o <;> rfl

theorem cnt_set (p : Obj → Bool) : ∀ (l : List (Option Obj)) (h : Nat) (o : Obj) (x : Option Obj),
    l[h]? = some (some o) → cnt p (l.set h x) + (if p o then 1 else 0) = cnt p l + cnt p [x] := by
  intro l
  induction l with
  | nil => intro h o x e; exact nomatch e
  | cons y l ih =>
    intro h o x e
    cases h with
    | zero =>
      simp only [List.getElem?_cons_zero, Option.some.injEq] at e
      subst e
      rw [List.set_cons_zero, cnt_cons p x, cnt_cons p (some o), cnt_one]
      omega
    | succ h =>
      simp only [List.getElem?_cons_succ] at e
      have := ih h o x e
      rw [List.set_cons_succ, cnt_cons p y, cnt_cons p y l]
      omega

theorem cnt_drop (p : Obj → Bool) {l : List (Option Obj)} {h : Nat} {o : Obj} (e : l[h]? = some (some o)) :
    cnt p (l.set h none) + (if p o then 1 else 0) = cnt p l := by
  have := cnt_set p l h o none e
  have h0 : cnt p [none] = 0 := rfl
  omega

theorem cnt_upd (p : Obj → Bool) {l : List (Option Obj)} {h : Nat} {o o' : Obj} (e : l[h]? = some (some o))
    (hp : p o' = p o) : cnt p (l.set h (some o')) = cnt p l := by
  have := cnt_set p l h o (some o') e
  rw [cnt_one, hp] at this
  omega

/-! ## The limiter -/

theorem wrap32_id {x : Int} (h : IsInt x) : wrap32 x = x := by
  unfold IsInt at h; unfold wrap32; omega

/-- The counter of a limiter with limit `L` and `n` slots in use. -/
structure Slots (L : Int) (n : Nat) (v : Int) : Prop where
  int : IsInt L
  eq : v = L - n
  le : n = 0 ∨ (n : Int) ≤ L

theorem Slots.acquire {L : Int} {n : Nat} {v : Int} (h : Slots L n v) :
    (v > 0 ∧ (Limiter.Acquire v).1 = true ∧ Slots L (n + 1) (Limiter.Acquire v).2) ∨
    (v ≤ 0 ∧ (Limiter.Acquire v).1 = false ∧ (Limiter.Acquire v).2 = v) := by
  have hi := h.int
  have he := h.eq
  have hl := h.le
  unfold IsInt at hi
  unfold Limiter.Acquire
  by_cases hv : v > 0
  · left
    simp only [if_pos hv]
    refine ⟨hv, trivial, h.int, ?_, ?_⟩
    · rw [wrap32_id (by unfold IsInt; omega)]; push_cast; omega
    · right; push_cast; omega
  · right
    simp only [if_neg hv]
    refine ⟨by omega, trivial, ?_⟩
    unfold wrap32; omega

theorem Slots.release {L : Int} {n : Nat} {v : Int} (h : Slots L (n + 1) v) : Slots L n (Limiter.Release v) := by
  have hi := h.int
  have he := h.eq
  have hl : ((n + 1 : Nat) : Int) ≤ L := by
    rcases h.le with hl | hl
    · omega
    · exact hl
  unfold IsInt at hi
  refine ⟨h.int, ?_, ?_⟩
  · unfold Limiter.Release; rw [wrap32_id (by unfold IsInt; omega)]; omega
  · right; omega

/-- Everything accounted for. -/
structure EInv (ext extm : Nat → Prop) (L1 L2 : Int) (e : PEnv) (S T : Nat → Prop) : Prop where
  own : Own ext extm e.objs S T
  mm : Slots L1 (cnt Obj.isMmap e.objs) e.mmap_limiter
  fd : Slots L2 (cnt Obj.isPermanent e.objs) e.fd_limiter

end Posix
end Lsmdb
