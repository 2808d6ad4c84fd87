import Verif.Proof.CacheConc4

/-!
# In the middle of a method, entries that stay are unchanged
-/

namespace Lsmdb
namespace CacheConc
open Cache Spec

/-- No entry comes to life and none changes its hash or value. -/
structure Keep (h h' : Heap) : Prop where
  fresh : h.fresh ≤ h'.fresh
  live : ∀ a, a < h.fresh → h'.live a = true → h.live a = true
  hash : ∀ a, a < h.fresh → h'.hash a = h.hash a
  value : ∀ a, a < h.fresh → h'.value a = h.value a

theorem Keep.refl (h : Heap) : Keep h h := ⟨Nat.le_refl _, fun _ _ h => h, fun _ _ => rfl, fun _ _ => rfl⟩

theorem Keep.trans {h1 h2 h3 : Heap} (f : Keep h1 h2) (g : Keep h2 h3) : Keep h1 h3 :=
  ⟨Nat.le_trans f.fresh g.fresh, fun a ha h => f.live a ha (g.live a (Nat.lt_of_lt_of_le ha f.fresh) h),
    fun a ha => (g.hash a (Nat.lt_of_lt_of_le ha f.fresh)).trans (f.hash a ha),
    fun a ha => (g.value a (Nat.lt_of_lt_of_le ha f.fresh)).trans (f.value a ha)⟩

/-- The four fields are the same. -/
theorem Keep.of {h h' : Heap} (h1 : h'.fresh = h.fresh) (h2 : h'.live = h.live) (h3 : h'.hash = h.hash) (h4 : h'.value = h.value) :
    Keep h h' := ⟨by omega, fun a _ h => by rw [h2] at h; exact h, fun a _ => by rw [h3], fun a _ => by rw [h4]⟩

/-- Every step of the program does that. -/
inductive Keeps {α : Type} : Prog Shard α → Prop
  | done (a : α) : Keeps (.done a)
  | step {β : Type} {f : Shard → M (Shard × β)} {next : β → Prog Shard α}
      (h : ∀ s s' b, f s = .ok (s', b) → Keep s.heap s'.heap) (h' : ∀ b, Keeps (next b)) : Keeps (.step f next)

theorem Keeps.bind {α β : Type} {p : Prog Shard α} {g : α → Prog Shard β} (h : Keeps p) (hg : ∀ a, Keeps (g a)) :
    Keeps (p.bind g) := by
  induction h with
  | done a => exact hg a
  | step h h' ih => exact .step h ih

theorem Keeps.run {α : Type} {p : Prog Shard α} (h : Keeps p) : ∀ {s s' : Shard} {a : α}, p.run s = .ok (s', a) →
    Keep s.heap s'.heap := by
  induction h with
  | done a => intro s s' b e; cases e; exact Keep.refl _
  | @step β f next h h' ih =>
    intro s s' b e
    simp only [Prog.run, bind, Except.bind] at e
    cases e1 : f s with
    | error x => rw [e1] at e; cases e
    | ok x => rw [e1] at e; exact (h s x.1 x.2 e1).trans (ih x.2 e)

theorem Keeps.mid {p : Prog Shard MRes} {s s1 : Shard} (m : Mid p s s1) : Keeps p → ∀ {s2 r}, p.run s = .ok (s2, r) →
    Keep s.heap s1.heap ∧ Keep s1.heap s2.heap := by
  induction m with
  | here p s => exact fun k s2 r e => ⟨Keep.refl _, k.run e⟩
  | @step β f next s s1 s2' b e m ih =>
    intro k s2 r er
    cases k with
    | step h h' =>
      simp only [Prog.run, e, bind, Except.bind] at er
      obtain ⟨h1, h2⟩ := ih (h' b) er
      exact ⟨(h _ _ _ e).trans h1, h2⟩

/-! ## The steps -/

theorem LRU_Remove_keep {h h' : Heap} {e : Ptr} (x : LRU_Remove h e = .ok h') : Keep h h' := by
  simp only [LRU_Remove, bind, Except.bind] at x
  split at x
  · cases x
  · split at x
    · cases x
    · split at x
      · cases x
      · cases x
        exact Keep.of rfl rfl rfl rfl

theorem LRU_Append_keep {h h' : Heap} {l e : Ptr} (x : LRU_Append h l e = .ok h') : Keep h h' := by
  simp only [LRU_Append, bind, Except.bind] at x
  split at x
  · cases x
  · split at x
    · cases x
    · split at x
      · cases x
      · split at x
        · cases x
        · cases x
          exact Keep.of rfl rfl rfl rfl

theorem writeLoc_keep {h h' : Heap} {t t' : HTable} {v : Option Nat} {l : Loc} (x : writeLoc h t v l = .ok (h', t')) : Keep h h' := by
  cases l with
  | bucket i =>
    simp only [writeLoc] at x
    split at x
    · cases x; exact Keep.refl _
    · cases x
  | nextHash a =>
    simp only [writeLoc, bind, Except.bind] at x
    split at x
    · cases x
    · cases x; exact Keep.of rfl rfl rfl rfl

theorem moveChain_keep {nl : UInt32} : ∀ {fuel : Nat} {h h' : Heap} {nt nt' : List (Option Nat)} {p : Option Nat} {c c' : UInt32},
    moveChain nl fuel h nt p c = .ok (h', nt', c') → Keep h h' := by
  intro fuel
  induction fuel with
  | zero =>
    intro h h' nt nt' p c c' x
    cases p with
    | none => simp only [moveChain] at x; cases x; exact Keep.refl _
    | some a => simp only [moveChain] at x; cases x
  | succ n ih =>
    intro h h' nt nt' p c c' x
    cases p with
    | none => simp only [moveChain] at x; cases x; exact Keep.refl _
    | some a =>
      simp only [moveChain, bind, Except.bind] at x
      split at x
      · cases x
      · split at x
        · cases x
        · refine Keep.trans ?_ (ih x)
          exact Keep.of rfl rfl rfl rfl

theorem moveAll_keep {nl : UInt32} : ∀ {l : List (Option Nat)} {h h' : Heap} {nt nt' : List (Option Nat)} {c c' : UInt32},
    moveAll nl l h nt c = .ok (h', nt', c') → Keep h h' := by
  intro l
  induction l with
  | nil => intro h h' nt nt' c c' x; simp only [moveAll] at x; cases x; exact Keep.refl _
  | cons p l ih =>
    intro h h' nt nt' c c' x
    simp only [moveAll, bind, Except.bind] at x
    split at x
    · cases x
    · rename_i e
      exact (moveChain_keep e).trans (ih x)

theorem Resize_keep {h h' : Heap} {t t' : HTable} (x : Resize h t = .ok (h', t')) : Keep h h' := by
  simp only [Resize, bind, Except.bind] at x
  split at x
  · cases x
  · split at x
    · cases x
    · rename_i e
      split at x
      · cases x
      · cases x
        exact moveAll_keep e

theorem grow_keep {h h' : Heap} {t t' : HTable} {o : Option Nat} (x : grow h t o = .ok (h', t')) : Keep h h' := by
  simp only [grow] at x
  split at x
  · split at x
    · exact Resize_keep x
    · cases x; exact Keep.refl _
  · cases x; exact Keep.refl _

theorem tableInsert_keep {h h' : Heap} {t t' : HTable} {a : Nat} {o : Option Nat} (x : tableInsert h t a = .ok (h', t', o)) :
    Keep h h' := by
  simp only [tableInsert, bind, Except.bind] at x
  split at x
  · cases x
  · split at x
    · cases x
    · split at x
      · cases x
      · split at x
        · cases x
        · split at x
          · cases x
          · rename_i e1
            split at x
            · cases x
            · rename_i e2
              cases x
              refine Keep.trans (Keep.trans ?_ (writeLoc_keep e1)) (grow_keep e2)
              exact Keep.of rfl rfl rfl rfl

theorem tableRemove_keep {h h' : Heap} {t t' : HTable} {k : Slice} {hash : UInt32} {o : Option Nat}
    (x : tableRemove h t k hash = .ok (h', t', o)) : Keep h h' := by
  simp only [tableRemove, bind, Except.bind] at x
  split at x
  · cases x
  · split at x
    · cases x
    · split at x
      · cases x; exact Keep.refl _
      · split at x
        · cases x
        · split at x
          · cases x
          · rename_i e
            cases x
            exact writeLoc_keep e

theorem Ref_keep {h h' : Heap} {a : Nat} (x : Ref h a = .ok h') : Keep h h' := by
  simp only [Ref, bind, Except.bind] at x
  split at x
  · cases x
  · split at x
    · split at x
      · cases x
      · rename_i e1
        split at x
        · cases x
        · rename_i e2
          cases x
          exact ((LRU_Remove_keep e1).trans (LRU_Append_keep e2)).trans (Keep.of rfl rfl rfl rfl)
    · cases x
      exact Keep.of rfl rfl rfl rfl

/-- A step that leaves the heap alone. -/
theorem Keep.heap {s s' : Shard} (h : s'.heap = s.heap) : Keep s.heap s'.heap := by rw [h]; exact Keep.refl _

theorem onHeap_keep {f : Heap → M Heap} (hf : ∀ h h', f h = .ok h' → Keep h h') (s s' : Shard) (b : Unit)
    (x : onHeap f s = .ok (s', b)) : Keep s.heap s'.heap := by
  simp only [onHeap, bind, Except.bind] at x
  split at x
  · cases x
  · rename_i e
    cases x
    exact hf _ _ e

theorem unref_keeps (a : Nat) : Keeps (unrefCode a) := by
  refine .step ?_ ?_
  · intro s s' b x
    simp only [bind, Except.bind] at x
    split at x
    · cases x
    · split at x
      · cases x
      · cases x
        exact Keep.of rfl rfl rfl rfl
  · rintro ⟨refs, inCache⟩
    show Keeps (if refs = 0 then _ else _)
    split
    · refine .step ?_ fun _ => .step ?_ fun _ => .done _
      · intro s s' b x
        simp only [bind, Except.bind] at x
        split at x
        · cases x
        · split at x
          · cases x
          · split at x
            · cases x
            · cases x
              exact Keep.refl _
      · intro s s' b x
        cases x
        refine ⟨Nat.le_refl _, ?_, fun _ _ => rfl, fun _ _ => rfl⟩
        intro c _ hc
        simp only [upd_apply] at hc
        split at hc
        · cases hc
        · exact hc
    · split
      · exact .step (onHeap_keep fun _ _ => LRU_Remove_keep) fun _ => .step (onHeap_keep fun _ _ => LRU_Append_keep) fun _ => .done _
      · exact .done _

theorem finishErase_keeps (o : Option Nat) : Keeps (finishEraseCode o) := by
  cases o with
  | none => exact .done _
  | some a =>
    refine .step (onHeap_keep ?_) fun _ => .step ?_ fun _ => .step ?_ fun _ => (unref_keeps a).bind fun _ => .done _
    · intro h h' x
      simp only [bind, Except.bind] at x
      split at x
      · cases x
      · split at x
        · cases x
        · exact LRU_Remove_keep x
    · intro s s' b x; cases x; exact Keep.of rfl rfl rfl rfl
    · intro s s' b x; cases x; exact Keep.refl _

theorem removeKey_keeps (k : Slice) (hash : UInt32) : Keeps (removeKeyCode k hash) := by
  refine .step ?_ fun r => finishErase_keeps r
  intro s s' b x
  simp only [bind, Except.bind] at x
  split at x
  · cases x
  · rename_i e
    cases x
    exact tableRemove_keep e

theorem evictOne_keeps (a : Nat) : Keeps (evictOneCode a) := by
  refine .step ?_ ?_
  · intro s s' b x
    simp only [bind, Except.bind] at x
    split at x
    · cases x
    · split at x
      · cases x
      · split at x
        · cases x
        · cases x
          exact Keep.refl _
  · rintro ⟨k, hash⟩
    refine (removeKey_keeps k hash).bind fun erased => .step ?_ fun _ => .done _
    intro s s' b x
    simp only [bind, Except.bind] at x
    split at x
    · cases x
    · cases x; exact Keep.refl _

theorem evictLoop_keeps (over : Shard → Bool) (fuel : Nat) : Keeps (evictLoopCode over fuel) := by
  induction fuel with
  | zero =>
    refine .step ?_ fun _ => .done _
    intro s s' b x
    split at x
    · cases x
    · cases x; exact Keep.refl _
  | succ n ih =>
    refine .step ?_ ?_
    · intro s s' b x
      simp only [loopTest, bind, Except.bind] at x
      split at x
      · split at x
        · cases x
        · split at x
          · cases x; exact Keep.refl _
          · cases x
      · cases x; exact Keep.refl _
    · intro old
      cases old with
      | none => exact .done _
      | some a => exact (evictOne_keeps a).bind fun _ => ih

theorem insertCached_keeps (a : Nat) : Keeps (insertCachedCode a) := by
  refine .step ?_ fun _ => .step ?_ fun _ => .step (onHeap_keep fun _ _ => LRU_Append_keep) fun _ => .step ?_ fun _ => .step ?_
    fun old => (finishErase_keeps old).bind fun _ => .done _
  · intro s s' b x; cases x; exact Keep.of rfl rfl rfl rfl
  · intro s s' b x; cases x; exact Keep.of rfl rfl rfl rfl
  · intro s s' b x; cases x; exact Keep.refl _
  · intro s s' b x
    simp only [bind, Except.bind] at x
    split at x
    · cases x
    · rename_i e
      cases x
      exact tableInsert_keep e

theorem code_keeps (m : Method) : Keeps (code m) := by
  cases m with
  | insert key hash value charge deleter =>
    refine .step ?_ fun a => .step ?_ fun c => Keeps.bind ?_ fun _ => .step ?_ fun fuel => (evictLoop_keeps _ _).bind fun _ => .done _
    · intro s s' b x
      simp only [bind, Except.bind] at x
      split at x
      · cases x
      · cases x
        refine ⟨Nat.le_succ _, ?_, ?_, ?_⟩
        · intro a ha hl
          simp only [newHandle, upd_apply, if_neg (show a ≠ s.heap.fresh by omega)] at hl
          exact hl
        · intro a ha
          simp only [newHandle, upd_apply, if_neg (show a ≠ s.heap.fresh by omega)]
        · intro a ha
          simp only [newHandle, upd_apply, if_neg (show a ≠ s.heap.fresh by omega)]
    · intro s s' b x; cases x; exact Keep.refl _
    · split
      · exact insertCached_keeps a
      · exact .done _
    · intro s s' b x; cases x; exact Keep.refl _
  | lookup key hash =>
    refine .step ?_ fun e => ?_
    · intro s s' b x
      simp only [bind, Except.bind] at x
      split at x
      · cases x
      · cases x; exact Keep.refl _
    · cases e with
      | none => exact .done _
      | some a => exact .step (onHeap_keep fun _ _ => Ref_keep) fun _ => .done _
  | release a => exact (unref_keeps a).bind fun _ => .done _
  | erase key hash => exact (removeKey_keeps key hash).bind fun _ => .done _
  | prune =>
    refine .step ?_ fun fuel => (evictLoop_keeps _ _).bind fun _ => .done _
    intro s s' b x; cases x; exact Keep.refl _
  | totalCharge =>
    refine .step ?_ fun _ => .done _
    intro s s' b x; cases x; exact Keep.refl _

theorem code_steady : Steady code := by
  intro m s s1 s2 r mid e a ha hl
  obtain ⟨h1, h2⟩ := Keeps.mid mid (code_keeps m) e
  exact ⟨h2.live a (Nat.lt_of_lt_of_le ha h1.fresh) hl, h1.hash a ha, h1.value a ha⟩

end CacheConc
end Lsmdb
