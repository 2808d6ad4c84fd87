import Verif.Proof.CacheConc5

/-!
# Which steps of the cache make an entry
-/

namespace Lsmdb
namespace CacheConc
open Cache Spec

/-- No entry is made and none changes its value. -/
structure Same (h h' : Heap) : Prop where
  fresh : h'.fresh = h.fresh
  value : h'.value = h.value

theorem Same.refl (h : Heap) : Same h h := ⟨rfl, rfl⟩

theorem Same.trans {h1 h2 h3 : Heap} (f : Same h1 h2) (g : Same h2 h3) : Same h1 h3 := ⟨g.fresh.trans f.fresh, g.value.trans f.value⟩

theorem Same.of {h h' : Heap} (h1 : h'.fresh = h.fresh) (_ : h'.live = h.live) (_ : h'.hash = h.hash) (h4 : h'.value = h.value) :
    Same h h' := ⟨h1, h4⟩

/-- Every step of the program does that. -/
inductive Sames {α : Type} : Prog Shard α → Prop
  | done (a : α) : Sames (.done a)
  | step {β : Type} {f : Shard → M (Shard × β)} {next : β → Prog Shard α}
      (h : ∀ s s' b, f s = .ok (s', b) → Same s.heap s'.heap) (h' : ∀ b, Sames (next b)) : Sames (.step f next)

theorem Sames.bind {α β : Type} {p : Prog Shard α} {g : α → Prog Shard β} (h : Sames p) (hg : ∀ a, Sames (g a)) :
    Sames (p.bind g) := by
  induction h with
  | done a => exact hg a
  | step h h' ih => exact .step h ih

theorem LRU_Remove_same {h h' : Heap} {e : Ptr} (x : LRU_Remove h e = .ok h') : Same h h' := by
  simp only [LRU_Remove, bind, Except.bind] at x
  split at x
  · cases x
  · split at x
    · cases x
    · split at x
      · cases x
      · cases x
        exact Same.of rfl rfl rfl rfl

theorem LRU_Append_same {h h' : Heap} {l e : Ptr} (x : LRU_Append h l e = .ok h') : Same h h' := by
  simp only [LRU_Append, bind, Except.bind] at x
  split at x
  · cases x
  · split at x
    · cases x
    · split at x
      · cases x
      · split at x
        · cases x
        · cases x
          exact Same.of rfl rfl rfl rfl

theorem writeLoc_same {h h' : Heap} {t t' : HTable} {v : Option Nat} {l : Loc} (x : writeLoc h t v l = .ok (h', t')) : Same h h' := by
  cases l with
  | bucket i =>
    simp only [writeLoc] at x
    split at x
    · cases x; exact Same.refl _
    · cases x
  | nextHash a =>
    simp only [writeLoc, bind, Except.bind] at x
    split at x
    · cases x
    · cases x; exact Same.of rfl rfl rfl rfl

theorem moveChain_same {nl : UInt32} : ∀ {fuel : Nat} {h h' : Heap} {nt nt' : List (Option Nat)} {p : Option Nat} {c c' : UInt32},
    moveChain nl fuel h nt p c = .ok (h', nt', c') → Same h h' := by
  intro fuel
  induction fuel with
  | zero =>
    intro h h' nt nt' p c c' x
    cases p with
    | none => simp only [moveChain] at x; cases x; exact Same.refl _
    | some a => simp only [moveChain] at x; cases x
  | succ n ih =>
    intro h h' nt nt' p c c' x
    cases p with
    | none => simp only [moveChain] at x; cases x; exact Same.refl _
    | some a =>
      simp only [moveChain, bind, Except.bind] at x
      split at x
      · cases x
      · split at x
        · cases x
        · refine Same.trans ?_ (ih x)
          exact Same.of rfl rfl rfl rfl

theorem moveAll_same {nl : UInt32} : ∀ {l : List (Option Nat)} {h h' : Heap} {nt nt' : List (Option Nat)} {c c' : UInt32},
    moveAll nl l h nt c = .ok (h', nt', c') → Same h h' := by
  intro l
  induction l with
  | nil => intro h h' nt nt' c c' x; simp only [moveAll] at x; cases x; exact Same.refl _
  | cons p l ih =>
    intro h h' nt nt' c c' x
    simp only [moveAll, bind, Except.bind] at x
    split at x
    · cases x
    · rename_i e
      exact (moveChain_same e).trans (ih x)

theorem Resize_same {h h' : Heap} {t t' : HTable} (x : Resize h t = .ok (h', t')) : Same h h' := by
  simp only [Resize, bind, Except.bind] at x
  split at x
  · cases x
  · split at x
    · cases x
    · rename_i e
      split at x
      · cases x
      · cases x
        exact moveAll_same e

theorem grow_same {h h' : Heap} {t t' : HTable} {o : Option Nat} (x : grow h t o = .ok (h', t')) : Same h h' := by
  simp only [grow] at x
  split at x
  · split at x
    · exact Resize_same x
    · cases x; exact Same.refl _
  · cases x; exact Same.refl _

theorem tableInsert_same {h h' : Heap} {t t' : HTable} {a : Nat} {o : Option Nat} (x : tableInsert h t a = .ok (h', t', o)) :
    Same h h' := by
  simp only [tableInsert, bind, Except.bind] at x
  split at x
  · cases x
  · split at x
    · cases x
    · split at x
      · cases x
      · split at x
        · cases x
        · split at x
          · cases x
          · rename_i e1
            split at x
            · cases x
            · rename_i e2
              cases x
              refine Same.trans (Same.trans ?_ (writeLoc_same e1)) (grow_same e2)
              exact Same.of rfl rfl rfl rfl

theorem tableRemove_same {h h' : Heap} {t t' : HTable} {k : Slice} {hash : UInt32} {o : Option Nat}
    (x : tableRemove h t k hash = .ok (h', t', o)) : Same h h' := by
  simp only [tableRemove, bind, Except.bind] at x
  split at x
  · cases x
  · split at x
    · cases x
    · split at x
      · cases x; exact Same.refl _
      · split at x
        · cases x
        · split at x
          · cases x
          · rename_i e
            cases x
            exact writeLoc_same e

theorem Ref_same {h h' : Heap} {a : Nat} (x : Ref h a = .ok h') : Same h h' := by
  simp only [Ref, bind, Except.bind] at x
  split at x
  · cases x
  · split at x
    · split at x
      · cases x
      · rename_i e1
        split at x
        · cases x
        · rename_i e2
          cases x
          exact ((LRU_Remove_same e1).trans (LRU_Append_same e2)).trans (Same.of rfl rfl rfl rfl)
    · cases x
      exact Same.of rfl rfl rfl rfl

/-- A step that leaves the heap alone. -/
theorem Same.heap {s s' : Shard} (h : s'.heap = s.heap) : Same s.heap s'.heap := by rw [h]; exact Same.refl _

theorem onHeap_same {f : Heap → M Heap} (hf : ∀ h h', f h = .ok h' → Same h h') (s s' : Shard) (b : Unit)
    (x : onHeap f s = .ok (s', b)) : Same s.heap s'.heap := by
  simp only [onHeap, bind, Except.bind] at x
  split at x
  · cases x
  · rename_i e
    cases x
    exact hf _ _ e

theorem unref_sames (a : Nat) : Sames (unrefCode a) := by
  refine .step ?_ ?_
  · intro s s' b x
    simp only [bind, Except.bind] at x
    split at x
    · cases x
    · split at x
      · cases x
      · cases x
        exact Same.of rfl rfl rfl rfl
  · rintro ⟨refs, inCache⟩
    show Sames (if refs = 0 then _ else _)
    split
    · refine .step ?_ fun _ => .step ?_ fun _ => .done _
      · intro s s' b x
        simp only [bind, Except.bind] at x
        split at x
        · cases x
        · split at x
          · cases x
          · split at x
            · cases x
            · cases x
              exact Same.refl _
      · intro s s' b x
        cases x
        exact ⟨rfl, rfl⟩
    · split
      · exact .step (onHeap_same fun _ _ => LRU_Remove_same) fun _ => .step (onHeap_same fun _ _ => LRU_Append_same) fun _ => .done _
      · exact .done _

theorem finishErase_sames (o : Option Nat) : Sames (finishEraseCode o) := by
  cases o with
  | none => exact .done _
  | some a =>
    refine .step (onHeap_same ?_) fun _ => .step ?_ fun _ => .step ?_ fun _ => (unref_sames a).bind fun _ => .done _
    · intro h h' x
      simp only [bind, Except.bind] at x
      split at x
      · cases x
      · split at x
        · cases x
        · exact LRU_Remove_same x
    · intro s s' b x; cases x; exact Same.of rfl rfl rfl rfl
    · intro s s' b x; cases x; exact Same.refl _

theorem removeKey_sames (k : Slice) (hash : UInt32) : Sames (removeKeyCode k hash) := by
  refine .step ?_ fun r => finishErase_sames r
  intro s s' b x
  simp only [bind, Except.bind] at x
  split at x
  · cases x
  · rename_i e
    cases x
    exact tableRemove_same e

theorem evictOne_sames (a : Nat) : Sames (evictOneCode a) := by
  refine .step ?_ ?_
  · intro s s' b x
    simp only [bind, Except.bind] at x
    split at x
    · cases x
    · split at x
      · cases x
      · split at x
        · cases x
        · cases x
          exact Same.refl _
  · rintro ⟨k, hash⟩
    refine (removeKey_sames k hash).bind fun erased => .step ?_ fun _ => .done _
    intro s s' b x
    simp only [bind, Except.bind] at x
    split at x
    · cases x
    · cases x; exact Same.refl _

theorem evictLoop_sames (over : Shard → Bool) (fuel : Nat) : Sames (evictLoopCode over fuel) := by
  induction fuel with
  | zero =>
    refine .step ?_ fun _ => .done _
    intro s s' b x
    split at x
    · cases x
    · cases x; exact Same.refl _
  | succ n ih =>
    refine .step ?_ ?_
    · intro s s' b x
      simp only [loopTest, bind, Except.bind] at x
      split at x
      · split at x
        · cases x
        · split at x
          · cases x; exact Same.refl _
          · cases x
      · cases x; exact Same.refl _
    · intro old
      cases old with
      | none => exact .done _
      | some a => exact (evictOne_sames a).bind fun _ => ih

theorem insertCached_sames (a : Nat) : Sames (insertCachedCode a) := by
  refine .step ?_ fun _ => .step ?_ fun _ => .step (onHeap_same fun _ _ => LRU_Append_same) fun _ => .step ?_ fun _ => .step ?_
    fun old => (finishErase_sames old).bind fun _ => .done _
  · intro s s' b x; cases x; exact Same.of rfl rfl rfl rfl
  · intro s s' b x; cases x; exact Same.of rfl rfl rfl rfl
  · intro s s' b x; cases x; exact Same.refl _
  · intro s s' b x
    simp only [bind, Except.bind] at x
    split at x
    · cases x
    · rename_i e
      cases x
      exact tableInsert_same e

/-- Every step does that, or makes an entry with the value that the method was given. -/
inductive Made1 (m : Method) : Prog Shard MRes → Prop
  | rest {p : Prog Shard MRes} (h : Sames p) : Made1 m p
  | new {k : Slice} {hash : UInt32} {v : Nat} {ch : UInt64} {d : Nat} {f : Shard → M (Shard × Nat)} {next : Nat → Prog Shard MRes}
      (e : m = .insert k hash v ch d)
      (h : ∀ s s' b, f s = .ok (s', b) → s'.heap.fresh = s.heap.fresh + 1 ∧ s'.heap.value = upd s.heap.value s.heap.fresh v)
      (h' : ∀ b, Sames (next b)) : Made1 m (.step f next)

theorem code_makes (m : Method) : Made1 m (code m) := by
  cases m with
  | insert key hash value charge deleter =>
    refine .new rfl ?_ fun a => .step ?_ fun c => Sames.bind ?_ fun _ => .step ?_ fun fuel => (evictLoop_sames _ _).bind fun _ => .done _
    · intro s s' b x
      simp only [bind, Except.bind] at x
      split at x
      · cases x
      · cases x
        exact ⟨rfl, rfl⟩
    · intro s s' b x; cases x; exact Same.refl _
    · split
      · exact insertCached_sames a
      · exact .done _
    · intro s s' b x; cases x; exact Same.refl _
  | lookup key hash =>
    refine .rest (.step ?_ fun e => ?_)
    · intro s s' b x
      simp only [bind, Except.bind] at x
      split at x
      · cases x
      · cases x; exact Same.refl _
    · cases e with
      | none => exact .done _
      | some a => exact .step (onHeap_same fun _ _ => Ref_same) fun _ => .done _
  | release a => exact .rest ((unref_sames a).bind fun _ => .done _)
  | erase key hash => exact .rest ((removeKey_sames key hash).bind fun _ => .done _)
  | prune =>
    refine .rest (.step ?_ fun fuel => (evictLoop_sames _ _).bind fun _ => .done _)
    intro s s' b x; cases x; exact Same.refl _
  | totalCharge =>
    refine .rest (.step ?_ fun _ => .done _)
    intro s s' b x; cases x; exact Same.refl _

end CacheConc
end Lsmdb
