import Verif.Spec.CacheRace
import Verif.Proof.CacheConc6

/-!
# Which steps of the cache change the entries that other threads can read
-/

namespace Lsmdb
namespace CacheConc
open Cache Spec

/-- No entry is freed and none changes its hash or value; new ones get new addresses. -/
structure Still (h h' : Heap) : Prop where
  fresh : h.fresh ≤ h'.fresh
  live : ∀ a, a < h.fresh → h'.live a = h.live a
  hash : ∀ a, a < h.fresh → h'.hash a = h.hash a
  value : ∀ a, a < h.fresh → h'.value a = h.value a
  below : (∀ a, h.live a = true → a < h.fresh) → ∀ a, h'.live a = true → a < h'.fresh

theorem Still.refl (h : Heap) : Still h h := ⟨Nat.le_refl _, fun _ _ => rfl, fun _ _ => rfl, fun _ _ => rfl, fun h => h⟩

theorem Still.trans {h1 h2 h3 : Heap} (f : Still h1 h2) (g : Still h2 h3) : Still h1 h3 :=
  ⟨Nat.le_trans f.fresh g.fresh, fun a ha => (g.live a (Nat.lt_of_lt_of_le ha f.fresh)).trans (f.live a ha),
    fun a ha => (g.hash a (Nat.lt_of_lt_of_le ha f.fresh)).trans (f.hash a ha),
    fun a ha => (g.value a (Nat.lt_of_lt_of_le ha f.fresh)).trans (f.value a ha), fun h => g.below (f.below h)⟩

/-- The four fields are the same. -/
theorem Still.of {h h' : Heap} (h1 : h'.fresh = h.fresh) (h2 : h'.live = h.live) (h3 : h'.hash = h.hash) (h4 : h'.value = h.value) :
    Still h h' :=
  ⟨by omega, fun a _ => by rw [h2], fun a _ => by rw [h3], fun a _ => by rw [h4], fun h a ha => by rw [h1]; rw [h2] at ha; exact h a ha⟩

/-- Every step of the program does that, or frees one entry, whatever the state. -/
inductive Stills {α : Type} : Prog Shard α → Prop
  | done (a : α) : Stills (.done a)
  | step {β : Type} {f : Shard → M (Shard × β)} {next : β → Prog Shard α}
      (h : ∀ s s' b, f s = .ok (s', b) → Still s.heap s'.heap) (h' : ∀ b, Stills (next b)) : Stills (.step f next)
  | free {a : Nat} {next : Unit → Prog Shard α} (h' : ∀ b, Stills (next b)) :
      Stills (.step (fun s => .ok ({ s with heap := { s.heap with live := upd s.heap.live a false } }, ())) next)

theorem Stills.bind {α β : Type} {p : Prog Shard α} {g : α → Prog Shard β} (h : Stills p) (hg : ∀ a, Stills (g a)) :
    Stills (p.bind g) := by
  induction h with
  | done a => exact hg a
  | step h h' ih => exact .step h ih
  | free h' ih => exact .free ih

theorem LRU_Remove_still {h h' : Heap} {e : Ptr} (x : LRU_Remove h e = .ok h') : Still h h' := by
  simp only [LRU_Remove, bind, Except.bind] at x
  split at x
  · cases x
  · split at x
    · cases x
    · split at x
      · cases x
      · cases x
        exact Still.of rfl rfl rfl rfl

theorem LRU_Append_still {h h' : Heap} {l e : Ptr} (x : LRU_Append h l e = .ok h') : Still h h' := by
  simp only [LRU_Append, bind, Except.bind] at x
  split at x
  · cases x
  · split at x
    · cases x
    · split at x
      · cases x
      · split at x
        · cases x
        · cases x
          exact Still.of rfl rfl rfl rfl

theorem writeLoc_still {h h' : Heap} {t t' : HTable} {v : Option Nat} {l : Loc} (x : writeLoc h t v l = .ok (h', t')) : Still h h' := by
  cases l with
  | bucket i =>
    simp only [writeLoc] at x
    split at x
    · cases x; exact Still.refl _
    · cases x
  | nextHash a =>
    simp only [writeLoc, bind, Except.bind] at x
    split at x
    · cases x
    · cases x; exact Still.of rfl rfl rfl rfl

theorem moveChain_still {nl : UInt32} : ∀ {fuel : Nat} {h h' : Heap} {nt nt' : List (Option Nat)} {p : Option Nat} {c c' : UInt32},
    moveChain nl fuel h nt p c = .ok (h', nt', c') → Still h h' := by
  intro fuel
  induction fuel with
  | zero =>
    intro h h' nt nt' p c c' x
    cases p with
    | none => simp only [moveChain] at x; cases x; exact Still.refl _
    | some a => simp only [moveChain] at x; cases x
  | succ n ih =>
    intro h h' nt nt' p c c' x
    cases p with
    | none => simp only [moveChain] at x; cases x; exact Still.refl _
    | some a =>
      simp only [moveChain, bind, Except.bind] at x
      split at x
      · cases x
      · split at x
        · cases x
        · refine Still.trans ?_ (ih x)
          exact Still.of rfl rfl rfl rfl

theorem moveAll_still {nl : UInt32} : ∀ {l : List (Option Nat)} {h h' : Heap} {nt nt' : List (Option Nat)} {c c' : UInt32},
    moveAll nl l h nt c = .ok (h', nt', c') → Still h h' := by
  intro l
  induction l with
  | nil => intro h h' nt nt' c c' x; simp only [moveAll] at x; cases x; exact Still.refl _
  | cons p l ih =>
    intro h h' nt nt' c c' x
    simp only [moveAll, bind, Except.bind] at x
    split at x
    · cases x
    · rename_i e
      exact (moveChain_still e).trans (ih x)

theorem Resize_still {h h' : Heap} {t t' : HTable} (x : Resize h t = .ok (h', t')) : Still h h' := by
  simp only [Resize, bind, Except.bind] at x
  split at x
  · cases x
  · split at x
    · cases x
    · rename_i e
      split at x
      · cases x
      · cases x
        exact moveAll_still e

theorem grow_still {h h' : Heap} {t t' : HTable} {o : Option Nat} (x : grow h t o = .ok (h', t')) : Still h h' := by
  simp only [grow] at x
  split at x
  · split at x
    · exact Resize_still x
    · cases x; exact Still.refl _
  · cases x; exact Still.refl _

theorem tableInsert_still {h h' : Heap} {t t' : HTable} {a : Nat} {o : Option Nat} (x : tableInsert h t a = .ok (h', t', o)) :
    Still h h' := by
  simp only [tableInsert, bind, Except.bind] at x
  split at x
  · cases x
  · split at x
    · cases x
    · split at x
      · cases x
      · split at x
        · cases x
        · split at x
          · cases x
          · rename_i e1
            split at x
            · cases x
            · rename_i e2
              cases x
              refine Still.trans (Still.trans ?_ (writeLoc_still e1)) (grow_still e2)
              exact Still.of rfl rfl rfl rfl

theorem tableRemove_still {h h' : Heap} {t t' : HTable} {k : Slice} {hash : UInt32} {o : Option Nat}
    (x : tableRemove h t k hash = .ok (h', t', o)) : Still h h' := by
  simp only [tableRemove, bind, Except.bind] at x
  split at x
  · cases x
  · split at x
    · cases x
    · split at x
      · cases x; exact Still.refl _
      · split at x
        · cases x
        · split at x
          · cases x
          · rename_i e
            cases x
            exact writeLoc_still e

theorem Ref_still {h h' : Heap} {a : Nat} (x : Ref h a = .ok h') : Still h h' := by
  simp only [Ref, bind, Except.bind] at x
  split at x
  · cases x
  · split at x
    · split at x
      · cases x
      · rename_i e1
        split at x
        · cases x
        · rename_i e2
          cases x
          exact ((LRU_Remove_still e1).trans (LRU_Append_still e2)).trans (Still.of rfl rfl rfl rfl)
    · cases x
      exact Still.of rfl rfl rfl rfl

/-- A step that leaves the heap alone. -/
theorem Still.heap {s s' : Shard} (h : s'.heap = s.heap) : Still s.heap s'.heap := by rw [h]; exact Still.refl _

theorem onHeap_still {f : Heap → M Heap} (hf : ∀ h h', f h = .ok h' → Still h h') (s s' : Shard) (b : Unit)
    (x : onHeap f s = .ok (s', b)) : Still s.heap s'.heap := by
  simp only [onHeap, bind, Except.bind] at x
  split at x
  · cases x
  · rename_i e
    cases x
    exact hf _ _ e

theorem unref_stills (a : Nat) : Stills (unrefCode a) := by
  refine .step ?_ ?_
  · intro s s' b x
    simp only [bind, Except.bind] at x
    split at x
    · cases x
    · split at x
      · cases x
      · cases x
        exact Still.of rfl rfl rfl rfl
  · rintro ⟨refs, inCache⟩
    show Stills (if refs = 0 then _ else _)
    split
    · refine .step ?_ fun _ => .free fun _ => .done _
      intro s s' b x
      simp only [bind, Except.bind] at x
      split at x
      · cases x
      · split at x
        · cases x
        · split at x
          · cases x
          · cases x
            exact Still.refl _
    · split
      · exact .step (onHeap_still fun _ _ => LRU_Remove_still) fun _ => .step (onHeap_still fun _ _ => LRU_Append_still) fun _ => .done _
      · exact .done _

theorem finishErase_stills (o : Option Nat) : Stills (finishEraseCode o) := by
  cases o with
  | none => exact .done _
  | some a =>
    refine .step (onHeap_still ?_) fun _ => .step ?_ fun _ => .step ?_ fun _ => (unref_stills a).bind fun _ => .done _
    · intro h h' x
      simp only [bind, Except.bind] at x
      split at x
      · cases x
      · split at x
        · cases x
        · exact LRU_Remove_still x
    · intro s s' b x; cases x; exact Still.of rfl rfl rfl rfl
    · intro s s' b x; cases x; exact Still.refl _

theorem removeKey_stills (k : Slice) (hash : UInt32) : Stills (removeKeyCode k hash) := by
  refine .step ?_ fun r => finishErase_stills r
  intro s s' b x
  simp only [bind, Except.bind] at x
  split at x
  · cases x
  · rename_i e
    cases x
    exact tableRemove_still e

theorem evictOne_stills (a : Nat) : Stills (evictOneCode a) := by
  refine .step ?_ ?_
  · intro s s' b x
    simp only [bind, Except.bind] at x
    split at x
    · cases x
    · split at x
      · cases x
      · split at x
        · cases x
        · cases x
          exact Still.refl _
  · rintro ⟨k, hash⟩
    refine (removeKey_stills k hash).bind fun erased => .step ?_ fun _ => .done _
    intro s s' b x
    simp only [bind, Except.bind] at x
    split at x
    · cases x
    · cases x; exact Still.refl _

theorem evictLoop_stills (over : Shard → Bool) (fuel : Nat) : Stills (evictLoopCode over fuel) := by
  induction fuel with
  | zero =>
    refine .step ?_ fun _ => .done _
    intro s s' b x
    split at x
    · cases x
    · cases x; exact Still.refl _
  | succ n ih =>
    refine .step ?_ ?_
    · intro s s' b x
      simp only [loopTest, bind, Except.bind] at x
      split at x
      · split at x
        · cases x
        · split at x
          · cases x; exact Still.refl _
          · cases x
      · cases x; exact Still.refl _
    · intro old
      cases old with
      | none => exact .done _
      | some a => exact (evictOne_stills a).bind fun _ => ih

theorem insertCached_stills (a : Nat) : Stills (insertCachedCode a) := by
  refine .step ?_ fun _ => .step ?_ fun _ => .step (onHeap_still fun _ _ => LRU_Append_still) fun _ => .step ?_ fun _ => .step ?_
    fun old => (finishErase_stills old).bind fun _ => .done _
  · intro s s' b x; cases x; exact Still.of rfl rfl rfl rfl
  · intro s s' b x; cases x; exact Still.of rfl rfl rfl rfl
  · intro s s' b x; cases x; exact Still.refl _
  · intro s s' b x
    simp only [bind, Except.bind] at x
    split at x
    · cases x
    · rename_i e
      cases x
      exact tableInsert_still e

theorem code_stills (m : Method) : Stills (code m) := by
  cases m with
  | insert key hash value charge deleter =>
    refine .step ?_ fun a => .step ?_ fun c => Stills.bind ?_ fun _ => .step ?_ fun fuel => (evictLoop_stills _ _).bind fun _ => .done _
    · intro s s' b x
      simp only [bind, Except.bind] at x
      split at x
      · cases x
      · cases x
        refine ⟨Nat.le_succ _, ?_, ?_, ?_, ?_⟩
        · intro a ha
          simp only [newHandle, upd_apply, if_neg (show a ≠ s.heap.fresh by omega)]
        · intro a ha
          simp only [newHandle, upd_apply, if_neg (show a ≠ s.heap.fresh by omega)]
        · intro a ha
          simp only [newHandle, upd_apply, if_neg (show a ≠ s.heap.fresh by omega)]
        · intro h a ha
          simp only [newHandle, upd_apply] at ha ⊢
          split at ha
          · omega
          · exact Nat.lt_succ_of_lt (h a ha)
    · intro s s' b x; cases x; exact Still.refl _
    · split
      · exact insertCached_stills a
      · exact .done _
    · intro s s' b x; cases x; exact Still.refl _
  | lookup key hash =>
    refine .step ?_ fun e => ?_
    · intro s s' b x
      simp only [bind, Except.bind] at x
      split at x
      · cases x
      · cases x; exact Still.refl _
    · cases e with
      | none => exact .done _
      | some a => exact .step (onHeap_still fun _ _ => Ref_still) fun _ => .done _
  | release a => exact (unref_stills a).bind fun _ => .done _
  | erase key hash => exact (removeKey_stills key hash).bind fun _ => .done _
  | prune =>
    refine .step ?_ fun fuel => (evictLoop_stills _ _).bind fun _ => .done _
    intro s s' b x; cases x; exact Still.refl _
  | totalCharge =>
    refine .step ?_ fun _ => .done _
    intro s s' b x; cases x; exact Still.refl _

end CacheConc
end Lsmdb
