import Verif.Proof.MemConc1
import Mathlib.Data.List.Nodup
import Mathlib.Data.List.Perm.Subperm

/-!
# Steps on one file keep the invariant
-/

namespace Lsmdb
namespace MemConc
open MemEnv Spec
open CacheConc (Tid Prog)

variable {files : List (Option FileState)} {freed : List Nat} {data : Nat → Bytes} {oR oB : Nat → Option Tid}
  {ref : RefId → Option Nat} {G : Nat → List RefId} {vBlk : Tid → Option BV} {vRfs : Tid → Option RV} {vSole : Tid → Option Nat}
  {D : Nat → Prop} {t : Tid} {i : Nat}

theorem upd_eq_some {α β : Type} [DecidableEq α] {f : α → Option β} {a x : α} {b : Option β} {y : β} (h : upd f a b x = some y) :
    (x = a ∧ b = some y) ∨ (x ≠ a ∧ f x = some y) := by
  unfold upd at h
  split at h
  · exact .inl ⟨‹_›, h⟩
  · exact .inr ⟨‹_›, h⟩

theorem set_some_iff {α : Type} {l : List (Option α)} {i j : Nat} {a b : Option α} (h : (l.set i a)[j]? = some b) :
    (j = i ∧ a = b) ∨ (j ≠ i ∧ l[j]? = some b) := by
  by_cases e : j = i
  · subst e
    left
    rw [List.getElem?_set] at h
    split at h
    · split at h
      · injection h with h; exact ⟨rfl, h⟩
      · cases h
    · exact absurd rfl ‹_›
  · right
    rw [List.getElem?_set_ne (Ne.symm e)] at h
    exact ⟨e, h⟩

theorem set_live {α : Type} {l : List (Option α)} {i j : Nat} {a : α} (h : ∃ f, l[j]? = some (some f)) :
    ∃ f, (l.set i (some a))[j]? = some (some f) := by
  obtain ⟨f, hf⟩ := h
  by_cases e : i = j
  · subst e
    exact ⟨a, by rw [List.getElem?_set_self (List.getElem?_eq_some_iff.mp hf).1]⟩
  · exact ⟨f, by rw [List.getElem?_set_ne e]; exact hf⟩

theorem set_none_iff {α : Type} {l : List (Option α)} {i j : Nat} {a f : α} (hf : l[i]? = some (some f)) :
    (l.set i (some a))[j]? = some none ↔ l[j]? = some none := by
  by_cases e : i = j
  · subst e
    rw [List.getElem?_set_self (List.getElem?_eq_some_iff.mp hf).1, hf]
    simp
  · rw [List.getElem?_set_ne e]

variable (h : FileInv files freed data oR oB ref G vBlk vRfs vSole D)
include h

theorem FileInv.lockB {f : FileState} (hf : files[i]? = some (some f)) (ho : oB i = none) (hv : vBlk t = none) :
    FileInv files freed data oR (upd oB i (some t)) ref G (upd vBlk t (some ⟨i, ⟨f.blocks, f.size⟩, data i⟩)) vRfs vSole D := by
  refine { h with content := ?_, blkOwn := ?_, blkView := ?_ }
  · intro j g hj hb hd
    unfold upd at hb
    split at hb
    · cases hb
    · exact h.content j g hj hb hd
  · intro u j hj
    rcases upd_eq_some hj with ⟨rfl, e⟩ | ⟨hne, e⟩
    · cases e
      exact ⟨_, upd_same _ _ _, rfl⟩
    · obtain ⟨v, h1, h2⟩ := h.blkOwn u j e
      refine ⟨v, ?_, h2⟩
      rw [upd_other]
      · exact h1
      · rintro rfl; rw [hv] at h1; cases h1
  · intro u v hu
    rcases upd_eq_some hu with ⟨rfl, e⟩ | ⟨hne, e⟩
    · cases e
      exact ⟨upd_same _ _ _, ⟨f, hf, rfl⟩, rfl⟩
    · obtain ⟨h1, h2, h3⟩ := h.blkView u v e
      refine ⟨?_, h2, h3⟩
      rw [upd_other]
      · exact h1
      · intro e'; rw [e', ho] at h1; cases h1

theorem FileInv.blk_ne {c : Content} {d : Bytes} (hv : vBlk t = some ⟨i, c, d⟩) {u : Tid} {v : BV} (hu : u ≠ t) (hb : vBlk u = some v) :
    v.i ≠ i := by
  intro e
  have h1 := (h.blkView u v hb).1
  have h2 := (h.blkView t _ hv).1
  rw [e] at h1
  rw [show (BV.mk i c d).i = i from rfl, h1] at h2
  injection h2 with h2
  exact hu h2

theorem FileInv.stepB {c : Content} {d : Bytes} {f : FileState} (c' : Content) (hf : files[i]? = some (some f))
    (hv : vBlk t = some ⟨i, c, d⟩) :
    FileInv (files.set i (some { f with blocks := c'.blocks, size := c'.size })) freed data oR oB ref G
      (upd vBlk t (some ⟨i, c', d⟩)) vRfs vSole D := by
  have hlt := (List.getElem?_eq_some_iff.mp hf).1
  have hb := h.blkView t _ hv
  refine { h with refs := ?_, content := ?_, live := ?_, gone := ?_, sole := ?_, soleEx := ?_, blkOwn := ?_, blkView := ?_, rfsView := ?_ }
  · intro j g hj
    rcases set_some_iff hj with ⟨rfl, e⟩ | ⟨_, e⟩
    · injection e with e; subst e; exact h.refs _ f hf
    · exact h.refs j g e
  · intro j g hj ho hd
    rcases set_some_iff hj with ⟨rfl, e⟩ | ⟨_, e⟩
    · rw [hb.1] at ho; cases ho
    · exact h.content j g e ho hd
  · intro j hj; exact set_live (h.live j hj)
  · intro j; simp only [set_none_iff hf]; exact h.gone j
  · intro u j hj; exact ⟨set_live (h.sole u j hj).1, (h.sole u j hj).2⟩
  · intro j g hj hG
    rcases set_some_iff hj with ⟨rfl, e⟩ | ⟨_, e⟩
    · exact h.soleEx _ f hf hG
    · exact h.soleEx j g e hG
  · intro u j hj
    obtain ⟨v, h1, h2⟩ := h.blkOwn u j hj
    by_cases e : u = t
    · subst e
      rw [hv] at h1; cases h1
      exact ⟨_, upd_same _ _ _, h2⟩
    · exact ⟨v, by rw [upd_other _ _ e]; exact h1, h2⟩
  · intro u v hu
    rcases upd_eq_some hu with ⟨rfl, e⟩ | ⟨hne, e⟩
    · cases e
      exact ⟨hb.1, ⟨_, List.getElem?_set_self hlt, rfl⟩, hb.2.2⟩
    · obtain ⟨h1, ⟨g, h2, h4⟩, h3⟩ := h.blkView u v e
      have hne' := h.blk_ne hv hne e
      exact ⟨h1, ⟨g, by rw [List.getElem?_set_ne (Ne.symm hne')]; exact h2, h4⟩, h3⟩
  · intro u v hu
    obtain ⟨h1, h2, h3, h4⟩ := h.rfsView u v hu
    exact ⟨h1, h2, set_live h3, h4⟩

theorem FileInv.dataB {c : Content} {d : Bytes} (d' : Bytes) (hv : vBlk t = some ⟨i, c, d⟩) :
    FileInv files freed (upd data i d') oR oB ref G (upd vBlk t (some ⟨i, c, d'⟩)) vRfs vSole D := by
  have hb := h.blkView t _ hv
  refine { h with content := ?_, blkOwn := ?_, blkView := ?_ }
  · intro j g hj ho hd
    rw [upd_other]
    · exact h.content j g hj ho hd
    · rintro rfl; rw [hb.1] at ho; cases ho
  · intro u j hj
    obtain ⟨v, h1, h2⟩ := h.blkOwn u j hj
    by_cases e : u = t
    · subst e
      rw [hv] at h1; cases h1
      exact ⟨_, upd_same _ _ _, h2⟩
    · exact ⟨v, by rw [upd_other _ _ e]; exact h1, h2⟩
  · intro u v hu
    rcases upd_eq_some hu with ⟨rfl, e⟩ | ⟨hne, e⟩
    · cases e
      exact ⟨hb.1, hb.2.1, upd_same _ _ _⟩
    · obtain ⟨h1, h2, h3⟩ := h.blkView u v e
      have hne' := h.blk_ne hv hne e
      exact ⟨h1, h2, by rw [upd_other _ _ hne']; exact h3⟩

theorem FileInv.unlockB {c : Content} {d : Bytes} (hv : vBlk t = some ⟨i, c, d⟩) (hc : ¬ D i → Holds c d) :
    FileInv files freed data oR (upd oB i none) ref G (upd vBlk t none) vRfs vSole D := by
  obtain ⟨b1, ⟨f, b2, b3⟩, b4⟩ := h.blkView t _ hv
  refine { h with content := ?_, blkOwn := ?_, blkView := ?_ }
  · intro j g hj ho hd
    by_cases e : j = i
    · subst e
      have : f = g := by
        have := b2.symm.trans hj
        injection this with this; injection this
      subst this
      have b3' : (⟨f.blocks, f.size⟩ : Content) = c := b3
      have b4' : data j = d := b4
      rw [b3', b4']
      exact hc hd
    · exact h.content j g hj (by rw [upd_other _ _ e] at ho; exact ho) hd
  · intro u j hj
    rcases upd_eq_some hj with ⟨_, e⟩ | ⟨hne, e⟩
    · cases e
    · obtain ⟨v, h1, h2⟩ := h.blkOwn u j e
      refine ⟨v, ?_, h2⟩
      rw [upd_other]
      · exact h1
      · rintro rfl
        rw [hv] at h1; cases h1
        exact hne h2.symm
  · intro u v hu
    rcases upd_eq_some hu with ⟨_, e⟩ | ⟨hne, e⟩
    · cases e
    · obtain ⟨h1, h2, h3⟩ := h.blkView u v e
      exact ⟨by rw [upd_other _ _ (h.blk_ne hv hne e)]; exact h1, h2, h3⟩

theorem FileInv.lockR (hl : ∃ f, files[i]? = some (some f)) (ho : oR i = none) (hv : vRfs t = none) (hw : G i ≠ [] ∨ vSole t = some i) :
    FileInv files freed data (upd oR i (some t)) oB ref G vBlk (upd vRfs t (some ⟨i, (G i).length⟩)) vSole D := by
  refine { h with rfsOwn := ?_, rfsView := ?_ }
  · intro u j hj
    rcases upd_eq_some hj with ⟨rfl, e⟩ | ⟨hne, e⟩
    · cases e
      exact ⟨_, upd_same _ _ _, rfl⟩
    · obtain ⟨v, h1, h2⟩ := h.rfsOwn u j e
      refine ⟨v, ?_, h2⟩
      rw [upd_other]
      · exact h1
      · rintro rfl; rw [hv] at h1; cases h1
  · intro u v hu
    rcases upd_eq_some hu with ⟨rfl, e⟩ | ⟨hne, e⟩
    · cases e
      refine ⟨upd_same _ _ _, rfl, hl, ?_⟩
      rcases hw with hw | hw
      · left
        intro e
        exact hw (List.eq_nil_of_length_eq_zero e)
      · exact .inr hw
    · obtain ⟨h1, h2, h3⟩ := h.rfsView u v e
      refine ⟨?_, h2, h3⟩
      rw [upd_other]
      · exact h1
      · intro e'; rw [e', ho] at h1; cases h1

theorem FileInv.rfs_ne {n : Nat} (hv : vRfs t = some ⟨i, n⟩) {u : Tid} {v : RV} (hu : u ≠ t) (hb : vRfs u = some v) : v.i ≠ i := by
  intro e
  have h1 := (h.rfsView u v hb).1
  have h2 := (h.rfsView t _ hv).1
  rw [e] at h1
  rw [show (RV.mk i n).i = i from rfl, h1] at h2
  injection h2 with h2
  exact hu h2

theorem FileInv.unlockR {n : Nat} (hv : vRfs t = some ⟨i, n⟩) :
    FileInv files freed data (upd oR i none) oB ref G vBlk (upd vRfs t none) vSole D := by
  refine { h with rfsOwn := ?_, rfsView := ?_ }
  · intro u j hj
    rcases upd_eq_some hj with ⟨_, e⟩ | ⟨hne, e⟩
    · cases e
    · obtain ⟨v, h1, h2⟩ := h.rfsOwn u j e
      refine ⟨v, ?_, h2⟩
      rw [upd_other]
      · exact h1
      · rintro rfl
        rw [hv] at h1; cases h1
        exact hne h2.symm
  · intro u v hu
    rcases upd_eq_some hu with ⟨_, e⟩ | ⟨hne, e⟩
    · cases e
    · obtain ⟨h1, h2, h3⟩ := h.rfsView u v e
      exact ⟨by rw [upd_other _ _ (h.rfs_ne hv hne e)]; exact h1, h2, h3⟩

/-- A new reference `r` to file `i`, by the holder of its `refs_mutex_`. -/
theorem FileInv.addRef {n : Nat} {f : FileState} {r : RefId} (hv : vRfs t = some ⟨i, n⟩) (hf : files[i]? = some (some f))
    (hr : ref r = none) (h1 : ∀ m, r = .name m → ∀ m', ref (.name m') ≠ some i) (hs : vSole t = none ∨ vSole t = some i) :
    FileInv (files.set i (some { f with refs := f.refs + 1 })) freed data oR oB (upd ref r (some i)) (upd G i (r :: G i)) vBlk
      (upd vRfs t (some ⟨i, n + 1⟩)) (upd vSole t none) D := by
  have hlt := (List.getElem?_eq_some_iff.mp hf).1
  obtain ⟨w1, w2, w3, w4⟩ := h.rfsView t _ hv
  refine ⟨?_, ?_, ?_, ?_, ?_, ?_, ?_, ?_, ?_, ?_, h.blkOwn, ?_, ?_, ?_⟩
  · intro s j
    by_cases ej : j = i
    · subst ej
      rw [upd_same]
      by_cases es : s = r
      · subst es; simp [upd_same]
      · rw [upd_other _ _ es, ← h.gRef]; simp [es]
    · rw [upd_other _ _ ej]
      by_cases es : s = r
      · subst es
        rw [upd_same, h.gRef, hr]
        simp [Ne.symm ej]
      · rw [upd_other _ _ es, h.gRef]
  · intro j
    by_cases ej : j = i
    · subst ej
      rw [upd_same, List.nodup_cons]
      exact ⟨by rw [h.gRef, hr]; simp, h.gNodup j⟩
    · rw [upd_other _ _ ej]; exact h.gNodup j
  · intro a b j ha hb
    rcases upd_eq_some ha with ⟨ra, ea⟩ | ⟨na, ea⟩ <;> rcases upd_eq_some hb with ⟨rb, eb⟩ | ⟨nb, eb⟩
    · rw [← rb] at ra; injection ra
    · cases ea; exact absurd eb (h1 a ra.symm b)
    · cases eb; exact absurd ea (h1 b rb.symm a)
    · exact h.one a b j ea eb
  · intro j g hj
    rcases set_some_iff hj with ⟨rfl, e⟩ | ⟨ne, e⟩
    · injection e with e; subst e
      rw [upd_same, List.length_cons]
      have := h.refs _ f hf
      simp only [this]
      omega
    · rw [upd_other _ _ ne]; exact h.refs j g e
  · intro j g hj ho hd
    rcases set_some_iff hj with ⟨rfl, e⟩ | ⟨_, e⟩
    · injection e with e; subst e; exact h.content _ f hf ho hd
    · exact h.content j g e ho hd
  · intro j hj
    by_cases ej : j = i
    · subst ej; exact ⟨_, List.getElem?_set_self hlt⟩
    · rw [upd_other _ _ ej] at hj; exact set_live (h.live j hj)
  · intro j; simp only [set_none_iff hf]; exact h.gone j
  · intro u j hj
    rcases upd_eq_some hj with ⟨_, e⟩ | ⟨ne, e⟩
    · cases e
    · have := h.sole u j e
      refine ⟨set_live this.1, ?_⟩
      rw [upd_other]
      · exact this.2
      · rintro rfl
        rcases hs with hs | hs
        · rcases w4 with w4 | w4
          · apply w4
            show n = 0
            have w2' : (G j).length = n := w2
            rw [← w2', this.2]; rfl
          · rw [hs] at w4; cases w4
        · exact ne (h.soleUniq u t j e hs)
  · intro u u' j hu hu'
    rcases upd_eq_some hu with ⟨_, e⟩ | ⟨_, e⟩
    · cases e
    · rcases upd_eq_some hu' with ⟨_, e'⟩ | ⟨_, e'⟩
      · cases e'
      · exact h.soleUniq u u' j e e'
  · intro j g hj hG
    by_cases ej : j = i
    · subst ej; rw [upd_same] at hG; cases hG
    · rw [upd_other _ _ ej] at hG
      rcases set_some_iff hj with ⟨e, _⟩ | ⟨_, e⟩
      · exact absurd e ej
      · obtain ⟨u, hu⟩ := h.soleEx j g e hG
        refine ⟨u, ?_⟩
        rw [upd_other]
        · exact hu
        · rintro rfl
          rcases hs with hs | hs
          · rw [hs] at hu; cases hu
          · rw [hs] at hu; injection hu with hu; exact ej hu.symm
  · intro u v hu
    obtain ⟨h2, ⟨g, h3, h4⟩, h5⟩ := h.blkView u v hu
    refine ⟨h2, ?_, h5⟩
    by_cases e : v.i = i
    · rw [e] at h3 ⊢
      refine ⟨_, List.getElem?_set_self hlt, ?_⟩
      have : f = g := by
        have := hf.symm.trans h3
        injection this with this; injection this
      subst this
      exact h4
    · exact ⟨g, by rw [List.getElem?_set_ne (Ne.symm e)]; exact h3, h4⟩
  · intro u j hj
    obtain ⟨v, h2, h3⟩ := h.rfsOwn u j hj
    by_cases e : u = t
    · subst e
      rw [hv] at h2; cases h2
      exact ⟨_, upd_same _ _ _, h3⟩
    · exact ⟨v, by rw [upd_other _ _ e]; exact h2, h3⟩
  · intro u v hu
    rcases upd_eq_some hu with ⟨rfl, e⟩ | ⟨hne, e⟩
    · cases e
      refine ⟨w1, ?_, set_live w3, .inl (Nat.succ_ne_zero n)⟩
      show (upd G i (r :: G i) i).length = n + 1
      rw [upd_same, List.length_cons, show (G i).length = n from w2]
    · obtain ⟨h2, h3, h4, h5⟩ := h.rfsView u v e
      have hne' := h.rfs_ne hv hne e
      refine ⟨h2, by rw [upd_other _ _ hne']; exact h3, set_live h4, ?_⟩
      rw [upd_other _ _ hne]
      exact h5

/-- A reference `r` to file `i` is dropped, by the holder of its `refs_mutex_`. -/
theorem FileInv.dropRef {n : Nat} {f : FileState} {r : RefId} (hv : vRfs t = some ⟨i, n⟩) (hf : files[i]? = some (some f))
    (hr : ref r = some i) (hs : vSole t = none) :
    FileInv (files.set i (some { f with refs := f.refs - 1 })) freed data oR oB (upd ref r none) (upd G i ((G i).erase r)) vBlk
      (upd vRfs t (some ⟨i, n - 1⟩)) (upd vSole t (if n - 1 = 0 then some i else none)) D := by
  have hlt := (List.getElem?_eq_some_iff.mp hf).1
  obtain ⟨w1, w2, w3, w4⟩ := h.rfsView t _ hv
  have hmem : r ∈ G i := (h.gRef r i).mpr hr
  have hlen : ((G i).erase r).length = n - 1 := by
    rw [List.length_erase_of_mem hmem, show (G i).length = n from w2]
  have hpos : 0 < (G i).length := List.length_pos_of_mem hmem
  refine ⟨?_, ?_, ?_, ?_, ?_, ?_, ?_, ?_, ?_, ?_, h.blkOwn, ?_, ?_, ?_⟩
  · intro s j
    by_cases ej : j = i
    · subst ej
      rw [upd_same, (h.gNodup j).mem_erase_iff, h.gRef]
      by_cases es : s = r
      · subst es; simp [upd_same]
      · rw [upd_other _ _ es]; simp [es]
    · rw [upd_other _ _ ej, h.gRef]
      by_cases es : s = r
      · subst es
        rw [upd_same, hr]
        simp [Ne.symm ej]
      · rw [upd_other _ _ es]
  · intro j
    by_cases ej : j = i
    · subst ej; rw [upd_same]; exact (h.gNodup j).erase r
    · rw [upd_other _ _ ej]; exact h.gNodup j
  · intro a b j ha hb
    rcases upd_eq_some ha with ⟨_, ea⟩ | ⟨na, ea⟩
    · cases ea
    · rcases upd_eq_some hb with ⟨_, eb⟩ | ⟨nb, eb⟩
      · cases eb
      · exact h.one a b j ea eb
  · intro j g hj
    rcases set_some_iff hj with ⟨rfl, e⟩ | ⟨ne, e⟩
    · injection e with e; subst e
      rw [upd_same, List.length_erase_of_mem hmem]
      have := h.refs _ f hf
      simp only [this]
      omega
    · rw [upd_other _ _ ne]; exact h.refs j g e
  · intro j g hj ho hd
    rcases set_some_iff hj with ⟨rfl, e⟩ | ⟨_, e⟩
    · injection e with e; subst e; exact h.content _ f hf ho hd
    · exact h.content j g e ho hd
  · intro j hj
    by_cases ej : j = i
    · subst ej; exact ⟨_, List.getElem?_set_self hlt⟩
    · rw [upd_other _ _ ej] at hj; exact set_live (h.live j hj)
  · intro j; simp only [set_none_iff hf]; exact h.gone j
  · intro u j hj
    rcases upd_eq_some hj with ⟨rfl, e⟩ | ⟨ne, e⟩
    · split at e
      · cases e
        exact ⟨⟨_, List.getElem?_set_self hlt⟩, by rw [upd_same]; exact List.eq_nil_of_length_eq_zero (by rw [hlen]; assumption)⟩
      · cases e
    · have := h.sole u j e
      refine ⟨set_live this.1, ?_⟩
      by_cases ej : j = i
      · subst ej; rw [this.2] at hmem; cases hmem
      · rw [upd_other _ _ ej]; exact this.2
  · intro u u' j hu hu'
    have aux : ∀ {a b : Tid}, upd vSole t (if n - 1 = 0 then some i else none) a = some j → vSole b = some j → a = t → False := by
      intro a b ha hb ea
      subst ea
      rw [upd_same] at ha
      split at ha
      · cases ha
        rw [(h.sole b _ hb).2] at hmem; cases hmem
      · cases ha
    rcases upd_eq_some hu with ⟨ea, e⟩ | ⟨_, e⟩ <;> rcases upd_eq_some hu' with ⟨eb, e'⟩ | ⟨_, e'⟩
    · rw [ea, eb]
    · exact (aux hu e' ea).elim
    · exact (aux hu' e eb).elim
    · exact h.soleUniq u u' j e e'
  · intro j g hj hG
    by_cases ej : j = i
    · subst ej
      rw [upd_same] at hG
      refine ⟨t, ?_⟩
      rw [upd_same, if_pos]
      rw [← hlen, hG]; rfl
    · rw [upd_other _ _ ej] at hG
      rcases set_some_iff hj with ⟨e, _⟩ | ⟨_, e⟩
      · exact absurd e ej
      · obtain ⟨u, hu⟩ := h.soleEx j g e hG
        refine ⟨u, ?_⟩
        rw [upd_other]
        · exact hu
        · rintro rfl; rw [hs] at hu; cases hu
  · intro u v hu
    obtain ⟨h2, ⟨g, h3, h4⟩, h5⟩ := h.blkView u v hu
    refine ⟨h2, ?_, h5⟩
    by_cases e : v.i = i
    · rw [e] at h3 ⊢
      refine ⟨_, List.getElem?_set_self hlt, ?_⟩
      have : f = g := by
        have := hf.symm.trans h3
        injection this with this; injection this
      subst this
      exact h4
    · exact ⟨g, by rw [List.getElem?_set_ne (Ne.symm e)]; exact h3, h4⟩
  · intro u j hj
    obtain ⟨v, h2, h3⟩ := h.rfsOwn u j hj
    by_cases e : u = t
    · subst e
      rw [hv] at h2; cases h2
      exact ⟨_, upd_same _ _ _, h3⟩
    · exact ⟨v, by rw [upd_other _ _ e]; exact h2, h3⟩
  · intro u v hu
    rcases upd_eq_some hu with ⟨rfl, e⟩ | ⟨hne, e⟩
    · cases e
      refine ⟨w1, ?_, set_live w3, ?_⟩
      · show (upd G i ((G i).erase r) i).length = n - 1
        rw [upd_same, hlen]
      · by_cases e0 : n - 1 = 0
        · right; rw [upd_same, if_pos e0]
        · exact .inl e0
    · obtain ⟨h2, h3, h4, h5⟩ := h.rfsView u v e
      have hne' := h.rfs_ne hv hne e
      refine ⟨h2, by rw [upd_other _ _ hne']; exact h3, set_live h4, ?_⟩
      rw [upd_other _ _ hne]
      exact h5

/-- The file that only `t` knows of is freed. -/
theorem FileInv.free {f : FileState} (hf : files[i]? = some (some f)) (hs : vSole t = some i) (hR : oR i = none) (hB : oB i = none) :
    FileInv (files.set i none) (freed ++ [i]) data oR oB ref G vBlk vRfs (upd vSole t none) D := by
  have hlt := (List.getElem?_eq_some_iff.mp hf).1
  have hG := (h.sole t i hs).2
  have keep : ∀ {j : Nat}, j ≠ i → (files.set i none)[j]? = files[j]? := fun hj => List.getElem?_set_ne (Ne.symm hj)
  refine { h with refs := ?_, content := ?_, live := ?_, gone := ?_, sole := ?_, soleUniq := ?_, soleEx := ?_, blkView := ?_, rfsView := ?_ }
  · intro j g hj
    rcases set_some_iff hj with ⟨_, e⟩ | ⟨ne, e⟩
    · cases e
    · exact h.refs j g e
  · intro j g hj ho hd
    rcases set_some_iff hj with ⟨_, e⟩ | ⟨ne, e⟩
    · cases e
    · exact h.content j g e ho hd
  · intro j hj
    by_cases ej : j = i
    · subst ej; exact absurd hG hj
    · rw [keep ej]; exact h.live j hj
  · intro j
    have hg := h.gone j
    by_cases ej : j = i
    · subst ej
      rw [hf] at hg
      rw [List.count_append, List.getElem?_set_self hlt, hg]
      simp
    · rw [keep ej, List.count_append, hg]
      simp [Ne.symm ej]
  · intro u j hj
    rcases upd_eq_some hj with ⟨_, e⟩ | ⟨ne, e⟩
    · cases e
    · have := h.sole u j e
      refine ⟨?_, this.2⟩
      rw [keep]
      · exact this.1
      · rintro rfl; exact ne (h.soleUniq u t _ e hs)
  · intro u u' j hu hu'
    rcases upd_eq_some hu with ⟨_, e⟩ | ⟨_, e⟩
    · cases e
    · rcases upd_eq_some hu' with ⟨_, e'⟩ | ⟨_, e'⟩
      · cases e'
      · exact h.soleUniq u u' j e e'
  · intro j g hj hG'
    rcases set_some_iff hj with ⟨_, e⟩ | ⟨ne, e⟩
    · cases e
    · obtain ⟨u, hu⟩ := h.soleEx j g e hG'
      refine ⟨u, ?_⟩
      rw [upd_other]
      · exact hu
      · rintro rfl; rw [hs] at hu; injection hu with hu; exact ne hu.symm
  · intro u v hu
    obtain ⟨h2, h3, h5⟩ := h.blkView u v hu
    refine ⟨h2, ?_, h5⟩
    rw [keep]
    · exact h3
    · intro e; rw [e, hB] at h2; cases h2
  · intro u v hu
    obtain ⟨h2, h3, h4, h5⟩ := h.rfsView u v hu
    have hne : v.i ≠ i := by intro e; rw [e, hR] at h2; cases h2
    refine ⟨h2, h3, by rw [keep hne]; exact h4, ?_⟩
    rcases h5 with h5 | h5
    · exact .inl h5
    · right
      rw [upd_other]
      · exact h5
      · rintro rfl; rw [hs] at h5; injection h5 with h5; exact hne h5.symm

/-- Other files are being deleted. -/
theorem FileInv.dying {D' : Nat → Prop} (hD : ∀ (j : Nat) (f : FileState), files[j]? = some (some f) → ¬ D' j → ¬ D j) :
    FileInv files freed data oR oB ref G vBlk vRfs vSole D' :=
  { h with content := fun j f hj ho hd => h.content j f hj ho (hD j f hj hd) }

/-- The data of the own file change. -/
theorem FileInv.data' {data' : Nat → Bytes} {b : Option BV} (hv : vBlk t = b)
    (hd : ∀ j, data' j ≠ data j → ∃ x, b = some x ∧ x.i = j) :
    FileInv files freed data' oR oB ref G (upd vBlk t (b.map fun x => { x with data := data' x.i })) vRfs vSole D := by
  cases b with
  | none =>
    have : data' = data := by
      funext j
      refine Classical.byContradiction fun hne => ?_
      obtain ⟨x, hx, _⟩ := hd j hne
      cases hx
    rw [this]
    have e : upd vBlk t (Option.map (fun x : BV => { x with data := data x.i }) none) = vBlk := by
      funext u
      unfold upd
      split
      · rename_i e; rw [e, hv]; rfl
      · rfl
    rw [e]
    exact h
  | some x =>
    obtain ⟨i, c, d⟩ := x
    have hEq : data' = upd data i (data' i) := by
      funext j
      by_cases e : j = i
      · subst e; rw [upd_same]
      · rw [upd_other _ _ e]
        refine Classical.byContradiction fun hne => ?_
        obtain ⟨x, hx, hi⟩ := hd j hne
        injection hx with hx
        subst hx
        exact e hi.symm
    have := h.dataB (data' i) hv
    rw [← hEq] at this
    exact this

/-- A new file. -/
theorem FileInv.alloc (hs : vSole t = none) :
    FileInv (files ++ [some FileState.new]) freed (upd data files.length []) oR oB ref G vBlk vRfs (upd vSole t (some files.length)) D := by
  have out : ∀ {j : Nat}, (∃ f, files[j]? = some (some f)) → j ≠ files.length := by
    rintro j ⟨f, hf⟩ rfl
    exact Nat.lt_irrefl _ (List.getElem?_eq_some_iff.mp hf).1
  have keep : ∀ {j : Nat}, (∃ f, files[j]? = some (some f)) → ∃ f, (files ++ [some FileState.new])[j]? = some (some f) := by
    rintro j ⟨f, hf⟩
    exact ⟨f, by rw [List.getElem?_append_left (List.getElem?_eq_some_iff.mp hf).1]; exact hf⟩
  have old : ∀ {j : Nat} {x : Option FileState}, (files ++ [some FileState.new])[j]? = some x →
      (j = files.length ∧ x = some FileState.new) ∨ (j ≠ files.length ∧ files[j]? = some x) := by
    intro j x hj
    by_cases hlt : j < files.length
    · rw [List.getElem?_append_left hlt] at hj
      exact .inr ⟨Nat.ne_of_lt hlt, hj⟩
    · rw [List.getElem?_append_right (Nat.le_of_not_lt hlt)] at hj
      left
      have h1 : j - files.length < 1 := by
        have := (List.getElem?_eq_some_iff.mp hj).1
        simpa using this
      have : j = files.length := by omega
      subst this
      simp at hj
      exact ⟨rfl, hj.symm⟩
  have hG : G files.length = [] := Classical.byContradiction fun hne => out (h.live _ hne) rfl
  refine { h with refs := ?_, content := ?_, live := ?_, gone := ?_, sole := ?_, soleUniq := ?_, soleEx := ?_, blkView := ?_, rfsView := ?_ }
  · intro j g hj
    rcases old hj with ⟨rfl, e⟩ | ⟨_, e⟩
    · injection e with e; subst e; rw [hG]; rfl
    · exact h.refs j g e
  · intro j g hj ho hd
    rcases old hj with ⟨rfl, e⟩ | ⟨ne, e⟩
    · injection e with e; subst e; rw [upd_same]; exact finv_new
    · rw [upd_other _ _ ne]; exact h.content j g e ho hd
  · intro j hj; exact keep (h.live j hj)
  · intro j
    rw [h.gone j]
    congr 1
    apply propext
    constructor
    · intro hj
      rw [List.getElem?_append_left (List.getElem?_eq_some_iff.mp hj).1]; exact hj
    · intro hj
      rcases old hj with ⟨_, e⟩ | ⟨_, e⟩
      · cases e
      · exact e
  · intro u j hj
    rcases upd_eq_some hj with ⟨_, e⟩ | ⟨_, e⟩
    · cases e
      exact ⟨⟨FileState.new, by simp⟩, hG⟩
    · exact ⟨keep (h.sole u j e).1, (h.sole u j e).2⟩
  · intro u u' j hu hu'
    rcases upd_eq_some hu with ⟨ea, e⟩ | ⟨_, e⟩ <;> rcases upd_eq_some hu' with ⟨eb, e'⟩ | ⟨_, e'⟩
    · rw [ea, eb]
    · cases e; exact absurd rfl (out (h.sole u' _ e').1)
    · cases e'; exact absurd rfl (out (h.sole u _ e).1)
    · exact h.soleUniq u u' j e e'
  · intro j g hj hG'
    rcases old hj with ⟨rfl, _⟩ | ⟨ne, e⟩
    · exact ⟨t, upd_same _ _ _⟩
    · obtain ⟨u, hu⟩ := h.soleEx j g e hG'
      refine ⟨u, ?_⟩
      rw [upd_other]
      · exact hu
      · rintro rfl; rw [hs] at hu; cases hu
  · intro u v hu
    obtain ⟨h2, ⟨g, h3, h4⟩, h5⟩ := h.blkView u v hu
    refine ⟨h2, ⟨g, ?_, h4⟩, ?_⟩
    · rw [List.getElem?_append_left (List.getElem?_eq_some_iff.mp h3).1]; exact h3
    · rw [upd_other _ _ (out ⟨g, h3⟩)]; exact h5
  · intro u v hu
    obtain ⟨h2, h3, h4, h5⟩ := h.rfsView u v hu
    refine ⟨h2, h3, keep h4, ?_⟩
    rcases h5 with h5 | h5
    · exact .inl h5
    · right
      rw [upd_other]
      · exact h5
      · rintro rfl; rw [hs] at h5; cases h5

/-- The reference of name `a` becomes one of name `b`. -/
theorem FileInv.moveRef {a b : Bytes} (ha : ref (.name a) = some i) (hb : ref (.name b) = none) :
    FileInv files freed data oR oB (upd (upd ref (.name b) (some i)) (.name a) none) (upd G i (.name b :: (G i).erase (.name a))) vBlk vRfs
      vSole D := by
  have hab : a ≠ b := by rintro rfl; rw [ha] at hb; cases hb
  have hmem : RefId.name a ∈ G i := (h.gRef _ i).mpr ha
  have hlen : ((RefId.name b) :: (G i).erase (.name a)).length = (G i).length := by
    rw [List.length_cons, List.length_erase_of_mem hmem]
    have := List.length_pos_of_mem hmem
    omega
  have hnil : ∀ j, upd G i (.name b :: (G i).erase (.name a)) j = [] ↔ G j = [] := by
    intro j
    by_cases ej : j = i
    · subst ej
      rw [upd_same]
      constructor
      · intro e; cases e
      · intro e; rw [e] at hmem; cases hmem
    · rw [upd_other _ _ ej]
  have hlen' : ∀ j, (upd G i (.name b :: (G i).erase (.name a)) j).length = (G j).length := by
    intro j
    by_cases ej : j = i
    · subst ej; rw [upd_same]; exact hlen
    · rw [upd_other _ _ ej]
  refine { h with gRef := ?_, gNodup := ?_, one := ?_, refs := ?_, live := ?_, sole := ?_, soleEx := ?_, rfsView := ?_ }
  · intro s j
    by_cases ej : j = i
    · subst ej
      rw [upd_same, List.mem_cons, (h.gNodup j).mem_erase_iff, h.gRef]
      by_cases e1 : s = .name a
      · subst e1
        rw [upd_same]
        simp [hab]
      · rw [upd_other _ _ e1]
        by_cases e2 : s = .name b
        · subst e2; simp [upd_same]
        · rw [upd_other _ _ e2]; simp [e1, e2]
    · rw [upd_other _ _ ej, h.gRef]
      by_cases e1 : s = .name a
      · subst e1
        rw [upd_same, ha]
        simp [Ne.symm ej]
      · rw [upd_other _ _ e1]
        by_cases e2 : s = .name b
        · subst e2; rw [upd_same, hb]; simp [Ne.symm ej]
        · rw [upd_other _ _ e2]
  · intro j
    by_cases ej : j = i
    · subst ej
      rw [upd_same, List.nodup_cons]
      refine ⟨?_, (h.gNodup j).erase _⟩
      intro hm
      have := List.mem_of_mem_erase hm
      rw [h.gRef, hb] at this
      cases this
    · rw [upd_other _ _ ej]; exact h.gNodup j
  · intro m n j hm hn
    have aux : ∀ {m}, upd (upd ref (.name b) (some i)) (.name a) none (.name m) = some j →
        (m = b ∧ i = j) ∨ (m ≠ a ∧ ref (.name m) = some j) := by
      intro m hm
      rcases upd_eq_some hm with ⟨_, e⟩ | ⟨n1, e⟩
      · cases e
      · rcases upd_eq_some e with ⟨e1, e2⟩ | ⟨_, e2⟩
        · left; injection e1 with e1; injection e2 with e2; exact ⟨e1, e2⟩
        · exact .inr ⟨fun e3 => n1 (by rw [e3]), e2⟩
    rcases aux hm with ⟨e1, e2⟩ | ⟨n1, e2⟩ <;> rcases aux hn with ⟨e3, e4⟩ | ⟨n2, e4⟩
    · rw [e1, e3]
    · subst e2; exact absurd (h.one _ _ _ e4 ha) n2
    · subst e4; exact absurd (h.one _ _ _ e2 ha) n1
    · exact h.one _ _ _ e2 e4
  · intro j g hj; rw [hlen']; exact h.refs j g hj
  · intro j hj; exact h.live j (fun e => hj ((hnil j).mpr e))
  · intro u j hj; exact ⟨(h.sole u j hj).1, (hnil j).mpr (h.sole u j hj).2⟩
  · intro j g hj hG; exact h.soleEx j g hj ((hnil j).mp hG)
  · intro u v hu
    obtain ⟨h2, h3, h4⟩ := h.rfsView u v hu
    exact ⟨h2, by rw [hlen']; exact h3, h4⟩

/-- A file whose mutexes somebody could hold is one that somebody knows of. -/
theorem FileInv.count_le {k : Nat} (hk : ∀ h', ref (.obj h') = some i → h' < k) : (G i).length ≤ k + 1 := by
  have key : ∀ (L : List RefId), L.Nodup → (∀ r ∈ L, ∃ h', r = .obj h' ∧ h' < k) → L.length ≤ k := by
    intro L hn hL
    have : (L.map (fun r => match r with | .obj h' => h' | .name _ => 0)).Nodup := by
      refine List.Nodup.map_on ?_ hn
      intro x hx y hy e
      obtain ⟨a, rfl, _⟩ := hL x hx
      obtain ⟨b, rfl, _⟩ := hL y hy
      rw [show a = b from e]
    have h2 : (L.map (fun r => match r with | .obj h' => h' | .name _ => 0)) ⊆ List.range k := by
      intro x hx
      obtain ⟨r, hr, rfl⟩ := List.mem_map.mp hx
      obtain ⟨a, rfl, ha⟩ := hL r hr
      exact List.mem_range.mpr ha
    have := (List.Nodup.subperm this h2).length_le
    rw [List.length_map, List.length_range] at this
    exact this
  by_cases hm : ∃ m, RefId.name m ∈ G i
  · obtain ⟨m, hm⟩ := hm
    have := key ((G i).erase (.name m)) ((h.gNodup i).erase _) (by
      intro r hr
      rw [(h.gNodup i).mem_erase_iff] at hr
      cases r with
      | obj h' => exact ⟨h', rfl, hk h' ((h.gRef _ _).mp hr.2)⟩
      | name m' =>
        exact absurd (by rw [h.one m' m i ((h.gRef _ _).mp hr.2) ((h.gRef _ _).mp hm)]) hr.1)
    rw [List.length_erase_of_mem hm] at this
    omega
  · have := key (G i) (h.gNodup i) (by
      intro r hr
      cases r with
      | obj h' => exact ⟨h', rfl, hk h' ((h.gRef _ _).mp hr)⟩
      | name m' => exact absurd ⟨m', hr⟩ hm)
    omega

end MemConc
end Lsmdb
