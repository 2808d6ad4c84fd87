import Verif.Proof.MemSync2
import Verif.Proof.MemMap
import Verif.Proof.MemEnv2

/-!
# Who finds a file knows the call that made it
-/

namespace Lsmdb
namespace MemConc
open MemEnv
open CacheConc (Tid Prog)

variable {N : Nat}

/-- Code that, without having found the name in the map with the mutex of the Env held, neither adds the name nor returns with `P`. -/
def Asks (n : Bytes) (P : Res → Prop) : Prop → Code → Prop
  | _, .ret r => ¬ P r
  | h, .act f next => ∀ e e' b, f e = .ok (e', b) → (h ∧ mapFind e.map n ≠ none) ∨
      ((mapFind e.map n = none → mapFind e'.map n = none) ∧ Asks n P h (next b))
  | h, .lock l next => Asks n P (l = .env ∨ h) next
  | h, .unlock l next => Asks n P (l ≠ .env ∧ h) next
  | h, .free _ next => Asks n P h next
  | h, .gone next => Asks n P h next

section
variable {n : Bytes} {P : Res → Prop} {h : Prop} {k : Code} {β : Type} {f : Env → M (Env × β)} {i : Nat}

theorem Asks.mono : ∀ {c : Code} {h h' : Prop}, Asks n P h c → (h → h') → Asks n P h' c := by
  intro c
  induction c with
  | ret r => intro _ _ a _; exact a
  | act f next ih => exact fun a hh e e' b hf => (a e e' b hf).imp (fun x => ⟨hh x.1, x.2⟩) fun x => ⟨x.1, ih b x.2 hh⟩
  | lock l next ih => intro _ _ a hh; exact ih a fun x => x.imp id hh
  | unlock l next ih => intro _ _ a hh; exact ih a fun x => ⟨x.1, hh x.2⟩
  | free i next ih => intro _ _ a hh; exact ih a hh
  | gone next ih => intro _ _ a hh; exact ih a hh

theorem asks_lock {l : Lock} (a : Asks n P (l = .env ∨ h) k) : Asks n P h (.lock l k) := a

theorem asks_unlock {l : Lock} (a : Asks n P (l ≠ .env ∧ h) k) : Asks n P h (.unlock l k) := a

theorem asks_leave {r : Res} (hr : ¬ P r) : Asks n P h (leave r) := hr

theorem asks_fault {x : Fault} {next : β → Code} : Asks n P h (.act (fun _ => .error x) next) := fun _ _ _ hf => nomatch hf

/-- A statement that adds no name. -/
theorem asks_act {next : β → Code} (hm : ∀ e e' b, f e = .ok (e', b) → mapFind e.map n = none → mapFind e'.map n = none)
    (a : ∀ b, Asks n P h (next b)) : Asks n P h (.act f next) := fun e e' b hf => .inr ⟨hm e e' b hf, a b⟩

theorem onContent_map {g : Content → M (Content × β)} {e e' : Env} {b : β} (hf : onContent i g e = .ok (e', b)) : e'.map = e.map := by
  unfold onContent at hf
  cases h1 : getFile e (some i) with
  | error x => rw [h1] at hf; cases hf
  | ok y =>
    obtain ⟨j, s⟩ := y
    rw [h1] at hf
    cases h2 : g ⟨s.blocks, s.size⟩ with
    | error x =>
      have : (g ⟨s.blocks, s.size⟩ >>= fun x => (pure (setFile e j { s with blocks := x.1.blocks, size := x.1.size }, x.2) : M (Env × β))) = .ok (e', b) := hf
      rw [h2] at this; cases this
    | ok z =>
      have : (g ⟨s.blocks, s.size⟩ >>= fun x => (pure (setFile e j { s with blocks := x.1.blocks, size := x.1.size }, x.2) : M (Env × β))) = .ok (e', b) := hf
      rw [h2] at this; cases this; rfl

theorem asks_steps {p : Prog Content β} {k : β → Code} (a : ∀ b, Asks n P h (k b)) : Asks n P h (steps i p k) := by
  induction p with
  | done b => exact a b
  | step f next ih => exact asks_act (fun e e' b hf hn => by rw [onContent_map hf]; exact hn) fun b => ih b

theorem asks_withBlocks {p : Prog Content β} {k : β → Code} (a : ∀ b, Asks n P h (k b)) : Asks n P h (withBlocks i p k) :=
  asks_lock <| asks_steps fun b => asks_unlock <| (a b).mono fun x => ⟨nofun, .inr x⟩

theorem asks_ref (a : Asks n P h k) : Asks n P h (refCode i k) := by
  refine asks_lock (l := .refs i) <| asks_act (fun e e' b hf hn => ?_) fun _ => asks_unlock (l := .refs i) <| a.mono fun x => ⟨nofun, .inr x⟩
  have : (Ref e (some i) >>= fun x => (pure (x, ()) : M (Env × Unit))) = .ok (e', b) := hf
  unfold Ref at this
  cases h1 : getFile e (some i) with
  | error x => rw [h1] at this; cases this
  | ok y =>
    rw [h1] at this
    have : ((if y.2.refs + 1 > 2147483647 then .error .arith else pure (setFile e y.1 { y.2 with refs := y.2.refs + 1 })) >>=
      fun x => (pure (x, ()) : M (Env × Unit))) = .ok (e', b) := this
    split at this
    · cases this
    · cases this; exact hn

theorem asks_unref (a : Asks n P h k) : Asks n P h (unrefCode i k) := by
  refine asks_lock (l := .refs i) <| asks_act (fun e e' b hf hn => ?_) fun _ => asks_act (fun e e' b hf hn => ?_) fun b =>
    asks_unlock (l := .refs i) ?_
  · unfold decRefs at hf
    cases h1 : getFile e (some i) with
    | error x => rw [h1] at hf; cases hf
    | ok y => rw [h1] at hf; cases hf; exact hn
  · unfold testRefs at hf
    cases h1 : getFile e (some i) with
    | error x => rw [h1] at hf; cases hf
    | ok y =>
      rw [h1] at hf
      have : (cassert (decide (y.2.refs ≥ 0)) >>= fun _ => (pure (e, decide (y.2.refs ≤ 0)) : M (Env × Bool))) = .ok (e', b) := hf
      cases h2 : cassert (decide (y.2.refs ≥ 0)) with
      | error x => rw [h2] at this; cases this
      | ok u => rw [h2] at this; cases this; exact hn
  · refine Asks.mono (h := h) ?_ fun x => ⟨nofun, .inr x⟩
    cases b
    · exact a
    · exact asks_withBlocks fun _ => a

theorem asks_through {p : Option Nat} {k : Nat → Code} (a : ∀ i, Asks n P h (k i)) : Asks n P h (through p k) := by
  cases p with
  | none => exact asks_fault
  | some i => exact a i

theorem asks_newObj {p : Option Nat} {mk : Nat → Obj} {k : Nat → Code} (a : ∀ x, Asks n P h (k x)) : Asks n P h (newObjCode p mk k) :=
  asks_through fun i => asks_ref <| asks_act (fun e e' b hf hn => by cases hf; exact hn) a

/-- Looking for the name. -/
theorem asks_find {next : Option (Option Nat) → Code} (hh : h) (a : Asks n P h (next none)) : Asks n P h (.act (find n) next) := by
  intro e e' b hf
  unfold find at hf
  cases hf
  cases hm : mapFind e.map n with
  | none => exact .inr ⟨id, a⟩
  | some v => exact .inl ⟨hh, nofun⟩

theorem asks_find' {f : Bytes} {next : Option (Option Nat) → Code} (a : ∀ b, Asks n P h (next b)) : Asks n P h (.act (find f) next) :=
  asks_act (fun e e' b hf hn => by cases hf; exact hn) a

theorem find_set {m : FileMap} {f n : Bytes} (hf : f ≠ n) (v : Option Nat) (h : mapFind m n = none) : mapFind (mapSet m f v) n = none := by
  induction m with
  | nil => simp only [mapSet, mapFind, if_neg hf]
  | cons x m ih =>
    obtain ⟨k, w⟩ := x
    have hk : k ≠ n := by
      intro hk
      simp only [mapFind, if_pos hk] at h
      cases h
    have hm : mapFind m n = none := by
      simp only [mapFind, if_neg hk] at h
      exact h
    simp only [mapSet]
    split
    · simp only [mapFind, if_neg hk]; exact ih hm
    · split
      · simp only [mapFind, if_neg hf]; exact hm
      · simp only [mapFind, if_neg hf, if_neg hk]; exact hm

theorem asks_index {f : Bytes} {next : Option Nat → Code} (hf : f ≠ n) (a : ∀ b, Asks n P h (next b)) : Asks n P h (.act (index f) next) := by
  refine asks_act (fun e e' b he hn => ?_) a
  unfold index mapIndex at he
  cases hm : mapFind e.map f with
  | none => rw [hm] at he; cases he; exact find_set hf none hn
  | some v => rw [hm] at he; cases he; exact hn

theorem asks_assign {f : Bytes} {p : Option Nat} {next : Unit → Code} (hf : f ≠ n) (a : ∀ b, Asks n P h (next b)) :
    Asks n P h (.act (assign f p) next) :=
  asks_act (fun e e' b he hn => by cases he; exact find_set hf p hn) a

theorem asks_erase {f : Bytes} {next : Unit → Code} (a : ∀ b, Asks n P h (next b)) : Asks n P h (.act (erase f) next) :=
  asks_act (fun e e' b he hn => by
    cases he
    show mapFind (mapErase e.map f) n = none
    rw [mapFind_mapErase]
    split
    · rfl
    · exact hn) a

theorem asks_alloc {next : Option Nat → Code} (a : ∀ b, Asks n P h (next b)) : Asks n P h (.act alloc next) :=
  asks_act (fun e e' b he hn => by cases he; exact hn) a

/-- A statement that leaves the map as it is. -/
theorem asks_same {next : β → Code} (hm : ∀ e e' b, f e = .ok (e', b) → e'.map = e.map) (a : ∀ b, Asks n P h (next b)) :
    Asks n P h (.act f next) := asks_act (fun e e' b he hn => by rw [hm e e' b he]; exact hn) a

theorem asks_removeInternal {f : Bytes} (hf : f ≠ n) (a : Asks n P h k) : Asks n P h (removeInternalCode f k) :=
  asks_find' fun x => by
    cases x with
    | none => exact a
    | some _ => exact asks_index hf fun p => asks_through fun i => asks_unref <| asks_erase fun _ => a

theorem asks_destroy : ∀ (fuel k : Nat) {c : Code}, Asks n P h c → Asks n P h (destroyLoopCode fuel k c)
  | 0, _, _, _ => asks_fault
  | fuel + 1, k, c, a => by
    refine asks_same (fun e e' b he => by cases he; rfl) fun x => ?_
    cases x with
    | none => exact a
    | some y => exact asks_through fun i => asks_unref <| asks_destroy fuel _ a

theorem getSeq_map {x : Nat} {e e' : Env} {b : Nat × Nat} (hf : getSeq x e = .ok (e', b)) : e'.map = e.map := by
  unfold getSeq at hf
  cases h1 : getObj e x with
  | error y => rw [h1] at hf; cases hf
  | ok y => rw [h1] at hf; cases y <;> cases hf; rfl

theorem getRand_map {x : Nat} {e e' : Env} {b : Nat} (hf : getRand x e = .ok (e', b)) : e'.map = e.map := by
  unfold getRand at hf
  cases h1 : getObj e x with
  | error y => rw [h1] at hf; cases hf
  | ok y => rw [h1] at hf; cases y <;> cases hf; rfl

theorem getWr_map {x : Nat} {e e' : Env} {b : Nat} (hf : getWr x e = .ok (e', b)) : e'.map = e.map := by
  unfold getWr at hf
  cases h1 : getObj e x with
  | error y => rw [h1] at hf; cases hf
  | ok y => rw [h1] at hf; cases y <;> cases hf; rfl

theorem setPos_map {x : Nat} {pos : Nat → Nat} {e e' : Env} {b : Unit} (hf : setPos x pos e = .ok (e', b)) : e'.map = e.map := by
  unfold setPos at hf
  cases h1 : getObj e x with
  | error y => rw [h1] at hf; cases hf
  | ok y => rw [h1] at hf; cases y <;> cases hf; rfl

theorem asks_env (a : Asks n P True k) : Asks n P False (.lock .env k) := asks_lock <| a.mono fun _ => .inl rfl

theorem asks_children {dir : Bytes} (hP : ∀ r, P r → ShowsName (.getChildren dir) r n) : ∀ (fuel k : Nat) (r : List Bytes),
    (∀ x ∈ r, n ≠ dir ++ [47] ++ x) → Asks n P True (childrenLoopCode dir fuel k r)
  | 0, _, _, _ => asks_fault
  | fuel + 1, k, r, hr => by
    intro e e' b he
    cases he
    cases hm : mapFind e.map n with
    | some v => exact .inl ⟨trivial, nofun⟩
    | none =>
      refine .inr ⟨id, ?_⟩
      cases hx : e.map[k]? with
      | none =>
        refine asks_leave fun hp => ?_
        obtain ⟨l, x, h1, h2, h3⟩ := hP _ hp
        cases h1
        exact hr x h2 h3
      | some y =>
        have hy : y.1 ≠ n := mapFind_none hm y (List.mem_of_getElem? hx)
        intro e2 e2' b he
        rw [childTest_eq] at he
        cases he
        refine .inr ⟨id, ?_⟩
        show Asks n P True (childrenLoopCode dir fuel (k + 1) (if decide (dir ++ [47] <+: y.1) = true then r ++ [y.1.drop (dir.length + 1)] else r))
        refine asks_children hP fuel _ _ ?_
        split
        · rename_i hd
          obtain ⟨z, hz⟩ := of_decide_eq_true hd
          intro x hx
          rcases List.mem_append.mp hx with hx | hx
          · exact hr x hx
          · rw [List.mem_singleton] at hx
            subst hx
            intro he
            apply hy
            rw [he, ← hz]
            have : dir.length + 1 = (dir ++ [47]).length := by simp
            rw [this, List.drop_left]
        · exact hr

theorem asks_code (o : Op) (n : Bytes) (hn : ¬ MakesName o n) : Asks n (fun r => ShowsName o r n) False (code o) := by
  cases o with
  | newSequential f | newRandomAccess f =>
    refine asks_env ?_
    by_cases hf : f = n
    · subst hf
      refine asks_find trivial (asks_leave ?_)
      rintro ⟨-, x, hx⟩
      cases hx
    · refine asks_find' fun x => ?_
      cases x with
      | none => exact asks_leave fun h => hf h.1
      | some _ => exact asks_index hf fun p => asks_newObj fun _ => asks_leave fun h => hf h.1
  | newWritable f =>
    have hf : f ≠ n := hn
    refine asks_env <| asks_find' fun x => ?_
    cases x with
    | none =>
      exact asks_alloc fun p => asks_through fun i => asks_ref <| asks_assign hf fun _ => asks_newObj fun _ => asks_leave id
    | some p => exact asks_through fun i => asks_withBlocks fun _ => asks_newObj fun _ => asks_leave id
  | newAppendable f =>
    have hf : f ≠ n := hn
    refine asks_env <| asks_index hf fun p => ?_
    cases p with
    | none => exact asks_alloc fun p => asks_through fun i => asks_ref <| asks_newObj fun _ => asks_leave id
    | some i => exact asks_newObj fun _ => asks_leave id
  | fileExists f =>
    refine asks_env ?_
    by_cases hf : f = n
    · subst hf
      refine asks_find trivial (asks_leave ?_)
      rintro ⟨-, hx⟩
      cases hx
    · exact asks_find' fun x => asks_leave fun h => hf h.1
  | getChildren dir =>
    exact asks_env <| asks_same (fun e e' b he => by cases he; rfl) fun _ => asks_children (fun _ h => h) _ _ _ (by simp)
  | removeFile f =>
    refine asks_env ?_
    by_cases hf : f = n
    · subst hf
      refine asks_find trivial (asks_leave ?_)
      rintro ⟨-, hx⟩
      cases hx
    · refine asks_find' fun x => ?_
      cases x with
      | none => exact asks_leave fun h => hf h.1
      | some _ => exact asks_removeInternal hf <| asks_leave fun h => hf h.1
  | createDir f | removeDir f => exact asks_same (fun e e' b he => by cases he; rfl) fun _ => id
  | getFileSize f =>
    refine asks_env ?_
    by_cases hf : f = n
    · subst hf
      refine asks_find trivial (asks_leave ?_)
      rintro ⟨-, x, hx⟩
      cases hx
    · refine asks_find' fun x => ?_
      cases x with
      | none => exact asks_leave fun h => hf h.1
      | some _ => exact asks_index hf fun p => asks_through fun i => asks_withBlocks fun _ => asks_leave fun h => hf h.1
  | renameFile src target =>
    have ht : target ≠ n := hn
    refine asks_env ?_
    by_cases hf : src = n
    · subst hf
      refine asks_find trivial (asks_leave ?_)
      rintro ⟨-, -, hx⟩
      cases hx
    · refine asks_find' fun x => ?_
      cases x with
      | none => exact asks_leave fun h => hf h.1
      | some _ =>
        exact asks_removeInternal ht <| asks_index hf fun p => asks_assign ht fun _ => asks_erase fun _ => asks_leave fun h => hf h.1
  | seqRead x k =>
    refine asks_same (fun _ _ _ => getSeq_map) fun y => asks_withBlocks fun z => ?_
    obtain ⟨s, b⟩ := z
    cases s <;> cases b <;> first | exact id | exact asks_same (fun _ _ _ => setPos_map) fun _ => id
  | seqSkip x k =>
    refine asks_same (fun _ _ _ => getSeq_map) fun y => asks_withBlocks fun z => asks_same (fun _ _ _ => getSeq_map) fun v => ?_
    show Asks _ _ _ (match skipCheck v.2 z with | some s => _ | none => _)
    cases skipCheck v.2 z with
    | some s => exact id
    | none => exact asks_withBlocks fun _ => asks_same (fun _ _ _ => setPos_map) fun _ => id
  | randRead x off k => exact asks_same (fun _ _ _ => getRand_map) fun y => asks_withBlocks fun z => id
  | append x data => exact asks_same (fun _ _ _ => getWr_map) fun y => asks_withBlocks fun z => id
  | close x | flush x | sync x => exact asks_same (fun _ _ _ => getWr_map) fun y => id
  | delete x =>
    refine asks_same (fun e e' b he => ?_) fun y => asks_unref <| asks_same (fun e e' b he => ?_) fun _ => id
    · cases h1 : getObj e x with
      | error y => simp only [h1] at he; cases he
      | ok y => simp only [h1] at he; cases he; rfl
    · cases h1 : getObj e x with
      | error y => simp only [h1] at he; cases he
      | ok y => simp only [h1] at he; cases he; rfl
  | destroyEnv =>
    refine asks_same (fun e e' b he => by cases he; rfl) fun _ => asks_destroy _ _ ?_
    exact asks_act (fun e e' b he hm => by cases he; rfl) fun _ => id

end

end MemConc
end Lsmdb
