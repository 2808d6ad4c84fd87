import Verif.Spec.MemSync
import Verif.Proof.HappensBefore

/-!
# The shared in-memory Env has no data races
-/

namespace Lsmdb
namespace MemConc
open MemEnv
open CacheConc (Tid Prog)

variable {β : Type} {f : Env → M (Env × β)} {e : Env} {m : Part} {i j : Nat}

/-! ## What the statements ignore -/

theorem Ignores.error {x : Fault} : Ignores (β := β) (fun _ => .error x) e m := fun _ _ => rfl

theorem apply_map (c : Change) (h : c.part ≠ .map) (e : Env) (fm : FileMap) :
    c.apply { e with map := fm } = { c.apply e with map := fm } := by
  cases c with
  | map _ => exact absurd rfl h
  | refs i n => simp only [Change.apply]; split <;> rfl
  | content i n => simp only [Change.apply]; split <;> rfl

theorem apply_map_eq (c : Change) (h : c.part ≠ .map) (e : Env) : (c.apply e).map = e.map := by
  cases c with
  | map _ => exact absurd rfl h
  | refs i n => simp only [Change.apply]; split <;> rfl
  | content i n => simp only [Change.apply]; split <;> rfl

theorem apply_objs (c : Change) (e : Env) (os : List (Option Obj)) :
    c.apply { e with objs := os } = { c.apply e with objs := os } := by
  cases c with
  | map _ => rfl
  | refs i n => simp only [Change.apply]; split <;> rfl
  | content i n => simp only [Change.apply]; split <;> rfl

theorem apply_objs_eq (c : Change) (e : Env) : (c.apply e).objs = e.objs := by
  cases c with
  | map _ => rfl
  | refs i n => simp only [Change.apply]; split <;> rfl
  | content i n => simp only [Change.apply]; split <;> rfl

/-- A statement on the map. -/
theorem ignores_map {g : FileMap → M (FileMap × β)} (hm : m ≠ .map)
    (hf : ∀ e, f e = (g e.map).map fun x => ({ e with map := x.1 }, x.2)) : Ignores f e m := by
  rintro c rfl
  rw [hf, hf, apply_map_eq c hm]
  cases g e.map with
  | error x => rfl
  | ok x =>
    show Except.ok (({ c.apply e with map := x.1 } : Env), x.2) = Except.ok (c.apply { e with map := x.1 }, x.2)
    rw [apply_map c hm e x.1]

/-- A statement on the file objects. -/
theorem ignores_objs {g : List (Option Obj) → M (List (Option Obj) × β)}
    (hf : ∀ e, f e = (g e.objs).map fun x => ({ e with objs := x.1 }, x.2)) : Ignores f e m := by
  intro c _
  rw [hf, hf, apply_objs_eq c]
  cases g e.objs with
  | error x => rfl
  | ok x =>
    show Except.ok (({ c.apply e with objs := x.1 } : Env), x.2) = Except.ok (c.apply { e with objs := x.1 }, x.2)
    rw [apply_objs c e x.1]

theorem get_set (l : List (Option FileState)) {i j : Nat} {a f : FileState} (h : l[i]? = some (some f)) :
    (l.set i (some a))[j]? = if i = j then some (some a) else l[j]? := by
  by_cases hij : i = j
  · subst hij
    rw [if_pos rfl, List.getElem?_set_self]
    exact (List.getElem?_eq_some_iff.mp h).1
  · rw [if_neg hij, List.getElem?_set_ne hij]

theorem getFile_eq {s : FileState} (h : e.files[i]? = some (some s)) : getFile e (some i) = .ok (i, s) := by
  unfold getFile
  simp only [h]

theorem apply_other (c : Change) (hc : c.part ≠ .refs i ∧ c.part ≠ .content i) (e : Env) : (c.apply e).files[i]? = e.files[i]? := by
  cases c with
  | map _ => rfl
  | refs j n =>
    have hj : j ≠ i := fun h => hc.1 (h ▸ rfl)
    simp only [Change.apply]
    split
    · rename_i s hs
      exact (get_set _ hs).trans (if_neg hj)
    · rfl
  | content j n =>
    have hj : j ≠ i := fun h => hc.2 (h ▸ rfl)
    simp only [Change.apply]
    split
    · rename_i s hs
      exact (get_set _ hs).trans (if_neg hj)
    · rfl

theorem apply_setFile (c : Change) (hc : c.part ≠ .refs i ∧ c.part ≠ .content i) (e : Env) (s : FileState) :
    c.apply (setFile e i s) = setFile (c.apply e) i s := by
  cases c with
  | map _ => rfl
  | refs j n =>
    have hj : j ≠ i := fun h => hc.1 (h ▸ rfl)
    have : (setFile e i s).files[j]? = e.files[j]? := List.getElem?_set_ne (Ne.symm hj)
    simp only [Change.apply, this]
    split
    · simp only [setFile, List.set_comm _ _ hj]
    · rfl
  | content j n =>
    have hj : j ≠ i := fun h => hc.2 (h ▸ rfl)
    have : (setFile e i s).files[j]? = e.files[j]? := List.getElem?_set_ne (Ne.symm hj)
    simp only [Change.apply, this]
    split
    · simp only [setFile, List.set_comm _ _ hj]
    · rfl

/-- What a change does to the `FileState` itself. -/
def Change.on : Change → FileState → FileState
  | .map _, s => s
  | .refs _ n, s => { s with refs := n }
  | .content _ c, s => { s with blocks := c.blocks, size := c.size }

theorem apply_same (c : Change) (hc : c.part = .refs i ∨ c.part = .content i) {e : Env} {s : FileState} (h : e.files[i]? = some (some s)) :
    c.apply e = setFile e i (c.on s) := by
  cases c with
  | map _ => rcases hc with hc | hc <;> cases hc
  | refs j n => rcases hc with hc | hc <;> cases hc; simp only [Change.apply, h, Change.on]
  | content j n => rcases hc with hc | hc <;> cases hc; simp only [Change.apply, h, Change.on]

theorem apply_none (c : Change) (hc : c.part = .refs i ∨ c.part = .content i) {e : Env} (h : ∀ s, e.files[i]? ≠ some (some s)) :
    c.apply e = e := by
  cases c with
  | map _ => rcases hc with hc | hc <;> cases hc
  | refs j n =>
    rcases hc with hc | hc <;> cases hc
    simp only [Change.apply]
  | content j n =>
    rcases hc with hc | hc <;> cases hc
    simp only [Change.apply]

/-- A statement on a `FileState`. -/
def onFile (i : Nat) (g : FileState → M (FileState × β)) (e : Env) : M (Env × β) := do
  let (i, s) ← getFile e (some i)
  let (s', b) ← g s
  return (setFile e i s', b)

theorem onFile_eq {g : FileState → M (FileState × β)} {s : FileState} (h : e.files[i]? = some (some s)) :
    onFile i g e = (g s).map fun x => (setFile e i x.1, x.2) := by
  unfold onFile
  rw [getFile_eq h]
  show (g s >>= fun x => _) = _
  cases g s <;> rfl

theorem getFile_error (h : ∀ s, e.files[i]? ≠ some (some s)) :
    ∃ x : Fault, ∀ e' : Env, e'.files[i]? = e.files[i]? → getFile e' (some i) = .error x := by
  cases h1 : e.files[i]? with
  | none => exact ⟨.outOfBounds, fun e' h' => by unfold getFile; simp only [h']⟩
  | some a =>
    cases a with
    | none => exact ⟨.useAfterFree, fun e' h' => by unfold getFile; simp only [h']⟩
    | some s => exact absurd h1 (h s)

theorem ignores_onFile {g : FileState → M (FileState × β)}
    (h : ∀ c : Change, c.part = m → c.part = .refs i ∨ c.part = .content i → ∀ s, g (c.on s) = (g s).map fun x => (c.on x.1, x.2)) :
    Ignores (onFile i g) e m := by
  rintro c hm
  by_cases hl : ∃ s, e.files[i]? = some (some s)
  · obtain ⟨s, hs⟩ := hl
    by_cases hc : c.part = .refs i ∨ c.part = .content i
    · have e1 := apply_same c hc hs
      have h1 : (c.apply e).files[i]? = some (some (c.on s)) := by
        rw [e1]; exact (get_set _ hs).trans (if_pos rfl)
      rw [onFile_eq h1, onFile_eq hs, h c hm hc]
      cases g s with
      | error x => rfl
      | ok x =>
        show Except.ok (setFile (c.apply e) i (c.on x.1), x.2) = Except.ok (c.apply (setFile e i x.1), x.2)
        have h2 : (setFile e i x.1).files[i]? = some (some x.1) := (get_set _ hs).trans (if_pos rfl)
        rw [e1, apply_same c hc h2]
        simp only [setFile, List.set_set]
    · have hc' : c.part ≠ .refs i ∧ c.part ≠ .content i := ⟨fun h => hc (.inl h), fun h => hc (.inr h)⟩
      have h1 : (c.apply e).files[i]? = some (some s) := by rw [apply_other c hc']; exact hs
      rw [onFile_eq h1, onFile_eq hs]
      cases g s with
      | error x => rfl
      | ok x =>
        show Except.ok (setFile (c.apply e) i x.1, x.2) = Except.ok (c.apply (setFile e i x.1), x.2)
        rw [apply_setFile c hc']
  · have hl' : ∀ s, e.files[i]? ≠ some (some s) := fun s hs => hl ⟨s, hs⟩
    obtain ⟨x, hx⟩ := getFile_error hl'
    have h1 : (c.apply e).files[i]? = e.files[i]? := by
      by_cases hc : c.part = .refs i ∨ c.part = .content i
      · rw [apply_none c hc hl']
      · exact apply_other c ⟨fun h => hc (.inl h), fun h => hc (.inr h)⟩ e
    unfold onFile
    rw [hx e rfl, hx _ h1]
    rfl

/-! ## The methods hold the mutexes -/

/-- The mutex that protects a part. -/
def Part.guard : Part → Lock
  | .map => .env
  | .refs i => .refs i
  | .content i => .blocks i

/-- With the mutexes `L` held, the code touches only what it holds the mutex of; the destructor of the Env (`d`) may touch the map. -/
def Locked (d : Prop) : Code → (Lock → Prop) → Prop
  | .ret _, _ => True
  | .act f next, L => (∀ e m, m.In e → (d → m ≠ .map) → ¬ L m.guard → Ignores f e m) ∧ ∀ b, Locked d (next b) L
  | .lock l next, L => Locked d next (fun l' => l' = l ∨ L l')
  | .unlock l next, L => Locked d next (fun l' => l' ≠ l ∧ L l')
  | .free _ next, L => Locked d next L
  | .gone next, L => Locked d next L

theorem Locked.mono {d : Prop} : ∀ {c : Code} {L L' : Lock → Prop}, Locked d c L → (∀ l, L l → L' l) → Locked d c L' := by
  intro c
  induction c with
  | ret r => intro _ _ _ _; trivial
  | act f next ih => intro L L' h hl; exact ⟨fun e m h1 h2 h3 => h.1 e m h1 h2 fun h4 => h3 (hl _ h4), fun b => ih b (h.2 b) hl⟩
  | lock l next ih => intro L L' h hl; exact ih h fun l' h' => h'.imp id (hl l')
  | unlock l next ih => intro L L' h hl; exact ih h fun l' h' => ⟨h'.1, hl l' h'.2⟩
  | free i next ih => intro L L' h hl; exact ih h hl
  | gone next ih => intro L L' h hl; exact ih h hl

/-- No mutex is held, or, if `a`, that of the Env. -/
def Only (a : Prop) (l : Lock) : Prop := l = .env ∧ a

section
variable {d a : Prop} {k : Code}

theorem locked_lock {l : Lock} {L : Lock → Prop} (h : Locked d k (fun l' => l' = l ∨ L l')) : Locked d (.lock l k) L := h

theorem locked_unlock {l : Lock} {L : Lock → Prop} (h : Locked d k (fun l' => l' ≠ l ∧ L l')) : Locked d (.unlock l k) L := h

theorem locked_fault {x : Fault} {L : Lock → Prop} {next : β → Code} (h : ∀ b, Locked d (next b) L) :
    Locked d (.act (fun _ => .error x) next) L := ⟨fun _ _ _ _ _ => .error, h⟩

theorem locked_onFile {g : FileState → M (FileState × β)} {L : Lock → Prop} {next : β → Code} (hf : ∀ e, f e = onFile i g e)
    (hg : ∀ c : Change, c.part = .refs i ∨ c.part = .content i → ¬ L c.part.guard → ∀ s, g (c.on s) = (g s).map fun x => (c.on x.1, x.2))
    (h : ∀ b, Locked d (next b) L) : Locked d (.act f next) L := by
  have : f = onFile i g := funext hf
  subst this
  exact ⟨fun e m _ _ hm => ignores_onFile fun c hc hp => hg c hp (by rw [hc]; exact hm), h⟩

theorem locked_map {g : FileMap → M (FileMap × β)} {L : Lock → Prop} {next : β → Code} (hd : d ∨ L .env)
    (hf : ∀ e, f e = (g e.map).map fun x => ({ e with map := x.1 }, x.2)) (h : ∀ b, Locked d (next b) L) : Locked d (.act f next) L :=
  ⟨fun e m _ h1 h2 => ignores_map (by rintro rfl; exact hd.elim (fun hd => h1 hd rfl) h2) hf, h⟩

theorem locked_objs {g : List (Option Obj) → M (List (Option Obj) × β)} {L : Lock → Prop} {next : β → Code}
    (hf : ∀ e, f e = (g e.objs).map fun x => ({ e with objs := x.1 }, x.2)) (h : ∀ b, Locked d (next b) L) : Locked d (.act f next) L :=
  ⟨fun _ _ _ _ _ => ignores_objs hf, h⟩

theorem locked_steps {p : Prog Content β} {k : β → Code} {L : Lock → Prop} (hL : L (.blocks i)) (h : ∀ b, Locked d (k b) L) :
    Locked d (steps i p k) L := by
  induction p with
  | done b => exact h b
  | step f next ih =>
    refine locked_onFile (i := i) (g := fun s => do
      let (c, b) ← f ⟨s.blocks, s.size⟩
      return ({ s with blocks := c.blocks, size := c.size }, b)) ?_ ?_ fun b => ih b
    · intro e
      unfold onContent onFile
      cases getFile e (some i) with
      | error x => rfl
      | ok y =>
        obtain ⟨j, s⟩ := y
        show (f _ >>= fun x => _) = ((f _ >>= fun x => _) >>= fun x => _)
        cases f ⟨s.blocks, s.size⟩ <;> rfl
    · rintro c (hc | hc) hn s
      · cases c <;> cases hc
        show (f ⟨s.blocks, s.size⟩ >>= fun x => _) = (f ⟨s.blocks, s.size⟩ >>= fun x => _).map _
        cases f ⟨s.blocks, s.size⟩ <;> rfl
      · rw [hc] at hn
        exact absurd hL hn

theorem only_add {a : Prop} {l l' : Lock} (h : Only a l') (hl : l ≠ .env) : l' ≠ l ∧ (l' = l ∨ Only a l') :=
  ⟨fun e => hl (e ▸ h.1), .inr h⟩

theorem locked_withBlocks {p : Prog Content β} {k : β → Code} (h : ∀ b, Locked d (k b) (Only a)) :
    Locked d (withBlocks i p k) (Only a) :=
  locked_steps (.inl rfl) fun b => (h b).mono fun _ h => only_add h (by simp)

theorem locked_ref (h : Locked d k (Only a)) : Locked d (refCode i k) (Only a) := by
  refine locked_lock (l := .refs i) ?_
  refine locked_onFile (i := i) (g := fun s => if s.refs + 1 > 2147483647 then .error .arith else .ok ({ s with refs := s.refs + 1 }, ())) ?_ ?_
    fun _ => h.mono fun _ h => only_add h (by simp)
  · intro e
    unfold Ref onFile
    cases getFile e (some i) with
    | error x => rfl
    | ok y =>
      obtain ⟨j, s⟩ := y
      show ((if s.refs + 1 > 2147483647 then _ else _) >>= fun x => _) = ((if s.refs + 1 > 2147483647 then _ else _) >>= fun x => _)
      split <;> rfl
  · rintro c (hc | hc) hn s
    · rw [hc] at hn; exact absurd (.inl rfl) hn
    · cases c <;> cases hc
      show (if s.refs + 1 > 2147483647 then _ else _) = Except.map _ (if s.refs + 1 > 2147483647 then _ else _)
      split <;> rfl

theorem locked_unref (h : Locked d k (Only a)) : Locked d (unrefCode i k) (Only a) := by
  refine locked_lock (l := .refs i) ?_
  refine locked_onFile (i := i) (g := fun s => .ok ({ s with refs := s.refs - 1 }, ())) ?_ ?_ fun _ => ?_
  · intro e
    unfold decRefs onFile
    cases getFile e (some i) <;> rfl
  · rintro c (hc | hc) hn s
    · rw [hc] at hn; exact absurd (.inl rfl) hn
    · cases c <;> cases hc
      rfl
  · refine locked_onFile (i := i) (g := fun s => do cassert (decide (s.refs ≥ 0)); return (s, decide (s.refs ≤ 0))) ?_ ?_ fun b => ?_
    · intro e
      unfold testRefs onFile
      cases h : getFile e (some i) with
      | error x => rfl
      | ok y =>
        obtain ⟨j, s⟩ := y
        have hs : setFile e j s = e := by
          unfold getFile at h
          simp only at h
          split at h
          · cases h
          · cases h
          · rename_i f hf
            cases h
            unfold setFile
            congr 1
            apply List.ext_getElem?
            intro k
            rw [get_set _ hf]
            split
            · rename_i hk; rw [← hk, hf]
            · rfl
        show (cassert (decide (s.refs ≥ 0)) >>= fun _ => _) = ((cassert (decide (s.refs ≥ 0)) >>= fun _ => _) >>= fun x => _)
        cases cassert (decide (s.refs ≥ 0)) with
        | error x => rfl
        | ok u => show Except.ok (e, _) = Except.ok (setFile e j s, _); rw [hs]
    · rintro c (hc | hc) hn s
      · rw [hc] at hn; exact absurd (.inl rfl) hn
      · cases c <;> cases hc
        show (cassert (decide (s.refs ≥ 0)) >>= fun x => _) = (cassert (decide (s.refs ≥ 0)) >>= fun x => _).map _
        cases cassert (decide (s.refs ≥ 0)) <;> rfl
    · refine locked_unlock (l := .refs i) ?_
      refine Locked.mono (L := Only a) ?_ fun _ h => only_add h (by simp)
      cases b
      · exact h
      · exact locked_withBlocks fun _ => h

theorem locked_leave {r : Res} {L : Lock → Prop} : Locked d (leave r) L := trivial

theorem locked_through {p : Option Nat} {k : Nat → Code} {L : Lock → Prop} (h : ∀ i, Locked d (k i) L) : Locked d (through p k) L := by
  cases p with
  | none => exact locked_fault fun _ => trivial
  | some i => exact h i

theorem locked_newObj {p : Option Nat} {mk : Nat → Obj} {k : Nat → Code} (h : ∀ n, Locked d (k n) (Only a)) :
    Locked d (newObjCode p mk k) (Only a) :=
  locked_through fun i => locked_ref <| locked_objs (g := fun os => .ok (os ++ [some (mk i)], os.length)) (fun _ => rfl) h

theorem locked_find {n : Bytes} {next : Option (Option Nat) → Code} (hd : d ∨ a) (h : ∀ b, Locked d (next b) (Only a)) :
    Locked d (.act (find n) next) (Only a) :=
  locked_map (g := fun m => .ok (m, mapFind m n)) (hd.imp id fun h => ⟨rfl, h⟩) (fun _ => rfl) h

theorem locked_index {n : Bytes} {next : Option Nat → Code} (hd : d ∨ a) (h : ∀ b, Locked d (next b) (Only a)) :
    Locked d (.act (index n) next) (Only a) :=
  locked_map (g := fun m => .ok ((mapIndex m n).2, (mapIndex m n).1)) (hd.imp id fun h => ⟨rfl, h⟩) (fun _ => rfl) h

theorem locked_assign {n : Bytes} {p : Option Nat} {next : Unit → Code} (hd : d ∨ a) (h : ∀ b, Locked d (next b) (Only a)) :
    Locked d (.act (assign n p) next) (Only a) :=
  locked_map (g := fun m => .ok (mapSet m n p, ())) (hd.imp id fun h => ⟨rfl, h⟩) (fun _ => rfl) h

theorem locked_erase {n : Bytes} {next : Unit → Code} (hd : d ∨ a) (h : ∀ b, Locked d (next b) (Only a)) :
    Locked d (.act (erase n) next) (Only a) :=
  locked_map (g := fun m => .ok (mapErase m n, ())) (hd.imp id fun h => ⟨rfl, h⟩) (fun _ => rfl) h

theorem locked_alloc {next : Option Nat → Code} {L : Lock → Prop} (h : ∀ b, Locked d (next b) L) : Locked d (.act alloc next) L := by
  refine ⟨?_, h⟩
  rintro e m hm - - c rfl
  have app : ∀ (i : Nat) (s : FileState), e.files[i]? = some (some s) → (e.files ++ [some FileState.new])[i]? = some (some s) :=
    fun i s hs => by rw [List.getElem?_append_left (List.getElem?_eq_some_iff.mp hs).1]; exact hs
  show Except.ok (_, some (c.apply e).files.length) = Except.ok (c.apply { e with files := e.files ++ [some FileState.new] }, some e.files.length)
  cases c with
  | map m => rfl
  | refs i n =>
    obtain ⟨s, hs⟩ := hm
    have hl := (List.getElem?_eq_some_iff.mp hs).1
    simp only [Change.apply, hs, app i s hs, setFile, List.length_set, List.set_append_left _ _ hl]
  | content i n =>
    obtain ⟨s, hs⟩ := hm
    have hl := (List.getElem?_eq_some_iff.mp hs).1
    simp only [Change.apply, hs, app i s hs, setFile, List.length_set, List.set_append_left _ _ hl]

theorem locked_env (h : Locked d k (Only True)) : Locked d (.lock .env k) (Only False) :=
  locked_lock (h.mono fun _ h => .inl h.1)

theorem locked_removeInternal {n : Bytes} (hd : d ∨ a) (h : Locked d k (Only a)) : Locked d (removeInternalCode n k) (Only a) :=
  locked_find hd fun x => by
    cases x with
    | none => exact h
    | some _ => exact locked_index hd fun p => locked_through fun i => locked_unref <| locked_erase hd fun _ => h

theorem locked_children {dir : Bytes} : ∀ (fuel k : Nat) (r : List Bytes), Locked d (childrenLoopCode dir fuel k r) (Only True)
  | 0, _, _ => locked_fault fun _ => trivial
  | fuel + 1, k, r => by
    refine locked_map (g := fun m => .ok (m, m[k]?)) (.inr ⟨rfl, trivial⟩) (fun _ => rfl) fun x => ?_
    cases x with
    | none => exact locked_leave
    | some y =>
      refine locked_map (g := fun m => do return (m, ← childTest y.1 dir)) (.inr ⟨rfl, trivial⟩) (fun e => ?_) fun b =>
        locked_children fuel _ _
      cases childTest y.1 dir <;> rfl

theorem locked_destroy (hd : d) : ∀ (fuel k : Nat) {c : Code}, Locked d c (Only False) → Locked d (destroyLoopCode fuel k c) (Only False)
  | 0, _, _, _ => locked_fault fun _ => trivial
  | fuel + 1, k, c, h => by
    refine locked_map (g := fun m => .ok (m, m[k]?)) (.inl hd) (fun _ => rfl) fun x => ?_
    cases x with
    | none => exact h
    | some y => exact locked_through fun i => locked_unref <| locked_destroy hd fuel _ h

/-- A statement that only looks at a file object. -/
theorem locked_obj {h : Nat} {g : Obj → M β} {L : Lock → Prop} {next : β → Code}
    (hf : ∀ e, f e = (do let x ← getObj e h; let b ← g x; return (e, b))) (hn : ∀ b, Locked d (next b) L) : Locked d (.act f next) L := by
  refine locked_objs (g := fun os => do
    let x ← getObj ⟨[], [], os, []⟩ h
    let b ← g x
    return (os, b)) (fun e => ?_) hn
  rw [hf]
  have : getObj e h = getObj ⟨[], [], e.objs, []⟩ h := rfl
  rw [this]
  cases getObj ⟨[], [], e.objs, []⟩ h with
  | error x => rfl
  | ok x =>
    show (g x >>= fun b => _) = (g x >>= fun b => _).map _
    cases g x <;> rfl

theorem locked_getSeq {h : Nat} {L : Lock → Prop} {next : Nat × Nat → Code} (hn : ∀ b, Locked d (next b) L) :
    Locked d (.act (getSeq h) next) L := by
  refine locked_obj (h := h) (g := fun x => match x with | .seq f p => .ok (f, p) | _ => .error .outOfBounds) (fun e => ?_) hn
  unfold getSeq
  cases getObj e h with
  | error x => rfl
  | ok x => cases x <;> rfl

theorem locked_getRand {h : Nat} {L : Lock → Prop} {next : Nat → Code} (hn : ∀ b, Locked d (next b) L) :
    Locked d (.act (getRand h) next) L := by
  refine locked_obj (h := h) (g := fun x => match x with | .rand f => .ok f | _ => .error .outOfBounds) (fun e => ?_) hn
  unfold getRand
  cases getObj e h with
  | error x => rfl
  | ok x => cases x <;> rfl

theorem locked_getWr {h : Nat} {L : Lock → Prop} {next : Nat → Code} (hn : ∀ b, Locked d (next b) L) :
    Locked d (.act (getWr h) next) L := by
  refine locked_obj (h := h) (g := fun x => match x with | .wr f => .ok f | _ => .error .outOfBounds) (fun e => ?_) hn
  unfold getWr
  cases getObj e h with
  | error x => rfl
  | ok x => cases x <;> rfl

theorem locked_setPos {h : Nat} {pos : Nat → Nat} {L : Lock → Prop} {next : Unit → Code} (hn : ∀ b, Locked d (next b) L) :
    Locked d (.act (setPos h pos) next) L := by
  refine locked_objs (g := fun os => do
    match ← getObj ⟨[], [], os, []⟩ h with
    | .seq file old => return (os.set h (some (.seq file (pos old))), ())
    | _ => .error .outOfBounds) (fun e => ?_) hn
  have : getObj e h = getObj ⟨[], [], e.objs, []⟩ h := rfl
  unfold setPos
  rw [this]
  cases getObj ⟨[], [], e.objs, []⟩ h with
  | error x => rfl
  | ok x => cases x <;> rfl

theorem locked_code (o : Op) : Locked (o = .destroyEnv) (code o) (Only False) := by
  cases o with
  | newSequential n | newRandomAccess n =>
    refine locked_env <| locked_find (.inr trivial) fun x => ?_
    cases x with
    | none => exact locked_leave
    | some _ => exact locked_index (.inr trivial) fun p => locked_newObj fun _ => locked_leave
  | newWritable n =>
    refine locked_env <| locked_find (.inr trivial) fun x => ?_
    cases x with
    | none =>
      exact locked_alloc fun p => locked_through fun i => locked_ref <| locked_assign (.inr trivial) fun _ =>
        locked_newObj fun _ => locked_leave
    | some p => exact locked_through fun i => locked_withBlocks fun _ => locked_newObj fun _ => locked_leave
  | newAppendable n =>
    refine locked_env <| locked_index (.inr trivial) fun p => ?_
    cases p with
    | none => exact locked_alloc fun p => locked_through fun i => locked_ref <| locked_newObj fun _ => locked_leave
    | some i => exact locked_newObj fun _ => locked_leave
  | fileExists n => exact locked_env <| locked_find (.inr trivial) fun x => locked_leave
  | getChildren dir =>
    exact locked_env <| locked_map (g := fun m => .ok (m, m.length)) (.inr ⟨rfl, trivial⟩) (fun _ => rfl) fun _ => locked_children _ _ _
  | removeFile n =>
    refine locked_env <| locked_find (.inr trivial) fun x => ?_
    cases x with
    | none => exact locked_leave
    | some _ => exact locked_removeInternal (.inr trivial) locked_leave
  | createDir n | removeDir n => exact locked_objs (g := fun os => .ok (os, ())) (fun _ => rfl) fun _ => trivial
  | getFileSize n =>
    refine locked_env <| locked_find (.inr trivial) fun x => ?_
    cases x with
    | none => exact locked_leave
    | some _ => exact locked_index (.inr trivial) fun p => locked_through fun i => locked_withBlocks fun _ => locked_leave
  | renameFile src target =>
    refine locked_env <| locked_find (.inr trivial) fun x => ?_
    cases x with
    | none => exact locked_leave
    | some _ =>
      exact locked_removeInternal (.inr trivial) <| locked_index (.inr trivial) fun p => locked_assign (.inr trivial) fun _ =>
        locked_erase (.inr trivial) fun _ => locked_leave
  | seqRead h n =>
    refine locked_getSeq fun x => locked_withBlocks fun y => ?_
    obtain ⟨s, b⟩ := y
    cases s <;> cases b <;> first | trivial | exact locked_setPos fun _ => trivial
  | seqSkip h n =>
    refine locked_getSeq fun x => locked_withBlocks fun y => locked_getSeq fun z => ?_
    show Locked _ (match skipCheck z.2 y with | some s => _ | none => _) _
    cases skipCheck z.2 y with
    | some s => trivial
    | none => exact locked_withBlocks fun _ => locked_setPos fun _ => trivial
  | randRead h off n => exact locked_getRand fun x => locked_withBlocks fun y => trivial
  | append h data => exact locked_getWr fun x => locked_withBlocks fun y => trivial
  | close h | flush h | sync h => exact locked_getWr fun x => trivial
  | delete h =>
    refine locked_obj (h := h) (g := fun x => .ok x.file) (fun e => ?_) fun file => locked_unref ?_
    · cases getObj e h <;> rfl
    · refine locked_objs (g := fun os => do let _ ← getObj ⟨[], [], os, []⟩ h; return (os.set h none, ())) (fun e => ?_) fun _ => trivial
      have : getObj e h = getObj ⟨[], [], e.objs, []⟩ h := rfl
      rw [this]
      cases getObj ⟨[], [], e.objs, []⟩ h <;> rfl
  | destroyEnv =>
    refine locked_map (g := fun m => .ok (m, m.length)) (.inl rfl) (fun _ => rfl) fun _ => locked_destroy rfl _ _ ?_
    exact locked_map (g := fun m => .ok ([], ())) (.inl rfl) (fun _ => rfl) fun _ => trivial

end

end MemConc
end Lsmdb
