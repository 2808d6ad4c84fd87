import Verif.Proof.MemRace1

/-!
# The locks are held where the statements access what they guard
-/

namespace Lsmdb
namespace MemConc
open MemEnv Spec
open CacheConc (Tid Prog)

/-- A call that holds the locks may read the location. -/
def MayRead (o : Op) (ls : List Lock) : Loc → Prop
  | .map => target o = none ∧ (.env ∈ ls ∨ o = .destroyEnv)
  | .refs i => .refs i ∈ ls
  | .content i => .blocks i ∈ ls
  | .obj h => target o = some h
  | .mutex _ => False

/-- It may write the location. -/
def MayWrite (o : Op) (ls : List Lock) : Loc → Prop
  | .obj h => target o = some h ∧ ¬ Shared o
  | l => MayRead o ls l

/-- It may make new objects. -/
def MayNew (o : Op) (ls : List Lock) : Prop := target o = none ∧ .env ∈ ls

/-- The statement accesses what it may. -/
def Fine (o : Op) (ls : List Lock) {β : Type} (f : Env → M (Env × β)) : Prop :=
  ∃ R W N, Foot R W N f ∧ (∀ l, R l → MayRead o ls l) ∧ (∀ l, W l → MayWrite o ls l) ∧ (N → MayNew o ls)

/-- The code, with these locks held (the newest first), releases them in reverse order and accesses what it may. -/
def Disc (o : Op) : List Lock → Code → Prop
  | ls, .ret _ => ls = []
  | ls, .act f next => Fine o ls f ∧ ∀ b, (∃ e e', f e = .ok (e', b)) → Disc o ls (next b)
  | ls, .lock l next => (l = .env → target o = none) ∧ Disc o (l :: ls) next
  | ls, .unlock l next => ∃ ls', ls = l :: ls' ∧ Disc o ls' next
  | ls, .free _ next => Disc o ls next
  | ls, .gone next => o = .destroyEnv ∧ Disc o ls next

section
variable {o : Op} {ls : List Lock}

theorem fine_none {β : Type} (f : Unit → M β) : Fine o ls (fun e => (f ()).map fun b => (e, b)) :=
  ⟨_, _, _, foot_none f, fun _ h => h.elim, fun _ h => h.elim, fun h => h.elim⟩

theorem fine_error {β : Type} (x : Fault) : Fine o ls (β := β) (fun _ => .error x) := fine_none fun _ => .error x

theorem fine_skip {β : Type} (b : β) : Fine o ls (fun e => .ok (e, b)) := fine_none fun _ => .ok b

theorem fine_map {β : Type} (hm : MayRead o ls .map) (g : FileMap → FileMap × β) :
    Fine o ls (fun e => .ok ({ e with map := (g e.map).1 }, (g e.map).2)) :=
  ⟨_, _, _, foot_map g, fun _ h => by cases h; exact hm, fun _ h => by cases h; exact hm, fun h => h.elim⟩

theorem fine_refs {β : Type} {i : Nat} (hm : .refs i ∈ ls) (g : Int → M (Int × β)) : Fine o ls (fun e => do
      let (i, f) ← getFile e (some i)
      let (n, b) ← g f.refs
      return (setFile e i { f with refs := n }, b)) :=
  ⟨_, _, _, foot_refs i g, fun _ h => by cases h; exact hm, fun _ h => by cases h; exact hm, fun h => h.elim⟩

theorem fine_content {β : Type} {i : Nat} (hm : .blocks i ∈ ls) (g : Content → M (Content × β)) : Fine o ls (onContent i g) :=
  ⟨_, _, _, foot_content i g, fun _ h => by cases h; exact hm, fun _ h => by cases h; exact hm, fun h => h.elim⟩

theorem fine_obj {β : Type} {h : Nat} (hm : target o = some h) (g : Obj → M β) :
    Fine o ls (fun e => do return (e, ← g (← getObj e h))) :=
  ⟨_, _, _, foot_obj h g, fun _ h => by cases h; exact hm, fun _ h => h.elim, fun h => h.elim⟩

theorem fine_setObj {h : Nat} (hm : target o = some h) (hs : ¬ Shared o) (g : Obj → M (Option Obj)) : Fine o ls (fun e => do
      let x ← g (← getObj e h)
      return ({ e with objs := e.objs.set h x }, ())) :=
  ⟨_, _, _, foot_setObj h g, fun _ h => by cases h; exact hm, fun _ h => by cases h; exact ⟨hm, hs⟩, fun h => h.elim⟩

theorem fine_alloc (hm : MayNew o ls) : Fine o ls alloc :=
  ⟨_, _, _, foot_alloc, fun _ h => h.elim, fun _ h => h.elim, fun _ => hm⟩

theorem fine_newObj (hm : MayNew o ls) (x : Obj) : Fine o ls (fun e => .ok ({ e with objs := e.objs ++ [some x] }, e.objs.length)) :=
  ⟨_, _, _, foot_newObj x, fun _ h => h.elim, fun _ h => h.elim, fun _ => hm⟩

theorem Fine.eq {β : Type} {f g : Env → M (Env × β)} (h : Fine o ls f) (e : ∀ x, g x = f x) : Fine o ls g := (funext e : g = f) ▸ h

theorem fine_find (hm : MayRead o ls .map) (n : Bytes) : Fine o ls (find n) := (fine_map hm fun m => (m, mapFind m n)).eq fun _ => rfl

theorem fine_index (hm : MayRead o ls .map) (n : Bytes) : Fine o ls (index n) :=
  (fine_map hm fun m => ((mapIndex m n).2, (mapIndex m n).1)).eq fun _ => rfl

theorem fine_assign (hm : MayRead o ls .map) (n : Bytes) (p : Option Nat) : Fine o ls (assign n p) :=
  (fine_map hm fun m => (mapSet m n p, ())).eq fun _ => rfl

theorem fine_erase (hm : MayRead o ls .map) (n : Bytes) : Fine o ls (erase n) :=
  (fine_map hm fun m => (mapErase m n, ())).eq fun _ => rfl

/-! ## The pieces of code -/

theorem disc_act {β : Type} {f : Env → M (Env × β)} {next : β → Code} (h : Fine o ls f) (hn : ∀ b, Disc o ls (next b)) :
    Disc o ls (.act f next) := ⟨h, fun b _ => hn b⟩

theorem disc_lock {l : Lock} {next : Code} (hl : l ≠ .env) (h : Disc o (l :: ls) next) : Disc o ls (.lock l next) :=
  ⟨fun e => absurd e hl, h⟩

theorem disc_unlock {l : Lock} {next : Code} (h : Disc o ls next) : Disc o (l :: ls) (.unlock l next) := ⟨ls, rfl, h⟩

theorem disc_gone {next : Code} (h : Disc .destroyEnv ls next) : Disc .destroyEnv ls (.gone next) := ⟨rfl, h⟩

theorem disc_ret (r : Res) : Disc o [] (.ret r) := rfl

theorem disc_error {β : Type} {x : Fault} {next : β → Code} : Disc o ls (.act (fun _ => .error x) next) :=
  ⟨fine_error x, fun _ h => by obtain ⟨_, _, h⟩ := h; cases h⟩

theorem disc_through {p : Option Nat} {k : Nat → Code} (h : ∀ i, Disc o ls (k i)) : Disc o ls (through p k) := by
  cases p with
  | none => exact disc_error
  | some i => exact h i

theorem disc_steps {β : Type} {i : Nat} {k : β → Code} (hm : .blocks i ∈ ls) (h : ∀ b, Disc o ls (k b)) (p : Prog Content β) :
    Disc o ls (steps i p k) := by
  induction p with
  | done b => exact h b
  | step f next ih => exact disc_act (fine_content hm f) ih

theorem disc_withBlocks {β : Type} {i : Nat} {k : β → Code} (p : Prog Content β) (h : ∀ b, Disc o ls (k b)) :
    Disc o ls (withBlocks i p k) :=
  disc_lock (by simp) (disc_steps (by simp) (fun b => disc_unlock (h b)) p)

theorem disc_ref {i : Nat} {k : Code} (h : Disc o ls k) : Disc o ls (refCode i k) := by
  refine disc_lock (by simp) (disc_act ?_ fun _ => disc_unlock h)
  refine (fine_refs (i := i) (by simp) fun n => if n + 1 > 2147483647 then .error .arith else .ok (n + 1, ())).eq fun e => ?_
  unfold Ref
  cases getFile e (some i) with
  | error x => rfl
  | ok r =>
    show ((if r.2.refs + 1 > 2147483647 then .error .arith else pure (setFile e r.1 { r.2 with refs := r.2.refs + 1 }) : M Env) >>= fun x => (pure (x, ()) : M (Env × Unit))) =
      ((if r.2.refs + 1 > 2147483647 then .error .arith else .ok (r.2.refs + 1, ()) : M (Int × Unit)) >>= _)
    split <;> rfl

theorem disc_unref {i : Nat} {k : Code} (h : Disc o ls k) : Disc o ls (unrefCode i k) := by
  refine disc_lock (by simp) (disc_act ?_ fun _ => disc_act ?_ fun b => disc_unlock ?_)
  · exact (fine_refs (i := i) (by simp) fun n => .ok (n - 1, ())).eq fun e => rfl
  · refine (fine_refs (i := i) (by simp) fun n => do cassert (decide (n ≥ 0)); return (n, decide (n ≤ 0))).eq fun e => ?_
    unfold testRefs
    cases hg : getFile e (some i) with
    | error x => rfl
    | ok r =>
      obtain ⟨j, f⟩ := r
      obtain ⟨rfl, hf⟩ := getFile_fileAt hg
      have hset : setFile e j f = e := by
        unfold fileAt at hf
        unfold setFile
        cases hx : e.files[j]? with
        | none => rw [hx] at hf; cases hf
        | some x =>
          rw [hx] at hf
          have hf : x = some f := hf
          subst hf
          have : e.files.set j (some f) = e.files := by
            apply List.ext_getElem? ; intro k
            rw [List.getElem?_set]
            split
            · next hk => subst hk; rw [hx]; simp [(List.getElem?_eq_some_iff.1 hx).1]
            · rfl
          rw [this]
      show (do cassert (decide (f.refs ≥ 0)); return (e, decide (f.refs ≤ 0)) : M (Env × Bool)) =
        ((do cassert (decide (f.refs ≥ 0)); return (f.refs, decide (f.refs ≤ 0)) : M (Int × Bool)) >>= fun r =>
          (pure (setFile e j { f with refs := r.1 }, r.2) : M (Env × Bool)))
      cases cassert (decide (f.refs ≥ 0)) with
      | error x => rfl
      | ok _ => show Except.ok (e, _) = Except.ok (setFile e j f, _); rw [hset]
  · cases b
    · exact h
    · exact disc_withBlocks _ fun _ => h

theorem disc_newObj {p : Option Nat} {mk : Nat → Obj} {k : Nat → Code} (hm : MayNew o ls) (h : ∀ x, Disc o ls (k x)) :
    Disc o ls (newObjCode p mk k) :=
  disc_through fun i => disc_ref (disc_act (fine_newObj hm (mk i)) h)

theorem disc_leave (r : Res) : Disc o [.env] (leave r) := ⟨[], rfl, rfl⟩

theorem map_env (ht : target o = none) : MayRead o [.env] .map := ⟨ht, .inl (by simp)⟩

theorem new_env (ht : target o = none) : MayNew o [.env] := ⟨ht, by simp⟩

theorem disc_open (ht : target o = none) (n : Bytes) (mk : Nat → Obj) : Disc o [] (openCode n mk) := by
  refine ⟨fun _ => ht, disc_act (fine_find (map_env ht) n) fun x => ?_⟩
  cases x with
  | none => exact disc_leave _
  | some p =>
    exact disc_act (fine_index (map_env ht) n) fun p => disc_newObj (new_env ht) fun h => disc_leave _

theorem disc_newWritable (ht : target o = none) (n : Bytes) : Disc o [] (newWritableCode n) := by
  refine ⟨fun _ => ht, disc_act (fine_find (map_env ht) n) fun x => ?_⟩
  cases x with
  | none =>
    exact disc_act (fine_alloc (new_env ht)) fun p => disc_through fun i => disc_ref <|
      disc_act (fine_assign (map_env ht) n p) fun _ => disc_newObj (new_env ht) fun h => disc_leave _
  | some p =>
    exact disc_through fun i => disc_withBlocks _ fun _ => disc_newObj (new_env ht) fun h => disc_leave _

theorem disc_newAppendable (ht : target o = none) (n : Bytes) : Disc o [] (newAppendableCode n) := by
  refine ⟨fun _ => ht, disc_act (fine_index (map_env ht) n) fun x => ?_⟩
  cases x with
  | none =>
    exact disc_act (fine_alloc (new_env ht)) fun p => disc_through fun i => disc_ref <|
      disc_newObj (new_env ht) fun h => disc_leave _
  | some p => exact disc_newObj (new_env ht) fun h => disc_leave _

theorem disc_childrenLoop (ht : target o = none) (dir : Bytes) : ∀ fuel k result, Disc o [.env] (childrenLoopCode dir fuel k result) := by
  intro fuel
  induction fuel with
  | zero => intro k result; exact disc_error
  | succ fuel ih =>
    intro k result
    refine disc_act ((fine_map (map_env ht) fun m => (m, m[k]?)).eq fun _ => rfl) fun x => ?_
    cases x with
    | none => exact disc_leave _
    | some p =>
      refine disc_act ((fine_none fun _ => childTest p.1 dir).eq fun e => ?_) fun b => ih _ _
      cases childTest p.1 dir <;> rfl

theorem disc_removeInternal {k : Code} (ht : target o = none) (n : Bytes) (h : Disc o [.env] k) : Disc o [.env] (removeInternalCode n k) := by
  refine disc_act (fine_find (map_env ht) n) fun x => ?_
  cases x with
  | none => exact h
  | some p =>
    exact disc_act (fine_index (map_env ht) n) fun p => disc_through fun i => disc_unref <|
      disc_act (fine_erase (map_env ht) n) fun _ => h

theorem disc_remove (ht : target o = none) (n : Bytes) : Disc o [] (removeCode n) := by
  refine ⟨fun _ => ht, disc_act (fine_find (map_env ht) n) fun x => ?_⟩
  cases x with
  | none => exact disc_leave _
  | some p => exact disc_removeInternal ht n (disc_leave _)

theorem disc_getFileSize (ht : target o = none) (n : Bytes) : Disc o [] (getFileSizeCode n) := by
  refine ⟨fun _ => ht, disc_act (fine_find (map_env ht) n) fun x => ?_⟩
  cases x with
  | none => exact disc_leave _
  | some p =>
    exact disc_act (fine_index (map_env ht) n) fun p => disc_through fun i => disc_withBlocks _ fun _ => disc_leave _

theorem disc_rename (ht : target o = none) (a b : Bytes) : Disc o [] (renameCode a b) := by
  refine ⟨fun _ => ht, disc_act (fine_find (map_env ht) a) fun x => ?_⟩
  cases x with
  | none => exact disc_leave _
  | some p =>
    exact disc_removeInternal ht b <| disc_act (fine_index (map_env ht) a) fun p =>
      disc_act (fine_assign (map_env ht) b p) fun _ => disc_act (fine_erase (map_env ht) a) fun _ => disc_leave _

theorem disc_destroyLoop {c : Code} (hc : Disc .destroyEnv [] c) : ∀ fuel k, Disc .destroyEnv [] (destroyLoopCode fuel k c) := by
  intro fuel
  induction fuel with
  | zero => intro k; exact disc_error
  | succ fuel ih =>
    intro k
    refine disc_act ((fine_map ⟨rfl, .inr rfl⟩ fun m => (m, m[k]?)).eq fun _ => rfl) fun x => ?_
    cases x with
    | none => exact hc
    | some p => exact disc_through fun i => disc_unref (ih _)

theorem disc_destroy : Disc .destroyEnv [] destroyCode :=
  disc_act ((fine_map ⟨rfl, .inr rfl⟩ fun m => (m, m.length)).eq fun _ => rfl) fun _ =>
    disc_destroyLoop (disc_act ((fine_map ⟨rfl, .inr rfl⟩ fun _ => ([], ())).eq fun _ => rfl) fun _ => disc_gone (disc_ret _)) _ _

/-- The value that a statement on a file object computes. -/
def asSeq : Obj → M (Nat × Nat)
  | .seq file pos => .ok (file, pos)
  | _ => .error .outOfBounds

theorem fine_getSeq {h : Nat} (hm : target o = some h) : Fine o ls (getSeq h) := by
  refine (fine_obj hm asSeq).eq fun e => ?_
  unfold getSeq
  cases getObj e h with
  | error x => rfl
  | ok x => cases x <;> rfl

theorem fine_setPos {h : Nat} (hm : target o = some h) (hs : ¬ Shared o) (g : Nat → Nat) : Fine o ls (setPos h g) := by
  refine (fine_setObj hm hs fun x => match x with
    | .seq file pos => .ok (some (.seq file (g pos)))
    | _ => .error .outOfBounds).eq fun e => ?_
  unfold setPos
  cases getObj e h with
  | error x => rfl
  | ok x => cases x <;> rfl

theorem fine_getRand {h : Nat} (hm : target o = some h) : Fine o ls (getRand h) := by
  refine (fine_obj hm fun x => match x with
    | .rand file => .ok file
    | _ => .error .outOfBounds).eq fun e => ?_
  unfold getRand
  cases getObj e h with
  | error x => rfl
  | ok x => cases x <;> rfl

theorem fine_getWr {h : Nat} (hm : target o = some h) : Fine o ls (getWr h) := by
  refine (fine_obj hm fun x => match x with
    | .wr file => .ok file
    | _ => .error .outOfBounds).eq fun e => ?_
  unfold getWr
  cases getObj e h with
  | error x => rfl
  | ok x => cases x <;> rfl

theorem disc_nop {h : Nat} (hm : target o = some h) : Disc o [] (nopCode h) := disc_act (fine_getWr hm) fun _ => disc_ret _

theorem disc_delete (h : Nat) : Disc (.delete h) [] (deleteObjCode h) := by
  refine disc_act ((fine_obj (h := h) rfl fun x => .ok x.file).eq fun e => ?_) fun file => disc_unref <|
    disc_act ((fine_setObj (h := h) rfl id fun _ => .ok none).eq fun e => ?_) fun _ => disc_ret _
  · cases getObj e h <;> rfl
  · cases getObj e h <;> rfl

/-- Every call accesses what it may. -/
theorem disc_code (o : Op) : Disc o [] (code o) := by
  cases o with
  | newSequential n => exact disc_open rfl _ _
  | newRandomAccess n => exact disc_open rfl _ _
  | newWritable n => exact disc_newWritable rfl _
  | newAppendable n => exact disc_newAppendable rfl _
  | fileExists n => exact ⟨fun _ => rfl, disc_act (fine_find (map_env rfl) n) fun _ => disc_leave _⟩
  | getChildren d =>
    exact ⟨fun _ => rfl, disc_act ((fine_map (map_env rfl) fun m => (m, m.length)).eq fun _ => rfl) fun _ => disc_childrenLoop rfl _ _ _ _⟩
  | removeFile n => exact disc_remove rfl _
  | createDir _ => exact disc_act (fine_skip ()) fun _ => disc_ret _
  | removeDir _ => exact disc_act (fine_skip ()) fun _ => disc_ret _
  | getFileSize n => exact disc_getFileSize rfl _
  | renameFile a b => exact disc_rename rfl _ _
  | seqRead h n =>
    refine disc_act (fine_getSeq rfl) fun r => disc_withBlocks _ fun x => ?_
    obtain ⟨s, d⟩ := x
    cases s <;> cases d <;> first | exact disc_ret _ | exact disc_act (fine_setPos rfl id _) fun _ => disc_ret _
  | seqSkip h n =>
    refine disc_act (fine_getSeq rfl) fun r => disc_withBlocks _ fun size1 => disc_act (fine_getSeq rfl) fun r' => ?_
    dsimp only []
    cases skipCheck r'.2 size1 with
    | some s => exact disc_ret _
    | none => exact disc_withBlocks _ fun _ => disc_act (fine_setPos rfl id _) fun _ => disc_ret _
  | randRead h off n => exact disc_act (fine_getRand rfl) fun _ => disc_withBlocks _ fun _ => disc_ret _
  | append h d => exact disc_act (fine_getWr rfl) fun _ => disc_withBlocks _ fun _ => disc_ret _
  | close h => exact disc_nop rfl
  | flush h => exact disc_nop rfl
  | sync h => exact disc_nop rfl
  | delete h => exact disc_delete h
  | destroyEnv => exact disc_destroy

end

/-! ## The threads -/

/-- Thread `t` is in call `o`, the locks it holds are `ls`, and what is left of the call accesses what it may. -/
structure InCall (w : World) (t : Tid) (o : Op) (ls : List Lock) (c : Code) : Prop where
  held : ∀ l, w.owner l = some t ↔ l ∈ ls
  nodup : ls.Nodup
  disc : Disc o ls c

def Tidy (w : World) (H : Hist) : Prop :=
  ∀ t, match w.pc t with
    | .idle => pending H t = none ∧ ∀ l, w.owner l ≠ some t
    | .run c => ∃ o ls, pending H t = some o ∧ InCall w t o ls c

theorem at_self (w : World) (t : Tid) (p : Pc) : (w.at t p).pc t = p := by simp [World.at]
theorem at_other (w : World) {t u : Tid} (p : Pc) (h : u ≠ t) : (w.at t p).pc u = w.pc u := by simp [World.at, h]

theorem tidy_step {w w' : World} {H : Hist} {e : Option Ev} (h : Tidy w H) (s : Step w e w') :
    Tidy w' (match e with | some x => x :: H | none => H) := by
  cases s with
  | @call t o hp =>
    intro u
    by_cases hu : u = t
    · subst hu
      rw [at_self]
      have := h u
      rw [hp] at this
      exact ⟨o, [], by simp [pending], fun l => ⟨fun h => absurd h (this.2 l), fun h => nomatch h⟩, List.nodup_nil, disc_code o⟩
    · rw [at_other _ _ hu]
      have := h u
      simp only [pending, if_neg (Ne.symm hu)]
      cases hq : w.pc u with
      | idle => rw [hq] at this; exact this
      | run c =>
        rw [hq] at this
        obtain ⟨o, ls, h1, h2⟩ := this
        exact ⟨o, ls, h1, h2.held, h2.nodup, h2.disc⟩
  | @act t β f next e b hp he =>
    intro u
    by_cases hu : u = t
    · subst hu
      rw [at_self]
      have := h u
      rw [hp] at this
      obtain ⟨o, ls, h1, h2⟩ := this
      exact ⟨o, ls, h1, h2.held, h2.nodup, h2.disc.2 b ⟨_, _, he⟩⟩
    · rw [at_other _ _ hu]
      have := h u
      cases hq : w.pc u with
      | idle => rw [hq] at this; exact this
      | run c =>
        rw [hq] at this
        obtain ⟨o, ls, h1, h2⟩ := this
        exact ⟨o, ls, h1, h2.held, h2.nodup, h2.disc⟩
  | @lock t l next hp hl free =>
    intro u
    by_cases hu : u = t
    · subst hu
      rw [at_self]
      have := h u
      rw [hp] at this
      obtain ⟨o, ls, h1, h2⟩ := this
      have hn : l ∉ ls := by rw [← h2.held, free]; exact fun h => nomatch h
      refine ⟨o, l :: ls, h1, fun l' => ?_, List.nodup_cons.2 ⟨hn, h2.nodup⟩, h2.disc.2⟩
      show upd w.owner l (some u) l' = some u ↔ _
      by_cases e : l' = l
      · subst e; rw [upd_same]; simp
      · rw [upd_other _ _ e, h2.held, List.mem_cons]; simp [e]
    · rw [at_other _ _ hu]
      have := h u
      show match w.pc u with
        | .idle => pending H u = none ∧ ∀ l', upd w.owner l (some t) l' ≠ some u
        | .run c => _
      have ho : ∀ l', upd w.owner l (some t) l' = some u ↔ w.owner l' = some u := by
        intro l'
        by_cases e : l' = l
        · subst e; rw [upd_same, free]; constructor
          · intro h; injection h with h; exact absurd h.symm hu
          · exact fun h => nomatch h
        · rw [upd_other _ _ e]
      cases hq : w.pc u with
      | idle => rw [hq] at this; exact ⟨this.1, fun l' => fun h => this.2 l' ((ho l').1 h)⟩
      | run c =>
        rw [hq] at this
        obtain ⟨o, ls, h1, h2⟩ := this
        exact ⟨o, ls, h1, fun l' => (ho l').trans (h2.held l'), h2.nodup, h2.disc⟩
  | @unlock t l next hp hl mine =>
    intro u
    by_cases hu : u = t
    · subst hu
      rw [at_self]
      have := h u
      rw [hp] at this
      obtain ⟨o, ls, h1, h2⟩ := this
      obtain ⟨ls', rfl, hd⟩ := h2.disc
      have hn := List.nodup_cons.1 h2.nodup
      refine ⟨o, ls', h1, fun l' => ?_, hn.2, hd⟩
      show upd w.owner l none l' = some u ↔ _
      by_cases e : l' = l
      · subst e; rw [upd_same]; exact ⟨fun h => (nomatch h), fun h => absurd h hn.1⟩
      · rw [upd_other _ _ e, h2.held, List.mem_cons]; simp [e]
    · rw [at_other _ _ hu]
      have := h u
      show match w.pc u with
        | .idle => pending H u = none ∧ ∀ l', upd w.owner l none l' ≠ some u
        | .run c => _
      have ho : ∀ l', upd w.owner l none l' = some u ↔ w.owner l' = some u := by
        intro l'
        by_cases e : l' = l
        · subst e; rw [upd_same, mine]; constructor
          · exact fun h => nomatch h
          · intro h; injection h with h; exact absurd h.symm hu
        · rw [upd_other _ _ e]
      cases hq : w.pc u with
      | idle => rw [hq] at this; exact ⟨this.1, fun l' => fun h => this.2 l' ((ho l').1 h)⟩
      | run c =>
        rw [hq] at this
        obtain ⟨o, ls, h1, h2⟩ := this
        exact ⟨o, ls, h1, fun l' => (ho l').trans (h2.held l'), h2.nodup, h2.disc⟩
  | @free t i next hp hl hr hb =>
    intro u
    by_cases hu : u = t
    · subst hu
      rw [at_self]
      have := h u
      rw [hp] at this
      obtain ⟨o, ls, h1, h2⟩ := this
      exact ⟨o, ls, h1, h2.held, h2.nodup, h2.disc⟩
    · rw [at_other _ _ hu]
      have := h u
      cases hq : w.pc u with
      | idle => rw [hq] at this; exact this
      | run c =>
        rw [hq] at this
        obtain ⟨o, ls, h1, h2⟩ := this
        exact ⟨o, ls, h1, h2.held, h2.nodup, h2.disc⟩
  | @gone t next hp hl hm =>
    intro u
    by_cases hu : u = t
    · subst hu
      rw [at_self]
      have := h u
      rw [hp] at this
      obtain ⟨o, ls, h1, h2⟩ := this
      exact ⟨o, ls, h1, h2.held, h2.nodup, h2.disc.2⟩
    · rw [at_other _ _ hu]
      have := h u
      cases hq : w.pc u with
      | idle => rw [hq] at this; exact this
      | run c =>
        rw [hq] at this
        obtain ⟨o, ls, h1, h2⟩ := this
        exact ⟨o, ls, h1, h2.held, h2.nodup, h2.disc⟩
  | @ret t r hp =>
    intro u
    by_cases hu : u = t
    · subst hu
      rw [at_self]
      have := h u
      rw [hp] at this
      obtain ⟨o, ls, h1, h2⟩ := this
      have hd : ls = [] := h2.disc
      subst hd
      exact ⟨by simp [pending], fun l hl => nomatch (h2.held l).1 hl⟩
    · rw [at_other _ _ hu]
      have := h u
      simp only [pending, if_neg (Ne.symm hu)]
      cases hq : w.pc u with
      | idle => rw [hq] at this; exact this
      | run c =>
        rw [hq] at this
        obtain ⟨o, ls, h1, h2⟩ := this
        exact ⟨o, ls, h1, h2.held, h2.nodup, h2.disc⟩

theorem Run.tidy {w : World} {H : Hist} (r : Run w H) : Tidy w H := by
  induction r with
  | init => exact fun t => ⟨rfl, fun l h => nomatch h⟩
  | internal r s ih => exact tidy_step ih s
  | call r s p ih => exact tidy_step ih s
  | ret r s ih => exact tidy_step ih s

end MemConc
end Lsmdb
