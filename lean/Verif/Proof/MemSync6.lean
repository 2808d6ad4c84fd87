import Verif.Proof.MemSync4

/-!
# Who sees bytes knows the calls that wrote them: the code
-/

namespace Lsmdb
namespace MemConc
open MemEnv
open CacheConc (Tid Prog)

/-- The size of a file. -/
def sizeAt (e : Env) (k : Nat) : Nat :=
  match e.files[k]? with
  | some (some f) => f.size
  | _ => 0

/-- Code that makes no file longer. -/
def Flat : Code → Prop
  | .ret _ => True
  | .act f next => ∀ e e' b, f e = .ok (e', b) → (∀ k, sizeAt e' k ≤ sizeAt e k) ∧ Flat (next b)
  | .lock _ next => Flat next
  | .unlock _ next => Flat next
  | .free _ next => Flat next
  | .gone next => Flat next

/-- Code that makes file `k` longer by `r` at most, and not at all if `Q` does not hold.  `G` holds for the memory. -/
def Grows (G : Env → Prop) (k : Nat) (Q : Prop) : Nat → Code → Prop
  | _, .ret _ => True
  | r, .act f next => ∀ e e' b, G e → f e = .ok (e', b) →
      ∃ g, g ≤ r ∧ sizeAt e' k ≤ sizeAt e k + g ∧ (g ≠ 0 → Q ∧ Live e k) ∧ Grows G k Q (r - g) (next b)
  | r, .lock _ next => Grows G k Q r next
  | r, .unlock _ next => Grows G k Q r next
  | r, .free _ next => Grows G k Q r next
  | r, .gone next => Grows G k Q r next

/-- Code that returns an answer that shows at most `S` bytes. -/
def Within (o : Op) (S : Nat) : Code → Prop
  | .ret r => bytesSeen o r ≤ S
  | .act f next => ∀ e e' b, f e = .ok (e', b) → Within o S (next b)
  | .lock _ next => Within o S next
  | .unlock _ next => Within o S next
  | .free _ next => Within o S next
  | .gone next => Within o S next

/-- Code whose answer shows no more bytes than a file `k`, with `F k`, had when the code looked at it. -/
def Blind (G : Env → Prop) (o : Op) (F : Nat → Prop) : Code → Prop
  | .ret r => bytesSeen o r = 0
  | .act f next => ∀ e e' b, G e → f e = .ok (e', b) → Blind G o F (next b) ∨
      ∃ k, ¬ Ignores f e (.content k) ∧ Live e k ∧ F k ∧ Within o (sizeAt e k) (next b)
  | .lock _ next => Blind G o F next
  | .unlock _ next => Blind G o F next
  | .free _ next => Blind G o F next
  | .gone next => Blind G o F next

section
variable {G : Env → Prop} {o : Op} {F : Nat → Prop} {k : Code} {β : Type} {f : Env → M (Env × β)} {i : Nat}

theorem sizeAt_eq {e : Env} {s : FileState} (h : e.files[i]? = some (some s)) : sizeAt e i = s.size := by
  unfold sizeAt; rw [h]

theorem sizeAt_files {e e' : Env} (h : e'.files = e.files) (k : Nat) : sizeAt e' k = sizeAt e k := by
  unfold sizeAt; rw [h]

theorem sizeAt_set {e : Env} {s s' : FileState} (h : e.files[i]? = some (some s)) (k : Nat) :
    sizeAt (setFile e i s') k = if i = k then s'.size else sizeAt e k := by
  unfold sizeAt setFile
  simp only [get_set _ h]
  split <;> rename_i h1 <;> split at h1 <;> rename_i h2
  · cases h1; rw [if_pos h2]
  · rw [if_neg h2, h1]
  · exact absurd rfl (h1 _)
  · rw [if_neg h2]
    split
    · rename_i h3; exact absurd h3 (h1 _)
    · rfl

theorem getFile_ok {e : Env} {y : Nat × FileState} (h : getFile e (some i) = .ok y) : y.1 = i ∧ e.files[i]? = some (some y.2) := by
  unfold getFile at h
  simp only at h
  split at h
  · cases h
  · cases h
  · rename_i s hs; cases h; exact ⟨rfl, hs⟩

theorem onContent_ok {g : Content → M (Content × β)} {e e' : Env} {b : β} (hf : onContent i g e = .ok (e', b)) :
    ∃ s c', e.files[i]? = some (some s) ∧ g ⟨s.blocks, s.size⟩ = .ok (c', b) ∧ ∀ k, sizeAt e' k = if i = k then c'.size else sizeAt e k := by
  unfold onContent at hf
  cases h1 : getFile e (some i) with
  | error x => rw [h1] at hf; cases hf
  | ok y =>
    obtain ⟨j, s⟩ := y
    obtain ⟨rfl, h3⟩ := getFile_ok h1
    rw [h1] at hf
    cases h2 : g ⟨s.blocks, s.size⟩ with
    | error x =>
      have : (g ⟨s.blocks, s.size⟩ >>= fun x => (pure (setFile e j { s with blocks := x.1.blocks, size := x.1.size }, x.2) : M (Env × β))) = .ok (e', b) := hf
      rw [h2] at this; cases this
    | ok z =>
      have : (g ⟨s.blocks, s.size⟩ >>= fun x => (pure (setFile e j { s with blocks := x.1.blocks, size := x.1.size }, x.2) : M (Env × β))) = .ok (e', b) := hf
      rw [h2] at this
      cases this
      exact ⟨s, z.1, h3, h2, sizeAt_set h3⟩

/-- A body that does not make the file longer. -/
def Tame {α : Type} : Prog Content α → Prop
  | .done _ => True
  | .step g next => ∀ c c' b, g c = .ok (c', b) → c'.size ≤ c.size ∧ Tame (next b)

theorem Tame.bind {α β : Type} {p : Prog Content α} {q : α → Prog Content β} (h : Tame p) (hq : ∀ a, Tame (q a)) : Tame (p.bind q) := by
  induction p with
  | done a => exact hq a
  | step g next ih => exact fun c c' b hg => ⟨(h c c' b hg).1, ih b (h c c' b hg).2⟩

theorem tame_pure {α : Type} {g : Content → M (Content × β)} {next : β → Prog Content α} (hg : ∀ c c' b, g c = .ok (c', b) → c' = c)
    (h : ∀ b, Tame (next b)) : Tame (.step g next) := fun c c' b hb => ⟨by rw [hg c c' b hb]; exact Nat.le_refl _, h b⟩

theorem copyOut_ok {block off avail : Nat} {c c' : Content} {v : Bytes} (h : copyOut block off avail c = .ok (c', v)) :
    c' = c ∧ v.length = avail := by
  have hv : ∀ (l : Status.Buf) (v : Bytes), Status.values l = .ok v → v.length = l.length := by
    intro l
    induction l with
    | nil => intro v h; cases h; rfl
    | cons x l ih =>
      intro v h
      cases x with
      | none => cases h
      | some x =>
        cases h1 : Status.values l with
        | error y =>
          have : (Status.values l >>= fun xs => (pure (x :: xs) : M Bytes)) = .ok v := h
          rw [h1] at this; cases this
        | ok xs =>
          have : (Status.values l >>= fun xs => (pure (x :: xs) : M Bytes)) = .ok v := h
          rw [h1] at this; cases this
          simp [ih xs h1]
  unfold copyOut at h
  cases hb : c.blocks[block]? with
  | none => rw [hb] at h; cases h
  | some b =>
    rw [hb] at h
    unfold Status.cells at h
    by_cases hl : off + avail ≤ b.length
    · simp only [if_pos hl] at h
      cases h1 : Status.values ((b.drop off).take avail) with
      | error y =>
        have : (Status.values ((b.drop off).take avail) >>= fun v => (pure (c, v) : M (Content × Bytes))) = .ok (c', v) := h
        rw [h1] at this; cases this
      | ok xs =>
        have : (Status.values ((b.drop off).take avail) >>= fun v => (pure (c, v) : M (Content × Bytes))) = .ok (c', v) := h
        rw [h1] at this; cases this
        refine ⟨rfl, ?_⟩
        rw [hv _ _ h1, List.length_take, List.length_drop]
        omega
    · simp only [if_neg hl] at h
      cases h

theorem tame_readLoop : ∀ fuel block off n, Tame (readLoopProg fuel block off n)
  | 0, block, off, n => by
    unfold readLoopProg
    split
    · intro _ _ _ h; cases h
    · trivial
  | fuel + 1, block, off, n => by
    unfold readLoopProg
    split
    · exact tame_pure (fun c c' b h => (copyOut_ok h).1) fun v => (tame_readLoop fuel _ _ _).bind fun _ => trivial
    · trivial

theorem tame_read (off n : Nat) : Tame (readProg off n) := by
  refine tame_pure (fun c c' b h => by cases h; rfl) fun size => ?_
  split
  · trivial
  · dsimp only
    generalize (if n > size - off then size - off else n) = m
    split
    · trivial
    · refine tame_pure (fun c c' b h => ?_) fun _ => (tame_readLoop _ _ _ _).bind fun _ => trivial
      cases h1 : cassert (decide (off / kBlockSize ≤ 2 ^ 64 - 1)) with
      | error y =>
        have : (cassert (decide (off / kBlockSize ≤ 2 ^ 64 - 1)) >>= fun _ => (pure (c, ()) : M (Content × Unit))) = .ok (c', b) := h
        rw [h1] at this; cases this
      | ok y =>
        have : (cassert (decide (off / kBlockSize ≤ 2 ^ 64 - 1)) >>= fun _ => (pure (c, ()) : M (Content × Unit))) = .ok (c', b) := h
        rw [h1] at this; cases this; rfl

theorem tame_truncate : Tame truncateProg :=
  fun c c' b h => ⟨by cases h; exact Nat.le_refl _, fun c c' b h => ⟨by cases h; exact Nat.zero_le _, trivial⟩⟩

theorem tame_size : Tame sizeProg := tame_pure (fun c c' b h => by cases h; rfl) fun _ => trivial

theorem flat_same {next : β → Code} (hm : ∀ e e' b, f e = .ok (e', b) → e'.files = e.files) (a : ∀ b, Flat (next b)) : Flat (.act f next) :=
  fun e e' b hf => ⟨fun k => by rw [sizeAt_files (hm e e' b hf)]; exact Nat.le_refl _, a b⟩

theorem flat_fault {x : Fault} {next : β → Code} : Flat (.act (fun _ => .error x) next) := fun _ _ _ h => nomatch h

theorem flat_steps {p : Prog Content β} {k : β → Code} (h : Tame p) (a : ∀ b, Flat (k b)) : Flat (steps i p k) := by
  induction p with
  | done b => exact a b
  | step g next ih =>
    intro e e' b hf
    obtain ⟨s, c', h1, h2, h3⟩ := onContent_ok hf
    refine ⟨fun j => ?_, ih b (h _ _ _ h2).2⟩
    rw [h3]
    split
    · rename_i hj; subst hj; rw [sizeAt_eq h1]; exact (h _ _ _ h2).1
    · exact Nat.le_refl _

theorem flat_withBlocks {p : Prog Content β} {k : β → Code} (h : Tame p) (a : ∀ b, Flat (k b)) : Flat (withBlocks i p k) :=
  flat_steps (k := fun b => .unlock (.blocks i) (k b)) h a

theorem flat_through {p : Option Nat} {k : Nat → Code} (a : ∀ i, Flat (k i)) : Flat (through p k) := by
  cases p with
  | none => exact flat_fault
  | some i => exact a i

theorem flat_file {g : FileState → FileState} {next : β → Code} (hf : ∀ e e' b, f e = .ok (e', b) → ∃ s, e.files[i]? = some (some s) ∧ e' = setFile e i (g s))
    (hg : ∀ s, (g s).size = s.size) (a : ∀ b, Flat (next b)) : Flat (.act f next) := by
  intro e e' b h
  obtain ⟨s, h1, rfl⟩ := hf e e' b h
  refine ⟨fun k => ?_, a b⟩
  rw [sizeAt_set h1]
  split
  · rename_i hj; subst hj; rw [hg, sizeAt_eq h1]; exact Nat.le_refl _
  · exact Nat.le_refl _

theorem flat_ref (a : Flat k) : Flat (refCode i k) := by
  show Flat (.act (fun e => do return (← Ref e (some i), ())) fun _ => .unlock (.refs i) k)
  refine flat_file (i := i) (g := fun s => { s with refs := s.refs + 1 }) (fun e e' b hf => ?_) (fun _ => rfl) fun _ => a
  unfold Ref at hf
  cases h1 : getFile e (some i) with
  | error x => rw [h1] at hf; cases hf
  | ok y =>
    rw [h1] at hf
    obtain ⟨j, s⟩ := y
    obtain ⟨rfl, h2⟩ := getFile_ok h1
    by_cases hr : s.refs + 1 > 2147483647
    · have : ((if s.refs + 1 > 2147483647 then .error .arith else return setFile e j { s with refs := s.refs + 1 } : M Env) >>=
        fun x => (pure (x, ()) : M (Env × Unit))) = .ok (e', b) := hf
      rw [if_pos hr] at this; cases this
    · have : ((if s.refs + 1 > 2147483647 then .error .arith else return setFile e j { s with refs := s.refs + 1 } : M Env) >>=
        fun x => (pure (x, ()) : M (Env × Unit))) = .ok (e', b) := hf
      rw [if_neg hr] at this; cases this
      exact ⟨s, h2, rfl⟩

theorem flat_unref (a : Flat k) : Flat (unrefCode i k) := by
  show Flat (.act (decRefs i) fun _ => .act (testRefs i) fun d => .unlock (.refs i) (if d then deleteCode i k else k))
  refine flat_file (i := i) (g := fun s => { s with refs := s.refs - 1 }) (fun e e' b hf => ?_) (fun _ => rfl) fun _ =>
    flat_same (fun e e' b hf => ?_) fun b => ?_
  · unfold decRefs at hf
    cases h1 : getFile e (some i) with
    | error x => rw [h1] at hf; cases hf
    | ok y =>
      rw [h1] at hf
      obtain ⟨h2, h3⟩ := getFile_ok h1
      cases hf
      exact ⟨y.2, h3, by rw [h2]⟩
  · unfold testRefs at hf
    cases h1 : getFile e (some i) with
    | error x => rw [h1] at hf; cases hf
    | ok y =>
      rw [h1] at hf
      have : (cassert (decide (y.2.refs ≥ 0)) >>= fun _ => (pure (e, decide (y.2.refs ≤ 0)) : M (Env × Bool))) = .ok (e', b) := hf
      cases h2 : cassert (decide (y.2.refs ≥ 0)) with
      | error x => rw [h2] at this; cases this
      | ok u => rw [h2] at this; cases this; rfl
  · cases b
    · exact a
    · exact flat_withBlocks tame_truncate fun _ => a

theorem flat_newObj {p : Option Nat} {mk : Nat → Obj} {k : Nat → Code} (a : ∀ x, Flat (k x)) : Flat (newObjCode p mk k) :=
  flat_through fun i => flat_ref <| flat_same (fun _ _ _ h => by cases h; rfl) a

theorem flat_find {n : Bytes} {next : Option (Option Nat) → Code} (a : ∀ b, Flat (next b)) : Flat (.act (find n) next) :=
  flat_same (fun _ _ _ h => by cases h; rfl) a

theorem flat_index {n : Bytes} {next : Option Nat → Code} (a : ∀ b, Flat (next b)) : Flat (.act (index n) next) :=
  flat_same (fun _ _ _ h => by cases h; rfl) a

theorem flat_alloc {next : Option Nat → Code} (a : ∀ b, Flat (next b)) : Flat (.act alloc next) := by
  intro e e' b h
  cases h
  refine ⟨fun k => ?_, a _⟩
  unfold sizeAt
  simp only [newFile]
  rcases Nat.lt_trichotomy k e.files.length with h | h | h
  · rw [List.getElem?_append_left h]; exact Nat.le_refl _
  · subst h; simp [FileState.new]
  · rw [List.getElem?_eq_none (by simp; omega)]; exact Nat.zero_le _

theorem flat_removeInternal {n : Bytes} (a : Flat k) : Flat (removeInternalCode n k) :=
  flat_find fun x => by
    cases x with
    | none => exact a
    | some _ => exact flat_index fun p => flat_through fun i => flat_unref <| flat_same (fun _ _ _ h => by cases h; rfl) fun _ => a

theorem flat_children {dir : Bytes} : ∀ (fuel k : Nat) (r : List Bytes), Flat (childrenLoopCode dir fuel k r)
  | 0, _, _ => flat_fault
  | fuel + 1, k, r => flat_same (fun _ _ _ h => by cases h; rfl) fun x => by
    cases x with
    | none => trivial
    | some y => exact flat_same (fun e e' b h => by
        rw [childTest_eq] at h
        cases h; rfl) fun b => flat_children fuel _ _

theorem flat_destroy : ∀ (fuel k : Nat) {c : Code}, Flat c → Flat (destroyLoopCode fuel k c)
  | 0, _, _, _ => flat_fault
  | fuel + 1, k, c, a => flat_same (fun _ _ _ h => by cases h; rfl) fun x => by
    cases x with
    | none => exact a
    | some y => exact flat_through fun i => flat_unref <| flat_destroy fuel _ a

theorem getSeq_ok {x : Nat} {e e' : Env} {b : Nat × Nat} (hf : getSeq x e = .ok (e', b)) : e' = e ∧ e.objs[x]? = some (some (.seq b.1 b.2)) := by
  unfold getSeq getObj at hf
  cases h : e.objs[x]? with
  | none => rw [h] at hf; cases hf
  | some y =>
    rw [h] at hf
    cases y with
    | none => cases hf
    | some y => cases y <;> cases hf; exact ⟨rfl, rfl⟩

theorem getRand_ok {x : Nat} {e e' : Env} {b : Nat} (hf : getRand x e = .ok (e', b)) : e' = e ∧ e.objs[x]? = some (some (.rand b)) := by
  unfold getRand getObj at hf
  cases h : e.objs[x]? with
  | none => rw [h] at hf; cases hf
  | some y =>
    rw [h] at hf
    cases y with
    | none => cases hf
    | some y => cases y <;> cases hf; exact ⟨rfl, rfl⟩

theorem getWr_ok {x : Nat} {e e' : Env} {b : Nat} (hf : getWr x e = .ok (e', b)) : e' = e ∧ e.objs[x]? = some (some (.wr b)) := by
  unfold getWr getObj at hf
  cases h : e.objs[x]? with
  | none => rw [h] at hf; cases hf
  | some y =>
    rw [h] at hf
    cases y with
    | none => cases hf
    | some y => cases y <;> cases hf; exact ⟨rfl, rfl⟩

theorem setPos_files {x : Nat} {pos : Nat → Nat} {e e' : Env} {b : Unit} (hf : setPos x pos e = .ok (e', b)) : e'.files = e.files := by
  unfold setPos at hf
  cases h1 : getObj e x with
  | error y => rw [h1] at hf; cases hf
  | ok y => rw [h1] at hf; cases y <;> cases hf; rfl

theorem flat_code (o : Op) (ho : ∀ h d, o ≠ .append h d) : Flat (code o) := by
  have wr : ∀ {h : Nat} {k : Nat → Code}, (∀ i, Flat (k i)) → Flat (.act (getWr h) k) := fun a => flat_same (fun _ _ _ h => by rw [(getWr_ok h).1]) a
  have seq : ∀ {h : Nat} {k : Nat × Nat → Code}, (∀ i, Flat (k i)) → Flat (.act (getSeq h) k) := fun a => flat_same (fun _ _ _ h => by rw [(getSeq_ok h).1]) a
  cases o with
  | newSequential f | newRandomAccess f =>
    exact flat_find fun x => by
      cases x with
      | none => trivial
      | some _ => exact flat_index fun p => flat_newObj fun _ => trivial
  | newWritable f =>
    exact flat_find fun x => by
      cases x with
      | none => exact flat_alloc fun p => flat_through fun i => flat_ref <| flat_same (fun _ _ _ h => by cases h; rfl) fun _ => flat_newObj fun _ => trivial
      | some p => exact flat_through fun i => flat_withBlocks tame_truncate fun _ => flat_newObj fun _ => trivial
  | newAppendable f =>
    exact flat_index fun p => by
      cases p with
      | none => exact flat_alloc fun p => flat_through fun i => flat_ref <| flat_newObj fun _ => trivial
      | some i => exact flat_newObj fun _ => trivial
  | fileExists f => exact flat_find fun x => trivial
  | getChildren dir => exact flat_same (fun _ _ _ h => by cases h; rfl) fun _ => flat_children _ _ _
  | removeFile f =>
    exact flat_find fun x => by
      cases x with
      | none => trivial
      | some _ => exact flat_removeInternal (k := leave (.status .ok)) trivial
  | createDir _ => exact flat_same (fun _ _ _ h => by cases h; rfl) fun _ => trivial
  | removeDir _ => exact flat_same (fun _ _ _ h => by cases h; rfl) fun _ => trivial
  | getFileSize f =>
    exact flat_find fun x => by
      cases x with
      | none => trivial
      | some _ => exact flat_index fun p => flat_through fun i => flat_withBlocks tame_size fun _ => trivial
  | renameFile a b =>
    exact flat_find fun x => by
      cases x with
      | none => trivial
      | some _ => exact flat_removeInternal <| flat_index fun p => flat_same (fun _ _ _ h => by cases h; rfl) fun _ =>
          flat_same (fun _ _ _ h => by cases h; rfl) fun _ => trivial
  | seqRead h n =>
    refine seq fun b => flat_withBlocks (tame_read _ _) fun y => ?_
    obtain ⟨s, d⟩ := y
    cases s <;> cases d <;> first | trivial | exact flat_same (fun _ _ _ h => setPos_files h) fun _ => trivial
  | seqSkip h n =>
    refine seq fun b => flat_withBlocks tame_size fun y => seq fun b' => ?_
    show Flat (match skipCheck b'.2 y with | some s => _ | none => _)
    cases skipCheck b'.2 y with
    | some s => trivial
    | none => exact flat_withBlocks tame_size fun _ => flat_same (fun _ _ _ h => setPos_files h) fun _ => trivial
  | randRead h off n => exact flat_same (fun _ _ _ h => by rw [(getRand_ok h).1]) fun b => flat_withBlocks (tame_read _ _) fun y => trivial
  | append h d => exact absurd rfl (ho h d)
  | close h | flush h | sync h => exact wr fun _ => trivial
  | delete h =>
    refine flat_same (fun e e' b hf => ?_) fun b => flat_unref <| flat_same (fun e e' b hf => ?_) fun _ => trivial
    · cases h1 : getObj e h with
      | error y => rw [h1] at hf; cases hf
      | ok y => rw [h1] at hf; cases hf; rfl
    · cases h1 : getObj e h with
      | error y => rw [h1] at hf; cases hf
      | ok y => rw [h1] at hf; cases hf; rfl
  | destroyEnv =>
    exact flat_same (fun _ _ _ h => by cases h; rfl) fun _ => flat_destroy _ _ <| flat_same (fun _ _ _ h => by cases h; rfl) fun _ => trivial

end
end MemConc
end Lsmdb
