import Verif.Proof.MemSync6

/-!
# Who sees bytes knows the calls that wrote them: Append and the readers
-/

namespace Lsmdb
namespace MemConc
open MemEnv
open CacheConc (Tid Prog)

variable {G : Env → Prop} {o : Op} {F : Nat → Prop} {β : Type} {i k : Nat} {Q : Prop}

theorem Flat.grows : ∀ {c : Code} {r : Nat}, Flat c → Grows G k Q r c := by
  intro c
  induction c with
  | ret _ => intro r _; trivial
  | act f next ih => exact fun {r} h e e' b _ hf => ⟨0, Nat.zero_le _, (h e e' b hf).1 k, fun h => absurd rfl h, ih b (h e e' b hf).2⟩
  | lock _ _ ih => exact fun {r} h => ih (r := r) h
  | unlock _ _ ih => exact fun {r} h => ih (r := r) h
  | free _ _ ih => exact fun {r} h => ih (r := r) h
  | gone _ ih => exact fun {r} h => ih (r := r) h

/-- A statement of a body that adds `g` to the size of the file, and the rest. -/
theorem grows_step {α : Type} {f : Content → M (Content × β)} {next : β → Prog Content α} {kk : α → Code} {r g : Nat} (hg : g ≤ r) (hQ : i = k → Q)
    (hf : ∀ c c' b, f c = .ok (c', b) → c'.size ≤ c.size + g ∧ Grows G k Q (r - g) (steps i (next b) kk)) : Grows G k Q r (steps i (.step f next) kk) := by
  intro e e' b hG he
  obtain ⟨s, c', h1, h2, h3⟩ := onContent_ok he
  obtain ⟨h4, h5⟩ := hf _ _ _ h2
  have h6 : ∀ r r', r' ≤ r → ∀ c, Grows G k Q r' c → Grows G k Q r c := by
    intro r r' hr c
    induction c generalizing r r' with
    | ret _ => intro _; trivial
    | act f next ih =>
      intro h e e' b hG hf
      obtain ⟨g, g1, g2, g3, g4⟩ := h e e' b hG hf
      exact ⟨g, by omega, g2, g3, ih b _ _ (by omega) g4⟩
    | lock _ _ ih => exact ih r r' hr
    | unlock _ _ ih => exact ih r r' hr
    | free _ _ ih => exact ih r r' hr
    | gone _ ih => exact ih r r' hr
  by_cases hik : i = k
  · refine ⟨g, hg, ?_, fun _ => ⟨hQ hik, ⟨s, by rw [← hik]; exact h1⟩⟩, h5⟩
    rw [h3, if_pos hik, ← hik, sizeAt_eq h1]
    exact h4
  · refine ⟨0, Nat.zero_le _, by rw [h3, if_neg hik]; exact Nat.le_refl _, fun h => absurd rfl h, h6 _ _ (by omega) _ h5⟩

theorem grows_appendLoop {data : Slice} {kk : Unit → Code} (hk : ∀ r, Grows G k Q r (kk ())) (hQ : i = k → Q) : ∀ (fuel src len r : Nat), len ≤ r →
    Grows G k Q r (steps i (appendLoopProg data fuel src len) kk)
  | 0, src, len, r, hr => by
    unfold appendLoopProg
    split
    · exact grows_step (g := 0) (Nat.zero_le _) hQ fun _ _ _ h => nomatch h
    · exact hk r
  | fuel + 1, src, len, r, hr => by
    unfold appendLoopProg
    split
    · refine grows_step (g := 0) (Nat.zero_le _) hQ fun c c' b hc => ⟨?_, ?_⟩
      · unfold makeRoom at hc
        dsimp only at hc
        split at hc <;> cases hc <;> exact Nat.le_refl _
      · obtain ⟨offset, room⟩ := b
        show Grows G k Q r (steps i (.step (copyIn data src offset (if room > len then len else room)) fun _ => _) kk)
        have hle : (if room > len then len else room) ≤ len := by split <;> omega
        generalize (if room > len then len else room) = avail at hle
        refine grows_step (g := 0) (Nat.zero_le _) hQ fun c c' b hc => ⟨?_, ?_⟩
        · unfold copyIn at hc
          cases h1 : c.blocks.getLast? with
          | none => rw [h1] at hc; cases hc
          | some last =>
            rw [h1] at hc
            cases h2 : Status.sliceCells ⟨data.buf, src, avail⟩ avail with
            | error x => simp only [h2] at hc; cases hc
            | ok cs =>
              simp only [h2] at hc
              cases h3 : Status.store last offset cs with
              | error x =>
                have : (Status.store last offset cs >>= fun l => (pure ({ c with blocks := c.blocks.dropLast ++ [l] }, ()) : M (Content × Unit))) = .ok (c', b) := hc
                rw [h3] at this; cases this
              | ok l =>
                have : (Status.store last offset cs >>= fun l => (pure ({ c with blocks := c.blocks.dropLast ++ [l] }, ()) : M (Content × Unit))) = .ok (c', b) := hc
                rw [h3] at this; cases this; exact Nat.le_refl _
        · refine grows_step (g := avail) (by omega) hQ fun c c' b hc => ⟨by cases hc; exact Nat.le_refl _, ?_⟩
          exact grows_appendLoop hk hQ fuel _ _ _ (by omega)
    · exact hk r

/-- The code of `Append` makes only the file of the file object longer, and by the length of the slice at most. -/
theorem grows_append (h : Nat) (d : Slice) (hQ : ∀ e, G e → e.objs[h]? = some (some (.wr k)) → Q) : Grows G k Q d.len (appendCode h d) := by
  intro e e' b hG he
  obtain ⟨rfl, h1⟩ := getWr_ok he
  refine ⟨0, Nat.zero_le _, Nat.le_refl _, fun h => absurd rfl h, ?_⟩
  show Grows G k Q (d.len - 0) (steps b (appendProg d) fun _ => .unlock (.blocks b) (.ret (.status .ok)))
  rw [Nat.sub_zero]
  exact grows_appendLoop (kk := fun _ => .unlock (.blocks b) (.ret (.status .ok))) (fun r => trivial) (fun hb => hQ e' hG (by rw [← hb]; exact h1)) _ _ _ _ (Nat.le_refl _)

/-! ## Readers -/

theorem blind_zero (hz : ∀ r, bytesSeen o r = 0) : ∀ c, Blind G o F c := by
  intro c
  induction c with
  | ret r => exact hz r
  | act f next ih => exact fun _ _ b _ _ => .inl (ih b)
  | lock _ _ ih => exact ih
  | unlock _ _ ih => exact ih
  | free _ _ ih => exact ih
  | gone _ ih => exact ih

theorem within_fault {x : Fault} {S : Nat} {next : β → Code} : Within o S (.act (fun _ => .error x) next) := fun _ _ _ h => nomatch h

theorem steps_bind {α : Type} {p : Prog Content α} {q : α → Prog Content β} {kk : β → Code} :
    steps i (p.bind q) kk = steps i p fun a => steps i (q a) kk := by
  induction p with
  | done a => rfl
  | step f next ih =>
    show Code.act (onContent i f) (fun b => steps i ((next b).bind q) kk) = Code.act (onContent i f) fun b => steps i (next b) fun a => steps i (q a) kk
    exact congrArg _ (funext fun b => ih b)

theorem within_readLoop {S : Nat} : ∀ (fuel block off n : Nat) (kk : Bytes → Code), (∀ d, d.length = n → Within o S (kk d)) →
    Within o S (steps i (readLoopProg fuel block off n) kk)
  | 0, block, off, n, kk, hk => by
    unfold readLoopProg
    split
    · intro e e' b h
      obtain ⟨_, _, _, h2, _⟩ := onContent_ok h
      cases h2
    · exact hk [] (by simp only [List.length_nil]; omega)
  | fuel + 1, block, off, n, kk, hk => by
    unfold readLoopProg
    split
    · dsimp only
      have hle : (if kBlockSize - off > n then n else kBlockSize - off) ≤ n := by split <;> omega
      generalize (if kBlockSize - off > n then n else kBlockSize - off) = avail at hle
      intro e e' v h
      obtain ⟨_, _, _, h2, _⟩ := onContent_ok h
      have hv := (copyOut_ok h2).2
      show Within o S (steps i ((readLoopProg fuel (block + 1) 0 (n - avail)).bind fun rest => .done (v ++ rest)) kk)
      rw [steps_bind]
      refine within_readLoop fuel _ _ _ _ fun d hd => hk (v ++ d) ?_
      rw [List.length_append, hv, hd]
      omega
    · exact hk [] (by simp only [List.length_nil]; omega)

/-- Asking for the size reads the contents of the file. -/
theorem size_not_ignored {e : Env} {s : FileState} (h : e.files[i]? = some (some s)) :
    ¬ Ignores (onContent i fun c => .ok (c, c.size)) e (.content i) := by
  intro hi
  have h1 := hi (.content i ⟨s.blocks, s.size + 1⟩) rfl
  have h2 : (Change.content i ⟨s.blocks, s.size + 1⟩).apply e = setFile e i { s with size := s.size + 1 } := by
    simp only [Change.apply, h]
  have h3 : (setFile e i { s with size := s.size + 1 }).files[i]? = some (some { s with size := s.size + 1 }) := by
    show (e.files.set i _)[i]? = _
    rw [get_set _ h, if_pos rfl]
  rw [h2] at h1
  have eq : ∀ (e : Env) (s : FileState), e.files[i]? = some (some s) →
      onContent i (fun c => .ok (c, c.size)) e = .ok (setFile e i { s with blocks := s.blocks, size := s.size }, s.size) := by
    intro e s h
    unfold onContent
    rw [getFile_eq h]
    rfl
  rw [eq _ _ h3, eq _ _ h] at h1
  injection h1 with h1
  injection h1 with _ h1
  have h4 : s.size + 1 = s.size := h1
  omega

/-- A body that begins with a look at the size. -/
theorem blind_size {α : Type} {next : Nat → Prog Content α} {kk : α → Code} (hF : F i) (hw : ∀ S, Within o S (steps i (next S) kk)) :
    Blind G o F (steps i (.step (fun c => .ok (c, c.size)) next) kk) := by
  intro e e' b hG h
  obtain ⟨s, c', h1, h2, h3⟩ := onContent_ok h
  cases h2
  refine .inr ⟨i, size_not_ignored h1, ⟨s, h1⟩, hF, ?_⟩
  rw [sizeAt_eq h1]
  exact hw _

theorem blind_read {off n : Nat} {kk : St × Option Bytes → Code} (hF : F i) (hn : ∀ S s, Within o S (kk (s, none)))
    (hk : ∀ S d, d = [] ∨ off + d.length ≤ S → Within o S (kk (.ok, some d))) : Blind G o F (steps i (readProg off n) kk) := by
  refine blind_size hF fun S => ?_
  split
  · exact hn _ _
  · dsimp only
    have hle : (if n > S - off then S - off else n) ≤ S - off := by split <;> omega
    generalize (if n > S - off then S - off else n) = m at hle
    split
    · exact hk S [] (.inl rfl)
    · intro e e' b h
      show Within o S (steps i ((readLoopProg (m + 1) (off / kBlockSize) (off % kBlockSize) m).bind fun d => .done (.ok, some d)) kk)
      rw [steps_bind]
      exact within_readLoop _ _ _ _ _ fun d hd => hk S d (.inr (by omega))

/-- The answers of all methods show no more bytes than the file had when it was looked at. -/
theorem blind_code (o : Op) (hobj : ∀ h e ob, target o = some h → G e → e.objs[h]? = some (some ob) → F ob.file)
    (hname : ∀ n e k, o = .getFileSize n → G e → mapFind e.map n = some (some k) → F k) : Blind G o F (code o) := by
  cases o with
  | randRead h off n =>
    intro e e' b hG he
    obtain ⟨rfl, h1⟩ := getRand_ok he
    refine .inl ?_
    show Blind G _ F (steps b (readProg off n) fun y => .unlock (.blocks b) (.ret (.data y.1 y.2)))
    refine blind_read (hobj h e' _ rfl hG h1) (fun S s => ?_) fun S d hd => ?_
    · show bytesSeen _ _ ≤ S
      cases s <;> exact Nat.zero_le _
    · show (if d = [] then 0 else off + d.length) ≤ S
      split
      · exact Nat.zero_le _
      · rename_i hne
        exact hd.resolve_left hne
  | seqRead h n =>
    intro e e' b hG he
    obtain ⟨rfl, h1⟩ := getSeq_ok he
    obtain ⟨file, pos⟩ := b
    refine .inl ?_
    show Blind G _ F (steps file (readProg pos n) fun y => .unlock (.blocks file) (match y.1, y.2 with
      | .ok, some d => .act (setPos h fun pos => pos + d.length) fun _ => .ret (.data .ok (some d))
      | s, d => .ret (.data s d)))
    refine blind_read (hobj h e' _ rfl hG h1) (fun S s => ?_) fun S d hd => ?_
    · cases s <;> exact Nat.zero_le _
    · intro _ _ _ _
      show d.length ≤ S
      rcases hd with rfl | hd
      · exact Nat.zero_le _
      · omega
  | getFileSize n =>
    intro e e' b hG he
    cases he
    refine .inl ?_
    cases h1 : mapFind e.map n with
    | none => exact (rfl : (0 : Nat) = 0)
    | some p =>
      intro e e' b hG he
      refine .inl ?_
      cases b with
      | none => exact fun _ _ _ _ h => nomatch h
      | some i =>
        have hm : mapFind e.map n = some (some i) := by
          unfold index mapIndex at he
          cases h2 : mapFind e.map n with
          | none => rw [h2] at he; cases he
          | some v => rw [h2] at he; cases he; rfl
        show Blind G _ F (steps i sizeProg fun size => .unlock (.blocks i) (leave (.size .ok (some size))))
        exact blind_size (hname n e i rfl hG hm) fun S => Nat.le_refl S
  | _ => exact blind_zero (fun _ => rfl) _

end MemConc
end Lsmdb
