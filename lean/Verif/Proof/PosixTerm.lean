import Verif.Spec.PosixTerm
import Verif.Proof.PosixConc5

/-! How many steps a call takes. -/

namespace Lsmdb
namespace Posix

open MemEnv (St lit)

namespace Conc

/-- What the answer costs: the steps it makes necessary. -/
def cost (c : Cmd) (r : c.Resp) : Nat := (if Took.inVain ⟨c, r⟩ then 1 else 0) + Took.entries ⟨c, r⟩

/-- `readdir` gives the entries of the listing. -/
def Cmd.gives : (c : Cmd) → c.Resp → Prop
  | .readdir _ rest, (r : Option Bytes) => r = none ∨ r = rest.head?
  | _, _ => True

/-- The rest of the call takes at most `b` steps, besides what answers cost; if they cost no more than `g` it ends.  `Q`: what holds of
the result and what is left of `b` and `g`. -/
def EndsBy {α : Type} : Prog α → Nat → Nat → (α → Nat → Nat → Prop) → Prop
  | .ret a, b, g, Q => Q a b g
  | .call c k, b, g, Q => 1 ≤ b ∧ ∀ r, Cmd.gives c r → cost c r ≤ g → EndsBy (k r) (b - 1 + cost c r) (g - cost c r) Q
  | .fault _, _, _, _ => True
  | .spin, _, _, _ => False

variable {α β : Type} {Q Q' : α → Nat → Nat → Prop} {p : Prog α} {b b' g g' : Nat}

theorem endsBy_mono (h : EndsBy p b g Q) (hb : b ≤ b') (hg : g' ≤ g)
    (hQ : ∀ a x y x' y', x ≤ x' → y' ≤ y → Q a x y → Q' a x' y') : EndsBy p b' g' Q' := by
  induction p generalizing b b' g g' with
  | ret a => exact hQ a _ _ _ _ hb hg h
  | fault f => trivial
  | spin => exact h
  | call c k ih =>
    refine ⟨Nat.le_trans h.1 hb, fun r hr hc => ?_⟩
    exact ih r (h.2 r hr (Nat.le_trans hc hg)) (by omega) (by omega)

theorem endsBy_bind {f : α → Prog β} {Q : β → Nat → Nat → Prop}
    (h : EndsBy p b g (fun a b g => EndsBy (f a) b g Q)) : EndsBy (p.bind f) b g Q := by
  induction p generalizing b g with
  | ret a => exact h
  | fault e => trivial
  | spin => exact h
  | call c k ih => exact ⟨h.1, fun r hr hc => ih r (h.2 r hr hc)⟩

/-- One thing after the other. -/
theorem endsBy_then {f : α → Prog β} {Q : β → Nat → Nat → Prop}
    (h : EndsBy p b g Q') (hf : ∀ a b g, Q' a b g → EndsBy (f a) b g Q) : EndsBy (p >>= f) b g Q := by
  apply endsBy_bind
  exact endsBy_mono' h hf
where
  endsBy_mono' {Q Q' : α → Nat → Nat → Prop} {p : Prog α} {b g : Nat} (h : EndsBy p b g Q) (hQ : ∀ a b g, Q a b g → Q' a b g) :
      EndsBy p b g Q' := by
    induction p generalizing b g with
    | ret a => exact hQ _ _ _ h
    | fault e => trivial
    | spin => exact h
    | call c k ih => exact ⟨h.1, fun r hr hc => ih r (h.2 r hr hc)⟩

theorem endsBy_ofM {m : M α} (h : ∀ a, m = .ok a → Q a b g) : EndsBy (Prog.ofM m) b g Q := by
  cases m with
  | ok a => exact h a rfl
  | error f => trivial

/-- What is left: at least `b` steps, and at most `g`. -/
def Left (b g : Nat) : α → Nat → Nat → Prop := fun _ b' g' => b ≤ b' ∧ g' ≤ g

/-- A step that costs nothing. -/
def Free (c : Cmd) : Prop := ∀ r, cost c r = 0

theorem endsBy_go {c : Cmd} {f : c.Resp → Prog β} {Q : β → Nat → Nat → Prop} (hc : Free c) (hb : 1 ≤ b)
    (hf : ∀ r, EndsBy (f r) (b - 1) g Q) : EndsBy (Cmd.go c >>= f) b g Q := by
  refine ⟨hb, fun r _ _ => ?_⟩
  show EndsBy (f r) _ _ Q
  rw [hc r]
  exact hf r

theorem endsBy_ret {a : α} (h : Q a b g) : EndsBy (Prog.ret a) b g Q := h

theorem endsBy_if {c : Prop} [Decidable c] {q : Prog α} (h1 : c → EndsBy p b g Q) (h2 : ¬ c → EndsBy q b g Q) :
    EndsBy (if c then p else q) b g Q := by
  by_cases h : c
  · rw [if_pos h]; exact h1 h
  · rw [if_neg h]; exact h2 h

theorem free_open (m : Mode) (p : Bytes) : Free (.open m p) := fun _ => rfl
theorem free_close (fd : Int) : Free (.close fd) := fun _ => rfl
theorem free_pread (fd : Int) (n : Nat) (o : Int) : Free (.pread fd n o) := fun _ => rfl
theorem free_lseek (fd : Int) (o : Int) : Free (.lseek fd o) := fun _ => rfl
theorem free_sync (fd : Int) : Free (.sync fd) := fun _ => rfl
theorem free_stat (p : Bytes) : Free (.stat p) := fun _ => rfl
theorem free_access (p : Bytes) : Free (.access p) := fun _ => rfl
theorem free_unlink (p : Bytes) : Free (.unlink p) := fun _ => rfl
theorem free_mkdir (p : Bytes) : Free (.mkdir p) := fun _ => rfl
theorem free_rmdir (p : Bytes) : Free (.rmdir p) := fun _ => rfl
theorem free_rename (p q : Bytes) : Free (.rename p q) := fun _ => rfl
theorem free_mmap (fd : Int) (n : Nat) : Free (.mmap fd n) := fun _ => rfl
theorem free_munmap (n : Nat) : Free (.munmap n) := fun _ => rfl
theorem free_other (fd : Int) : Free (.other fd) := fun _ => rfl
theorem free_readdir (fd : Int) (l : List Bytes) : Free (.readdir fd l) := fun _ => rfl
theorem free_fetchSub (l : Lim) : Free (.fetchSub l) := fun _ => rfl
theorem free_fetchAdd (l : Lim) : Free (.fetchAdd l) := fun _ => rfl
theorem free_insert (p : Bytes) : Free (.insert p) := fun _ => rfl
theorem free_remove (p : Bytes) : Free (.remove p) := fun _ => rfl

theorem endsBy_Acquire (l : Lim) : EndsBy (Acquire l) (b + 2) g (Left b g) := by
  refine endsBy_go (free_fetchSub l) (by omega) fun r => ?_
  revert r; show ∀ r : Int, _; intro r
  refine endsBy_if (fun _ => ?_) fun _ => ?_
  · exact ⟨by omega, Nat.le_refl _⟩
  · exact endsBy_go (free_fetchAdd l) (by omega) fun _ => ⟨by omega, Nat.le_refl _⟩

theorem endsBy_Release (l : Lim) : EndsBy (Release l) (b + 1) g (Left b g) :=
  endsBy_go (free_fetchAdd l) (by omega) fun _ => ⟨by omega, Nat.le_refl _⟩

variable (strerror : Strerror) (full : Bool) (fuel : Nat)

theorem endsBy_seqReadLoop (f : SeqFile) (n cap : Nat) (hg : g < fuel) :
    EndsBy (seqReadLoop strerror f n cap fuel) (b + 1) g (Left b g) := by
  induction fuel generalizing g b with
  | zero => exact absurd hg (by omega)
  | succ fuel ih =>
    refine ⟨by omega, fun r _ hc => ?_⟩
    revert r; show ∀ r : Except Errno Bytes, _; intro r hc1 hc
    show EndsBy (match r with | .error e => _ | .ok d => _) _ _ _
    cases r with
    | error e =>
      refine endsBy_if (fun he => ?_) fun _ => ?_
      · have e1 : cost (.read f.fd n) (.error e) = 1 := by
          unfold cost Took.inVain Took.entries
          simp [he]
        rw [e1] at hc ⊢
        exact endsBy_mono (ih (g := g - 1) (b := b) (by omega)) (by omega) (Nat.le_refl _)
          fun a x y x' y' hx hy h => ⟨Nat.le_trans h.1 hx, by have := h.2; omega⟩
      · exact ⟨by omega, by omega⟩
    | ok d =>
      refine endsBy_if (fun _ => ?_) fun _ => trivial
      exact ⟨by omega, by omega⟩

theorem endsBy_writeLoop (fd : Int) (n : Bytes) (d : Bytes) (hg : d.length + g < fuel) :
    EndsBy (writeLoop strerror fd n fuel d) (b + d.length) g (Left b g) := by
  induction fuel generalizing g b d with
  | zero => exact absurd hg (by omega)
  | succ fuel ih =>
    refine endsBy_if (fun hd => ?_) fun _ => ⟨by omega, Nat.le_refl _⟩
    refine ⟨by omega, fun r _ hc => ?_⟩
    revert r; show ∀ r : Except Errno Nat, _; intro r hc1 hc
    show EndsBy (match r with | .error e => _ | .ok d => _) _ _ _
    cases r with
    | error e =>
      refine endsBy_if (fun he => ?_) fun _ => ?_
      · have e1 : cost (.write fd d) (.error e) = 1 := by
          unfold cost Took.inVain Took.entries
          simp [he]
        rw [e1] at hc ⊢
        exact endsBy_mono (ih (g := g - 1) (b := b) d (by omega)) (by omega) (Nat.le_refl _)
          fun a x y x' y' hx hy h => ⟨Nat.le_trans h.1 hx, by have := h.2; omega⟩
      · exact ⟨by omega, by omega⟩
    | ok m =>
      have hl : (d.drop m).length = d.length - m := List.length_drop
      rcases Nat.eq_zero_or_pos m with h0 | h0
      · have e1 : cost (.write fd d) (.ok m) = 1 := by
          unfold cost Took.inVain Took.entries
          simp [h0]
        rw [e1] at hc ⊢
        exact endsBy_mono (ih (g := g - 1) (b := b) (d.drop m) (by omega)) (by omega) (Nat.le_refl _)
          fun a x y x' y' hx hy h => ⟨Nat.le_trans h.1 hx, by have := h.2; omega⟩
      · exact endsBy_mono (ih (g := g) (b := b) (d.drop m) (by omega)) (by omega) (by omega)
          fun a x y x' y' hx hy h => ⟨Nat.le_trans h.1 hx, Nat.le_trans hy h.2⟩

theorem endsBy_readdirLoop (fd : Int) (rest res : List Bytes) (hg : rest.length < fuel) :
    EndsBy (readdirLoop fd fuel rest res) (b + rest.length + 1) g (Left b g) := by
  induction fuel generalizing rest res with
  | zero => exact absurd hg (by omega)
  | succ fuel ih =>
    refine ⟨by omega, fun r hr _ => ?_⟩
    rw [free_readdir]
    revert r; show ∀ r : Option Bytes, _; intro r hr _
    show EndsBy (match r with | none => _ | some d => _) _ _ _
    cases r with
    | none => exact ⟨by omega, by omega⟩
    | some d =>
      cases rest with
      | nil => exact (by rcases hr with h | h <;> cases h)
      | cons x l =>
        have := ih l (res ++ [d]) (by simp only [List.length_cons] at hg; omega)
        refine endsBy_mono this (by simp only [List.length_cons]; omega) (by omega) fun a x y x' y' hx hy h => ⟨Nat.le_trans h.1 hx, Nat.le_trans hy h.2⟩

theorem load_length (buf : WBuf) : ∀ (n : Nat) (d : Bytes), buf.load n = .ok d → d.length = n
  | 0, d, h => by cases h; rfl
  | n + 1, d, h => by
    unfold WBuf.load at h
    cases hl : buf.load n with
    | error e => rw [hl] at h; exact nomatch h
    | ok d0 =>
      rw [hl] at h
      replace h : (if n < kWritableFileBufferSize then
        match buf n with
        | some x => (pure (d0 ++ [x]) : M Bytes)
        | none => .error .uninit
        else .error .outOfBounds) = .ok d := h
      split at h
      · split at h
        · cases h
          rw [List.length_append, load_length buf n d0 hl]; rfl
        · exact nomatch h
      · exact nomatch h

theorem endsBy_Flush (f : WFile) (hg : f.pos + g < fuel) :
    EndsBy (FlushBuffer strerror fuel f) (b + f.pos) g (fun r b' g' => (b ≤ b' ∧ g' ≤ g) ∧ r.2.pos = 0) := by
  refine endsBy_then (endsBy_ofM (Q := fun d b' g' => d.length = f.pos ∧ b' = b + f.pos ∧ g' = g) fun d hd => ⟨load_length _ _ _ hd, rfl, rfl⟩) ?_
  intro d x y h
  obtain ⟨hd, hb, hy⟩ := h
  rw [hb, hy]
  refine endsBy_then (Q' := Left b g) ?_ ?_
  · rw [← hd]; exact endsBy_writeLoop strerror fuel f.fd f.filename d (by omega)
  · intro s b' g' h
    exact ⟨h, rfl⟩

/-- Any rest will do. -/
def Any : α → Nat → Nat → Prop := fun _ _ _ => True

theorem endsBy_any (h : EndsBy p b g Q) : EndsBy p b g Any := by
  induction p generalizing b g with
  | ret a => trivial
  | fault e => trivial
  | spin => exact h
  | call c k ih => exact ⟨h.1, fun r hr hc => ih r (h.2 r hr hc)⟩

theorem endsBy_up (h : EndsBy p b g Any) (hb : b ≤ b') (hg : g' ≤ g) : EndsBy p b' g' Any :=
  endsBy_mono h hb hg fun _ _ _ _ _ _ _ h => h

theorem endsBy_WriteUnbuffered (f : WFile) (d : Bytes) (hg : d.length + g < fuel) :
    EndsBy (WriteUnbuffered strerror fuel f d) (b + d.length) g (Left b g) := endsBy_writeLoop strerror fuel f.fd f.filename d hg

theorem endsBy_Append (f : WFile) (d : Slice) (hg : f.pos + d.len + g < fuel) :
    EndsBy (Append strerror fuel f d) (b + (f.pos + d.len)) g Any := by
  unfold Append
  refine endsBy_then (Q' := fun x b' g' => x.length = d.len ∧ b' = b + (f.pos + d.len) ∧ g' = g) (endsBy_ofM ?_) ?_
  · intro x hx
    refine ⟨?_, rfl, rfl⟩
    unfold Slice.toString at hx
    split at hx
    · injection hx with hx
      rw [← hx, List.length_take, List.length_drop]
      omega
    · exact nomatch hx
  intro x b1 g1 h1
  obtain ⟨hx, e1, e2⟩ := h1
  rw [e1, e2]
  refine endsBy_then (Q' := fun _ b' g' => b' = b + (f.pos + d.len) ∧ g' = g) (endsBy_ofM fun _ _ => ⟨rfl, rfl⟩) ?_
  intro buf b1 g1 h1
  obtain ⟨e1, e2⟩ := h1
  rw [e1, e2]
  refine endsBy_if (fun _ => trivial) fun _ => ?_
  generalize hc : min d.len (kWritableFileBufferSize - f.pos) = c
  have hcl : c ≤ d.len := by omega
  refine endsBy_then (endsBy_mono (endsBy_Flush strerror fuel { f with buf := buf, pos := f.pos + c } (g := g) (b := b + (d.len - c))
    (by show f.pos + c + g < fuel; omega)) (by show _ + (f.pos + c) ≤ _; omega) (Nat.le_refl _)
      (Q' := fun _ b' g' => b + (d.len - c) ≤ b' ∧ g' ≤ g) fun _ _ _ _ _ h1 h2 h => ⟨Nat.le_trans h.1.1 h1, Nat.le_trans h2 h.1.2⟩) ?_
  intro sf b1 g1 h1
  refine endsBy_if (fun _ => trivial) fun _ => ?_
  refine endsBy_if (fun _ => ?_) fun _ => ?_
  · exact endsBy_then (Q' := Any) (endsBy_ofM fun _ _ => trivial) fun _ _ _ _ => trivial
  · have hl : (x.drop c).length = d.len - c := by rw [List.length_drop, hx]
    refine endsBy_then (Q' := Any) ?_ fun _ _ _ _ => trivial
    exact endsBy_up (endsBy_any (endsBy_WriteUnbuffered strerror fuel sf.2 (x.drop c) (g := g) (b := b) (by omega))) (by omega) h1.2

theorem endsBy_Close (f : WFile) (hg : f.pos + g < fuel) :
    EndsBy (Close strerror fuel f) (b + f.pos + 1) g Any := by
  unfold Close
  refine endsBy_then (endsBy_mono (endsBy_Flush strerror fuel f (b := b + 1) hg) (by omega) (Nat.le_refl _)
      (Q' := Left (b + 1) g) fun _ _ _ _ _ h1 h2 h => ⟨Nat.le_trans h.1.1 h1, Nat.le_trans h2 h.1.2⟩) ?_
  intro sf b1 g1 h1
  exact endsBy_go (free_close _) (by have := h1.1; omega) fun _ => trivial

theorem endsBy_fullSync (fd : Int) : EndsBy (fullSync full fd) (b + 1) g (Left b g) := by
  refine endsBy_if (fun _ => ?_) fun _ => ⟨by omega, Nat.le_refl _⟩
  exact ⟨by omega, fun r _ _ => ⟨by omega, by omega⟩⟩

theorem endsBy_SyncFd (fd : Int) (n : Bytes) : EndsBy (SyncFd strerror full fd n) (b + 2) g (Left b g) := by
  refine endsBy_then (endsBy_fullSync full fd (b := b + 1)) ?_
  intro r b1 g1 h1
  have h11 := h1.1
  cases r with
  | ok x => exact ⟨by omega, h1.2⟩
  | error e =>
    refine endsBy_go (free_sync _) (by omega) fun r => ?_
    revert r; show ∀ r : Except Errno Unit, _; intro r
    cases r with
    | ok x => exact ⟨by omega, h1.2⟩
    | error e => exact ⟨by omega, h1.2⟩

theorem endsBy_SyncDir (f : WFile) : EndsBy (SyncDirIfManifest strerror full f) (b + 4) g (Left b g) := by
  refine endsBy_if (fun _ => ?_) fun _ => ⟨by omega, Nat.le_refl _⟩
  refine endsBy_go (free_open _ _) (by omega) fun r => ?_
  revert r; show ∀ r : Except Errno Int, _; intro r
  cases r with
  | error e => exact ⟨by omega, Nat.le_refl _⟩
  | ok fd =>
    refine endsBy_then (endsBy_SyncFd strerror full fd f.dirname (b := b + 1)) ?_
    intro s b1 g1 h1
    have h11 := h1.1
    exact endsBy_go (free_close _) (by omega) fun _ => ⟨by omega, h1.2⟩

theorem endsBy_Sync (f : WFile) (hg : f.pos + g < fuel) : EndsBy (Sync strerror full fuel f) (b + f.pos + 6) g Any := by
  unfold Sync
  refine endsBy_then (endsBy_SyncDir strerror full f (b := b + f.pos + 2)) ?_
  intro s b1 g1 h1
  have h11 := h1.1
  have h12 := h1.2
  refine endsBy_if (fun _ => trivial) fun _ => ?_
  refine endsBy_then (endsBy_mono (endsBy_Flush strerror fuel f (b := b + 2) (g := g1) (by omega)) (by omega) (Nat.le_refl _)
      (Q' := Left (b + 2) g) fun _ _ _ _ _ h1 h2 h => ⟨Nat.le_trans h.1.1 h1, by have := h.1.2; omega⟩) ?_
  intro sf b2 g2 h2
  refine endsBy_if (fun _ => trivial) fun _ => ?_
  refine endsBy_then (Q' := Any) ?_ fun _ _ _ _ => trivial
  exact endsBy_up (endsBy_any (endsBy_SyncFd strerror full sf.2.fd sf.2.filename (b := b) (g := g2))) h2.1 (Nat.le_refl _)

/-- The object and the call are fine together. -/
theorem endsBy_body (op : POp) (o : Option Obj) (hg : toWrite op o + g < fuel) :
    EndsBy (body strerror full fuel op o) (6 + toWrite op o) g Any := by
  have hthen : ∀ {α β : Type} {p : Prog α} {f : α → Prog β} {b g : Nat}, EndsBy p b g Any → (∀ a b g, EndsBy (f a) b g Any) →
      EndsBy (p >>= f) b g Any := fun h hf => endsBy_then (Q' := Any) h fun a b g _ => hf a b g
  cases op with
  | newSequential n =>
    refine endsBy_go (free_open _ _) (by omega) fun r => ?_
    revert r; show ∀ r : Except Errno Int, _; intro r
    cases r <;> trivial
  | newRandomAccess n =>
    refine endsBy_go (free_open _ _) (by omega) fun r => ?_
    revert r; show ∀ r : Except Errno Int, _; intro r
    cases r with
    | error e => trivial
    | ok fd =>
      refine ⟨by omega, fun r _ _ => ?_⟩
      rw [free_fetchSub]
      revert r; show ∀ r : Int, _; intro r _ _
      show EndsBy (Prog.bind (if r > 0 then _ else _) _) _ _ _
      by_cases hr : r > 0
      · rw [if_pos hr]
        show EndsBy (mapFile strerror fd n >>= _) _ _ _
        unfold mapFile GetFileSize
        refine endsBy_then (Q' := fun _ b' g' => 2 ≤ b') ?_ ?_
        · refine endsBy_then (Q' := fun _ b' g' => 3 ≤ b') ?_ ?_
          · refine endsBy_go (free_stat _) (by omega) fun r => ?_
            revert r; show ∀ r : Except Errno Nat, _; intro r
            cases r with
            | error e => show 3 ≤ _; omega
            | ok fd => show 3 ≤ _; omega
          · intro a b1 g1 hb
            refine endsBy_if (fun _ => ?_) fun _ => by show 2 ≤ _; omega
            refine endsBy_go (free_mmap _ _) (by omega) fun r => ?_
            revert r; show ∀ r : Except Errno Nat, _; intro r
            cases r with
            | error e => show 2 ≤ _; omega
            | ok fd => show 2 ≤ _; omega
        · intro a b1 g1 hb
          refine endsBy_go (free_close _) (by omega) fun r => ?_
          obtain ⟨s, ob⟩ := a
          cases ob with
          | some x => trivial
          | none => exact endsBy_go (free_fetchAdd _) (by omega) fun _ => trivial
      · rw [if_neg hr]
        refine ⟨by omega, fun r _ _ => ?_⟩
        rw [free_fetchAdd]
        show EndsBy (newRandFile n fd >>= _) _ _ _
        refine hthen ?_ fun _ _ _ => trivial
        unfold newRandFile
        refine endsBy_then (endsBy_mono (endsBy_Acquire .fd (b := 1) (g := g)) (by omega) (by omega)
          (Q' := Left 1 g) fun _ _ _ _ _ h1 h2 h => ⟨Nat.le_trans h.1 h1, Nat.le_trans h2 h.2⟩) ?_
        intro ok b1 g1 h1
        refine endsBy_if (fun _ => trivial) fun _ => ?_
        refine endsBy_then (Q' := Left 1 g) (endsBy_ofM fun _ _ => h1) ?_
        intro _ b2 g2 h2
        exact endsBy_go (free_close _) h2.1 fun _ => trivial
  | newWritable n =>
    refine endsBy_go (free_open _ _) (by omega) fun r => ?_
    revert r; show ∀ r : Except Errno Int, _; intro r
    cases r with
    | error e => trivial
    | ok fd => exact hthen (endsBy_ofM fun _ _ => trivial) fun _ _ _ => trivial
  | newAppendable n =>
    refine endsBy_go (free_open _ _) (by omega) fun r => ?_
    revert r; show ∀ r : Except Errno Int, _; intro r
    cases r with
    | error e => trivial
    | ok fd => exact hthen (endsBy_ofM fun _ _ => trivial) fun _ _ _ => trivial
  | newLogger n =>
    refine endsBy_go (free_open _ _) (by omega) fun r => ?_
    revert r; show ∀ r : Except Errno Int, _; intro r
    cases r with
    | error e => trivial
    | ok fd =>
      refine endsBy_go (free_other _) (by omega) fun r => ?_
      revert r; show ∀ r : Except Errno Unit, _; intro r
      cases r with
      | ok x => trivial
      | error e =>
        refine endsBy_go (free_close _) (by omega) fun r => ?_
        revert r; show ∀ r : Except Errno Unit, _; intro r
        cases r <;> trivial
  | fileExists n =>
    refine hthen ?_ fun _ _ _ => trivial
    refine endsBy_go (free_access _) (by omega) fun r => ?_
    revert r; show ∀ r : Except Errno Unit, _; intro r
    cases r <;> trivial
  | getChildren d =>
    refine hthen ?_ fun _ _ _ => trivial
    refine ⟨by omega, fun r _ hc => ?_⟩
    revert r; show ∀ r : Except Errno (Int × List Bytes), _; intro r _ hc
    cases r with
    | error e => trivial
    | ok x =>
      obtain ⟨fd, l⟩ := x
      have e1 : cost (.opendir d) (.ok (fd, l)) = l.length := by
        show 0 + l.length = _
        omega
      rw [e1] at hc ⊢
      show EndsBy (readdirLoop fd fuel l [] >>= _) _ _ _
      refine endsBy_then (endsBy_mono (endsBy_readdirLoop fuel fd l [] (b := 1) (g := g) (by omega)) (by omega) (by omega)
          (Q' := Left 1 g) fun _ _ _ _ _ h1 h2 h => ⟨Nat.le_trans h.1 h1, Nat.le_trans h2 h.2⟩) ?_
      intro _ b1 g1 h1
      exact endsBy_go (free_close _) h1.1 fun _ => trivial
  | removeFile n => exact hthen (endsBy_go (free_unlink _) (by omega) fun _ => trivial) fun _ _ _ => trivial
  | createDir n => exact hthen (endsBy_go (free_mkdir _) (by omega) fun _ => trivial) fun _ _ _ => trivial
  | removeDir n => exact hthen (endsBy_go (free_rmdir _) (by omega) fun _ => trivial) fun _ _ _ => trivial
  | getFileSize n =>
    refine hthen (endsBy_go (free_stat _) (by omega) fun r => ?_) fun _ _ _ => trivial
    revert r; show ∀ r : Except Errno Nat, _; intro r
    cases r <;> trivial
  | renameFile x y => exact hthen (endsBy_go (free_rename _ _) (by omega) fun _ => trivial) fun _ _ _ => trivial
  | lockFile n =>
    refine endsBy_go (free_open _ _) (by omega) fun r => ?_
    revert r; show ∀ r : Except Errno Int, _; intro r
    cases r with
    | error e => trivial
    | ok fd =>
      refine endsBy_go (free_insert _) (by omega) fun r => ?_
      revert r; show ∀ r : Bool, _; intro r
      refine endsBy_if (fun _ => ?_) fun _ => ?_
      · refine endsBy_go (free_other _) (by omega) fun r => ?_
        revert r; show ∀ r : Except Errno Unit, _; intro r
        cases r with
        | ok x => trivial
        | error e =>
          refine endsBy_go (free_close _) (by omega) fun _ => ?_
          exact endsBy_go (free_remove _) (by omega) fun _ => trivial
      · exact endsBy_go (free_close _) (by omega) fun _ => trivial
  | unlockFile h =>
    rcases o with _ | ⟨f | f | f | f | ⟨fd, n'⟩ | fd⟩ <;> try trivial
    refine endsBy_go (free_other _) (by omega) fun r => ?_
    revert r; show ∀ r : Except Errno Unit, _; intro r
    cases r with
    | error e => trivial
    | ok x =>
      refine endsBy_go (free_remove _) (by omega) fun _ => ?_
      exact endsBy_go (free_close _) (by omega) fun _ => trivial
  | seqRead h n =>
    rcases o with _ | ⟨f | f | f | f | ⟨fd, n'⟩ | fd⟩ <;> try trivial
    refine hthen ?_ fun _ _ _ => trivial
    exact endsBy_up (endsBy_any (endsBy_seqReadLoop strerror fuel f n n (b := 0) (g := g) (by omega))) (by omega) (Nat.le_refl _)
  | seqSkip h n =>
    rcases o with _ | ⟨f | f | f | f | ⟨fd, n'⟩ | fd⟩ <;> try trivial
    refine hthen ?_ fun _ _ _ => trivial
    refine endsBy_go (free_lseek _ _) (by omega) fun r => ?_
    revert r; show ∀ r : Except Errno Nat, _; intro r
    cases r <;> trivial
  | randRead h off n =>
    rcases o with _ | ⟨f | f | f | f | ⟨fd, n'⟩ | fd⟩ <;> try trivial
    refine hthen ?_ fun _ _ _ => trivial
    unfold randRead randFd
    refine endsBy_then (Q' := fun _ b' _ => 2 ≤ b') ?_ ?_
    · refine endsBy_if (fun _ => by show 2 ≤ _; omega) fun _ => ?_
      exact ⟨by omega, fun r _ _ => by show 2 ≤ _; omega⟩
    intro r b1 g1 h1
    cases r with
    | error e => trivial
    | ok fd =>
      refine endsBy_then (Q' := fun _ b' _ => 2 ≤ b') (endsBy_ofM fun _ _ => h1) ?_
      intro _ b2 g2 h2
      refine endsBy_go (free_pread _ _ _) (by omega) fun r => ?_
      refine endsBy_then (Q' := fun _ b' _ => 1 ≤ b') ?_ ?_
      · revert r; show ∀ r : Except Errno Bytes, _; intro r
        cases r with
        | error e => show 1 ≤ _; omega
        | ok x => exact endsBy_if (fun _ => by show 1 ≤ _; omega) fun _ => trivial
      · intro _ b3 g3 h3
        refine endsBy_if (fun _ => trivial) fun _ => ?_
        refine endsBy_then (Q' := fun _ b' _ => 1 ≤ b') (endsBy_ofM fun _ _ => h3) ?_
        intro _ b4 g4 h4
        exact endsBy_go (free_close _) h4 fun _ => trivial
  | write h wop =>
    rcases o with _ | ⟨f | f | f | f | ⟨fd, n'⟩ | fd⟩ <;> try trivial
    refine hthen ?_ fun _ _ _ => trivial
    cases wop with
    | append d => exact endsBy_up (endsBy_Append strerror fuel f d (b := 6) (g := g) hg) (Nat.le_refl _) (Nat.le_refl _)
    | flush => exact endsBy_up (endsBy_any (endsBy_Flush strerror fuel f (b := 6) (g := g) hg)) (Nat.le_refl _) (Nat.le_refl _)
    | sync => exact endsBy_up (endsBy_Sync strerror full fuel f (b := 0) (g := g) hg) (by show _ ≤ 6 + (f.pos + 0); omega) (Nat.le_refl _)
    | close => exact endsBy_up (endsBy_Close strerror fuel f (b := 0) (g := g) hg) (by show _ ≤ 6 + (f.pos + 0); omega) (Nat.le_refl _)
  | delete h =>
    rcases o with _ | ⟨f | f | f | f | ⟨fd, n'⟩ | fd⟩ <;> try trivial
    · exact hthen (endsBy_go (free_close _) (by omega) fun _ => trivial) fun _ _ _ => trivial
    · refine hthen ?_ fun _ _ _ => trivial
      refine endsBy_if (fun _ => ?_) fun _ => trivial
      refine endsBy_then (Q' := fun _ b' _ => 2 ≤ b') (endsBy_ofM fun _ _ => by show 2 ≤ _; omega) ?_
      intro _ b1 g1 h1
      refine endsBy_go (free_close _) (by omega) fun _ => ?_
      exact endsBy_go (free_fetchAdd _) (by omega) fun _ => trivial
    · refine hthen ?_ fun _ _ _ => trivial
      refine endsBy_go (free_munmap _) (by omega) fun _ => ?_
      exact endsBy_go (free_fetchAdd _) (by omega) fun _ => trivial
    · refine hthen ?_ fun _ _ _ => trivial
      refine endsBy_if (fun _ => ?_) fun _ => trivial
      refine hthen ?_ fun _ _ _ => trivial
      exact endsBy_up (endsBy_Close strerror fuel f (b := 0) (g := g) hg) (by show _ ≤ 6 + f.pos; omega) (Nat.le_refl _)
    · exact hthen (endsBy_go (free_close _) (by omega) fun _ => trivial) fun _ _ _ => trivial

end Conc
end Posix
end Lsmdb
