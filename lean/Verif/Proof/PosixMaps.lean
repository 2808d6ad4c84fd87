import Verif.Proof.PosixPres

/-! # The mapping behind a memory-mapped file object -/

namespace Lsmdb
namespace Posix

open MemEnv (St lit)

variable (strerror : Strerror) (full : Bool)

/-- No new memory-mapped file objects. -/
def NoNew (e : PEnv) (e' : PEnv) : Prop := ∀ h f, e'.has h (.mmap f) → e.has h (.mmap f)

theorem NoNew.objs {e e' : PEnv} (h : e'.objs = e.objs) : NoNew e e' := by
  intro i f hf; unfold PEnv.has at *; rw [h] at hf; exact hf

theorem NoNew.push {e e' : PEnv} {o : Obj} (h : e'.objs = e.objs ++ [some o]) (ho : ∀ f, o ≠ .mmap f) : NoNew e e' := by
  intro i f hf
  unfold PEnv.has at *
  rw [h] at hf
  rcases get_push hf with ⟨h1⟩ | ⟨h1, h2⟩
  · exact h1
  · injection h2 with h2; exact absurd h2.symm (ho f)

theorem NoNew.set {e e' : PEnv} {i : Nat} {o : Option Obj} (h : e'.objs = e.objs.set i o) (ho : ∀ f, o ≠ some (.mmap f)) :
    NoNew e e' := by
  intro j f hf
  unfold PEnv.has at *
  rw [h] at hf
  rcases get_set hf with ⟨_, h2⟩ | ⟨_, h2⟩
  · exact h2
  · exact absurd h2.symm (ho f)

/-- The result of the code, whenever it returns, satisfies `Q`. -/
structure PostP {α : Type} (Q : α → Prop) (x : P α) : Prop where
  out : ∀ w a w', x w = .done a w' → Q a

theorem PostP.bind {α β : Type} {x : P α} {f : α → P β} {R : α → Prop} {Q : β → Prop} (hx : PostP R x)
    (h : ∀ a, R a → PostP Q (f a)) : PostP Q (x >>= f) := by
  refine ⟨fun w b w' he => ?_⟩
  rw [bind_eq] at he
  cases hx' : x w with
  | done a w1 => rw [hx'] at he; exact (h a (hx.out w a w1 hx')).out w1 b w' he
  | crash w1 => rw [hx'] at he; exact nomatch he
  | fault e => rw [hx'] at he; exact nomatch he

theorem PostP.any {α β : Type} {x : P α} {f : α → P β} {Q : β → Prop} (h : ∀ a, PostP Q (f a)) : PostP Q (x >>= f) :=
  PostP.bind (R := fun _ => True) ⟨fun _ _ _ _ => trivial⟩ (fun a _ => h a)

theorem PostP.pure {α : Type} {a : α} {Q : α → Prop} (h : Q a) : PostP Q (Pure.pure a : P α) := by
  refine ⟨fun w b w' he => ?_⟩
  rw [pure_eq] at he
  injection he with he _
  subst he; exact h

theorem PostP.error {α : Type} {f : Fault} {Q : α → Prop} : PostP Q (Posix.pureM (.error f) : P α) :=
  ⟨fun _ _ _ he => nomatch he⟩

/-- Decompose. -/
macro "post_tac" : tactic => `(tactic| repeat' first
  | exact PostP.pure (NoNew.objs rfl)
  | exact PostP.pure (NoNew.push rfl (fun _ h => nomatch h))
  | exact PostP.pure (NoNew.set rfl (fun _ h => nomatch h))
  | exact PostP.error
  | refine PostP.any (fun _ => ?_) | split | dsimp only [])

theorem NewSequential_noNew (e : PEnv) (n : Bytes) : PostP (fun r => NoNew e r.2.2) (e.NewSequentialFile strerror n) := by
  unfold PEnv.NewSequentialFile; post_tac
theorem newWFile_noNew (e : PEnv) (m : Mode) (n : Bytes) : PostP (fun r => NoNew e r.2.2) (e.newWFile strerror m n) := by
  unfold PEnv.newWFile; post_tac
theorem NewLogger_noNew (e : PEnv) (n : Bytes) : PostP (fun r => NoNew e r.2.2) (e.NewLogger strerror n) := by
  unfold PEnv.NewLogger; post_tac
theorem LockFile_noNew (e : PEnv) (n : Bytes) : PostP (fun r => NoNew e r.2.2) (e.LockFile strerror n) := by
  unfold PEnv.LockFile; post_tac
theorem UnlockFile_noNew (e : PEnv) (n : Nat) : PostP (fun r => NoNew e r.2) (e.UnlockFile strerror n) := by
  unfold PEnv.UnlockFile; post_tac
theorem delete_noNew (e : PEnv) (n : Nat) : PostP (fun r => NoNew e r) (e.delete strerror n) := by
  unfold PEnv.delete; post_tac

theorem step_noNew (e : PEnv) (op : POp) (h1 : ∀ n, op ≠ .newRandomAccess n) :
    PostP (fun r => NoNew e r.1) (e.step strerror full op) := by
  cases op <;> unfold PEnv.step
  case newRandomAccess n => exact absurd rfl (h1 n)
  case newSequential n => exact PostP.bind (NewSequential_noNew strerror e n) fun _ h => PostP.pure h
  case newWritable n => exact PostP.bind (newWFile_noNew strerror e _ n) fun _ h => PostP.pure h
  case newAppendable n => exact PostP.bind (newWFile_noNew strerror e _ n) fun _ h => PostP.pure h
  case newLogger n => exact PostP.bind (NewLogger_noNew strerror e n) fun _ h => PostP.pure h
  case lockFile n => exact PostP.bind (LockFile_noNew strerror e n) fun _ h => PostP.pure h
  case unlockFile n => exact PostP.bind (UnlockFile_noNew strerror e n) fun _ h => PostP.pure h
  case delete n => exact PostP.bind (delete_noNew strerror e n) fun _ h => PostP.pure h
  all_goals post_tac

/-- Every memory-mapped file object has a mapping of its length, of its own. -/
structure MapsOk (e : PEnv) (w : World) : Prop where
  len : ∀ h f, e.has h (.mmap f) → ∃ ino, w.k.maps[f.mmap_base]? = some (some (ino, f.length))
  uniq : ∀ h h' f f', e.has h (.mmap f) → e.has h' (.mmap f') → f.mmap_base = f'.mmap_base → h = h'

theorem MapsOk.same {e e' : PEnv} {w w' : World} (h : MapsOk e w) (hn : NoNew e e') (hm : w'.k.maps = w.k.maps) :
    MapsOk e' w' := by
  refine ⟨fun i f hf => ?_, fun i j f g hf hg => h.uniq i j f g (hn i f hf) (hn j g hg)⟩
  rw [hm]
  exact h.len i f (hn i f hf)

theorem KeepsMaps.sameAt {c : Choice} (h : KeepsMaps c) : ∀ k, SameAt Kernel.maps k (c.other k) := h

/-- `mmap` either fails and changes no mapping, or adds one of the given length. -/
theorem sysMmap_maps {w : World} (hk : ∀ c ∈ w.choices, KeepsMaps c) (fd : Int) (len : Nat) (r : Except Errno Nat) (w' : World)
    (h : sysMmap fd len w = .done r w') : w'.choices <:+ w.choices ∧
      ((∃ e, r = .error e ∧ w'.k.maps = w.k.maps) ∨ ∃ ino, r = .ok w.k.maps.length ∧
        w'.k.maps = w.k.maps ++ [some (ino, len)]) := by
  unfold sysMmap sys at h
  cases hw : w.choices with
  | nil => rw [hw] at h; exact nomatch h
  | cons c cs =>
    rw [hw] at h
    have hc : (c.other w.k).maps = w.k.maps := hk c (by rw [hw]; exact List.mem_cons_self) w.k
    injection h with h1 h2
    subst h1 h2
    refine ⟨List.suffix_cons _ _, ?_⟩
    cases hf : c.fail with
    | some e => left; exact ⟨e, by simp only [hf], by simp only [hf]; exact hc⟩
    | none =>
      simp only [hf]
      split
      · exact .inl ⟨_, rfl, hc⟩
      · split
        · exact .inl ⟨_, rfl, hc⟩
        · rename_i i _
          exact .inr ⟨i, by simp only [hc], by simp only [hc]⟩

theorem NewRandom_mapsOk {e : PEnv} {w : World} (hm : MapsOk e w) (hk : ∀ c ∈ w.choices, KeepsMaps c) (n : Bytes)
    (r : St × Option Nat × PEnv) (w' : World) (h : e.NewRandomAccessFile strerror n w = .done r w') :
    MapsOk r.2.2 w' ∧ w'.choices <:+ w.choices := by
  have sat : (e.NewRandomAccessFile strerror n w).Sat (fun r w' => MapsOk r.2.2 w' ∧ w'.choices <:+ w.choices) (fun _ => True) ∨
      ∃ f, e.NewRandomAccessFile strerror n w = .fault f := by
    unfold PEnv.NewRandomAccessFile
    rw [bind_eq]
    cases ho : sysOpen .rdonly n w with
    | crash w1 => exact .inl trivial
    | fault f => exact .inr ⟨f, rfl⟩
    | done r w1 =>
      obtain ⟨o1, o2⟩ := (sysOpen_maps .rdonly n).out w r w1 (fun c hc => (hk c hc).sameAt) ho
      have hk1 : ∀ c ∈ w1.choices, KeepsMaps c := fun c hc => hk c (o2.subset hc)
      cases r with
      | error er => exact .inl ⟨hm.same (NoNew.objs rfl) o1, o2⟩
      | ok fd =>
        simp only []
        cases hacq : (Limiter.Acquire e.mmap_limiter).1 with
        | false =>
          simp only [Bool.false_eq_true, if_false]
          rw [bind_eq]
          cases hr : RandFile.new n fd e.fd_limiter w1 with
          | crash w2 => exact .inl trivial
          | fault f => exact .inr ⟨f, rfl⟩
          | done r w2 =>
            obtain ⟨p1, p2⟩ := (RandNew_maps n fd e.fd_limiter).out w1 r w2 (fun c hc => (hk1 c hc).sameAt) hr
            exact .inl ⟨hm.same (NoNew.push (o := .rand r.1) rfl (fun _ h => nomatch h)) (p1.trans o1), p2.trans o2⟩
        | true =>
          simp only [if_true]
          rw [bind_eq]
          cases hg : GetFileSize strerror n w1 with
          | crash w2 => exact .inl trivial
          | fault f => exact .inr ⟨f, rfl⟩
          | done r w2 =>
            obtain ⟨p1, p2⟩ := (GetFileSize_maps strerror n).out w1 r w2 (fun c hc => (hk1 c hc).sameAt) hg
            have hk2 : ∀ c ∈ w2.choices, KeepsMaps c := fun c hc => hk1 c (p2.subset hc)
            have hclose : ∀ (w3 : World) (r' : St × Option Nat × PEnv) , (∀ c ∈ w3.choices, KeepsMaps c) → MapsOk r'.2.2 w3 →
                w3.choices <:+ w.choices →
                ((do
                  let _ ← sysClose fd
                  if r'.1 ≠ St.ok then
                    pure (r'.1, r'.2.1, { r'.2.2 with mmap_limiter := Limiter.Release r'.2.2.mmap_limiter })
                  else pure (r'.1, r'.2.1, r'.2.2) : P (St × Option Nat × PEnv)) w3).Sat
                  (fun r w' => MapsOk r.2.2 w' ∧ w'.choices <:+ w.choices) (fun _ => True) := by
              intro w3 r' hk3 hm3 hs3
              have : ∃ y : World → Out (Except Errno Unit), y = sysClose fd := ⟨_, rfl⟩
              rw [bind_eq]
              cases hcl : sysClose fd w3 with
              | crash w4 => exact trivial
              | fault f =>
                unfold sysClose sys at hcl
                split at hcl <;> exact nomatch hcl
              | done x w4 =>
                obtain ⟨q1, q2⟩ := (sysClose_maps fd).out w3 x w4 (fun c hc => (hk3 c hc).sameAt) hcl
                simp only []
                split
                · exact ⟨hm3.same (NoNew.objs rfl) q1, q2.trans hs3⟩
                · exact ⟨hm3.same (NoNew.objs rfl) q1, q2.trans hs3⟩
            simp only []
            split
            · rw [bind_eq]
              cases hmm : sysMmap fd r.2 w2 with
              | crash w3 => exact .inl trivial
              | fault f =>
                unfold sysMmap sys at hmm
                split at hmm <;> exact nomatch hmm
              | done x w3 =>
                obtain ⟨s1, s2⟩ := sysMmap_maps hk2 fd r.2 x w3 hmm
                have hk3 : ∀ c ∈ w3.choices, KeepsMaps c := fun c hc => hk2 c (s1.subset hc)
                left
                rcases s2 with ⟨er, rfl, s2⟩ | ⟨ino, rfl, s2⟩
                · simp only []
                  apply Out.Sat.bind
                  apply Out.Sat.pure
                  exact hclose w3 (PosixError strerror n er, none, _) hk3
                    (hm.same (NoNew.objs rfl) (s2.trans (p1.trans o1))) (s1.trans (p2.trans o2))
                · simp only []
                  apply Out.Sat.bind
                  apply Out.Sat.pure
                  refine hclose w3 (_, _, (PEnv.alloc _ _).2) hk3 ?_ (s1.trans (p2.trans o2))
                  have hmaps : w3.k.maps = w.k.maps ++ [some (ino, r.2)] := by rw [s2, p1, o1]
                  have hw2 : w2.k.maps = w.k.maps := p1.trans o1
                  have hlt : ∀ i f, e.has i (.mmap f) → f.mmap_base < w.k.maps.length := by
                    intro i f hf
                    obtain ⟨ino', hi⟩ := hm.len i f hf
                    rcases Nat.lt_or_ge f.mmap_base w.k.maps.length with hl | hl
                    · exact hl
                    · rw [List.getElem?_eq_none hl] at hi; exact nomatch hi
                  have hcase : ∀ i f, (PEnv.alloc { e with mmap_limiter := (Limiter.Acquire e.mmap_limiter).2 }
                      (.mmap ⟨w2.k.maps.length, r.2, n⟩)).2.has i (.mmap f) →
                      e.has i (.mmap f) ∨ (i = e.objs.length ∧ f.mmap_base = w.k.maps.length ∧ f.length = r.2) := by
                    intro i f hf
                    unfold PEnv.has PEnv.alloc at hf
                    rcases get_push hf with hf | ⟨h1, hf⟩
                    · exact .inl hf
                    · injection hf with hf
                      injection hf with hf
                      subst hf
                      exact .inr ⟨h1, by rw [hw2], rfl⟩
                  refine ⟨fun i f hf => ?_, fun i j f g hf hg hb => ?_⟩
                  · rcases hcase i f hf with hf | ⟨_, h1, h2⟩
                    · obtain ⟨ino', hi⟩ := hm.len i f hf
                      exact ⟨ino', by rw [hmaps]; exact push_get hi⟩
                    · exact ⟨ino, by rw [hmaps, h1, h2]; simp⟩
                  · rcases hcase i f hf with hf | ⟨h0, h1, _⟩ <;> rcases hcase j g hg with hg | ⟨g0, g1, _⟩
                    · exact hm.uniq i j f g hf hg hb
                    · have := hlt i f hf; omega
                    · have := hlt j g hg; omega
                    · rw [h0, g0]
            · apply Or.inl
              apply Out.Sat.bind
              apply Out.Sat.pure
              exact hclose w2 (r.1, none, _) hk2 (hm.same (NoNew.objs rfl) (p1.trans o1)) (p2.trans o2)
  rcases sat with h' | ⟨f, h'⟩
  · exact h'.done h
  · rw [h'] at h; exact nomatch h

theorem sysMunmap_maps {w : World} (hk : ∀ c ∈ w.choices, KeepsMaps c) (m : Nat) (r : Except Errno Unit) (w' : World)
    (h : sysMunmap m w = .done r w') : w'.choices <:+ w.choices ∧
      (w'.k.maps = w.k.maps ∨ w'.k.maps = w.k.maps.set m none) := by
  unfold sysMunmap sys at h
  cases hw : w.choices with
  | nil => rw [hw] at h; exact nomatch h
  | cons c cs =>
    rw [hw] at h
    have hc : (c.other w.k).maps = w.k.maps := hk c (by rw [hw]; exact List.mem_cons_self) w.k
    injection h with h1 h2
    subst h1 h2
    refine ⟨List.suffix_cons _ _, ?_⟩
    simp only []
    split
    · exact .inl hc
    · right; simp only [hc]

theorem delete_mapsOk {e : PEnv} {w : World} (hm : MapsOk e w) (hk : ∀ c ∈ w.choices, KeepsMaps c) (h : Nat)
    (e' : PEnv) (w' : World) (hd : e.delete strerror h w = .done e' w') :
    MapsOk e' w' ∧ w'.choices <:+ w.choices := by
  have hnn : NoNew e e' := (delete_noNew strerror e h).out w e' w' hd
  unfold PEnv.delete at hd
  rw [bind_eq] at hd
  cases hg : e.get h with
  | error f => rw [hg] at hd; exact nomatch hd
  | ok o =>
    rw [hg] at hd
    simp only [pureM] at hd
    by_cases ho : ∃ f, o = .mmap f
    · obtain ⟨f, rfl⟩ := ho
      simp only [bind_eq, MmapFile.destroy] at hd
      have hhas : e.has h (.mmap f) := by
        unfold PEnv.get at hg
        unfold PEnv.has
        split at hg
        · exact nomatch hg
        · exact nomatch hg
        · rename_i h1; injection hg with hg; subst hg; exact h1
      cases hmm : sysMunmap f.mmap_base w with
      | crash w1 => rw [hmm] at hd; exact nomatch hd
      | fault f => rw [hmm] at hd; exact nomatch hd
      | done x w1 =>
        rw [hmm] at hd
        simp only [pure_eq] at hd
        injection hd with h1 h2
        subst h2
        obtain ⟨g1, g2⟩ := sysMunmap_maps hk f.mmap_base x w1 hmm
        refine ⟨⟨fun i g hg => ?_, fun i j f g hf hg => hm.uniq i j f g (hnn i f hf) (hnn j g hg)⟩, g1⟩
        obtain ⟨ino, hi⟩ := hm.len i g (hnn i g hg)
        rcases g2 with g2 | g2
        · exact ⟨ino, by rw [g2]; exact hi⟩
        · refine ⟨ino, ?_⟩
          rw [g2, List.getElem?_set_ne]
          · exact hi
          · intro hb
            have := hm.uniq h i f g hhas (hnn i g hg) hb
            subst this
            subst h1
            unfold PEnv.has at hg
            simp only [] at hg
            rw [set_get_self hhas] at hg
            exact nomatch hg
    · have : Pres (SameAt Kernel.maps) (do
          let e ← match o with
            | .seq f => do let _ ← sysClose f.fd; pure e
            | .rand f => do let l ← f.destroy e.fd_limiter; pure { e with fd_limiter := l }
            | .mmap f => do let l ← f.destroy e.mmap_limiter; pure { e with mmap_limiter := l }
            | .wr f => do f.destroy strerror; pure e
            | .logger fd => do let _ ← sysClose fd; pure e
            | .lock _ _ => pureM (.error .outOfBounds)
          return { e with objs := e.objs.set h none } : P PEnv) := by
        cases o with
        | mmap f => exact absurd ⟨f, rfl⟩ ho
        | seq f => exact Pres.bind (sysClose_maps _) fun _ => Pres.bind (Pres.pure _) fun _ => Pres.pure _
        | rand f => exact Pres.bind (RandDestroy_maps _ _) fun _ => Pres.bind (Pres.pure _) fun _ => Pres.pure _
        | wr f => exact Pres.bind (wdestroy_maps strerror _) fun _ => Pres.bind (Pres.pure _) fun _ => Pres.pure _
        | lock fd n => exact Pres.bind (Pres.pureM _) fun _ => Pres.pure _
        | logger fd => exact Pres.bind (sysClose_maps _) fun _ => Pres.bind (Pres.pure _) fun _ => Pres.pure _
      obtain ⟨g1, g2⟩ := this.out w e' w' (fun c hc => (hk c hc).sameAt) hd
      exact ⟨hm.same hnn g1, g2⟩

theorem step_mapsOk {e : PEnv} {w : World} (hm : MapsOk e w) (hk : ∀ c ∈ w.choices, KeepsMaps c) (op : POp)
    (e' : PEnv) (r : PRes) (w' : World) (h : e.step strerror full op w = .done (e', r) w') :
    MapsOk e' w' ∧ w'.choices <:+ w.choices := by
  by_cases h1 : ∃ n, op = .newRandomAccess n
  · obtain ⟨n, rfl⟩ := h1
    simp only [PEnv.step, bind_eq] at h
    cases hx : e.NewRandomAccessFile strerror n w with
    | crash w1 => rw [hx] at h; exact nomatch h
    | fault f => rw [hx] at h; exact nomatch h
    | done x w1 =>
      rw [hx] at h
      simp only [pure_eq] at h
      injection h with h1 h2
      injection h1 with h1 _
      subst h1 h2
      exact NewRandom_mapsOk strerror hm hk n x w1 hx
  · by_cases h2 : ∃ n, op = .delete n
    · obtain ⟨n, rfl⟩ := h2
      simp only [PEnv.step, bind_eq] at h
      cases hx : e.delete strerror n w with
      | crash w1 => rw [hx] at h; exact nomatch h
      | fault f => rw [hx] at h; exact nomatch h
      | done x w1 =>
        rw [hx] at h
        simp only [pure_eq] at h
        injection h with h1 h2
        injection h1 with h1 _
        subst h1 h2
        exact delete_mapsOk strerror hm hk n x w1 hx
    · have h1 : ∀ n, op ≠ .newRandomAccess n := fun n hn => h1 ⟨n, hn⟩
      have h2 : ∀ n, op ≠ .delete n := fun n hn => h2 ⟨n, hn⟩
      obtain ⟨g1, g2⟩ := (step_maps strerror full e op h1 h2).out w (e', r) w' (fun c hc => (hk c hc).sameAt) h
      exact ⟨hm.same ((step_noNew strerror full e op h1).out w (e', r) w' h) g1, g2⟩

theorem run_mapsOk : ∀ (ops : List POp) (e : PEnv) (w : World), MapsOk e w → (∀ c ∈ w.choices, KeepsMaps c) →
    ∀ e' rs w', e.run strerror full ops w = .done (e', rs) w' → MapsOk e' w' ∧ w'.choices <:+ w.choices := by
  intro ops
  induction ops with
  | nil =>
    intro e w hm _ e' rs w' h
    unfold PEnv.run at h
    rw [pure_eq] at h
    injection h with h1 h2
    injection h1 with h1 _
    subst h1 h2
    exact ⟨hm, List.suffix_refl _⟩
  | cons op ops ih =>
    intro e w hm hk e' rs w' h
    unfold PEnv.run at h
    rw [bind_eq] at h
    cases hx : e.step strerror full op w with
    | crash w1 => rw [hx] at h; exact nomatch h
    | fault f => rw [hx] at h; exact nomatch h
    | done r w1 =>
      rw [hx] at h
      obtain ⟨g1, g2⟩ := step_mapsOk strerror full hm hk op r.1 r.2 w1 hx
      simp only [bind_eq] at h
      cases hy : r.1.run strerror full ops w1 with
      | crash w2 => rw [hy] at h; exact nomatch h
      | fault f => rw [hy] at h; exact nomatch h
      | done r2 w2 =>
        rw [hy] at h
        simp only [pure_eq] at h
        injection h with h1 h2
        injection h1 with h1 _
        subst h1 h2
        obtain ⟨k1, k2⟩ := ih r.1 w1 g1 (fun c hc => hk c (g2.subset hc)) r2.1 r2.2 w2 hy
        exact ⟨k1, k2.trans g2⟩

end Posix
end Lsmdb
