import Verif.Proof.MemConc10

/-!
# Careful clients are disciplined
-/

namespace Lsmdb
namespace MemConc
open MemEnv Spec
open CacheConc (Tid)

variable {H : Hist} {t : Tid} {o : Op} {a : Atom}

/-! ## Sums over threads -/

/-- The sum of a weight over all threads. -/
def Total {α : Type} (now : Tid → α) (W : α → Nat) (n : Nat) : Prop :=
  ∃ L : List Tid, L.Nodup ∧ (∀ t, t ∉ L → W (now t) = 0) ∧ (L.map fun t => W (now t)).sum = n

theorem Total.upd {α : Type} {now : Tid → α} {W : α → Nat} {n : Nat} (h : Total now W n) (t : Tid) (x : α) :
    W (now t) ≤ n ∧ Total (Lsmdb.upd now t x) W (n - W (now t) + W x) := by
  obtain ⟨L, hn, h0, hs⟩ := h
  have key : ∃ L', t ∉ L' ∧ L'.Nodup ∧ (∀ u, u ∉ t :: L' → W (now u) = 0) ∧
      W (now t) + (L'.map fun t => W (now t)).sum = n := by
    by_cases ht : t ∈ L
    · refine ⟨L.erase t, ?_, hn.erase t, ?_, ?_⟩
      · rw [hn.mem_erase_iff]; simp
      · intro u hu
        refine h0 u (fun hm => hu ?_)
        by_cases e : u = t
        · simp [e]
        · exact List.mem_cons_of_mem _ ((List.mem_erase_of_ne e).mpr hm)
      · have hp := (List.perm_cons_erase ht).map (fun t => W (now t))
        rw [← hs, hp.sum_nat]; simp
    · refine ⟨L, ht, hn, fun u hu => h0 u (fun hm => hu (List.mem_cons_of_mem _ hm)), ?_⟩
      rw [h0 t ht, hs]; omega
  obtain ⟨L', ht, hn', h0', hs'⟩ := key
  refine ⟨by omega, t :: L', List.nodup_cons.mpr ⟨ht, hn'⟩, ?_, ?_⟩
  · intro u hu
    have : u ≠ t := fun e => hu (by simp [e])
    rw [upd_other _ _ this]
    exact h0' u hu
  · rw [List.map_cons, List.sum_cons]
    have : (L'.map fun u => W (Lsmdb.upd now t x u)) = L'.map fun u => W (now u) := by
      refine List.map_congr_left (fun u hu => ?_)
      have : u ≠ t := fun e => ht (e ▸ hu)
      rw [upd_other _ _ this]
    rw [this, upd_same]
    omega

/-! ## The atomic file system: bounds -/

/-- The sum of a cost over all calls. -/
def costs (c : Op → Nat) : Hist → Nat
  | [] => 0
  | .call _ o :: H => c o + costs c H
  | .ret _ _ :: H => costs c H

/-- The cost of a call that has had no effect. -/
def ahead (c : Op → Nat) : Option (Op × Phase) → Nat
  | some (o, .start) => c o
  | _ => 0

theorem Atomic.budget {c : Op → Nat} {F : FS → Nat} (h0 : F FS.init = 0) (hn : ∀ fs o, F (fs.next o) ≤ F fs + c o)
    (ho : ∀ fs f, F { fs with obj := f } = F fs) (r : Atomic a H) :
    ∃ n, Total a.now (ahead c) n ∧ F a.fs + n ≤ costs c H := by
  induction r with
  | init => exact ⟨0, ⟨[], by simp, fun _ _ => rfl, rfl⟩, by rw [h0]; simp [costs]⟩
  | @call a H t o r h ih =>
    obtain ⟨n, T, hb⟩ := ih
    obtain ⟨_, T'⟩ := T.upd t (some (o, .start))
    rw [h] at T'
    refine ⟨_, T', ?_⟩
    simp only [ahead, costs, Nat.sub_zero]
    omega
  | @moment a H t o p p' fs r h m ih =>
    obtain ⟨n, T, hb⟩ := ih
    obtain ⟨hle, T'⟩ := T.upd t (some (o, p'))
    rw [h] at T' hle
    refine ⟨_, T', ?_⟩
    cases m with
    | op hs ha =>
      have := hn a.fs o
      simp only [ahead] at hle ⊢
      omega
    | beyond _ hx hh => simp only [ahead] at hle ⊢; omega
    | check _ hx hh => simp only [ahead] at hle ⊢; omega
    | move _ hx hh => simp only [ahead] at hle ⊢; rw [ho]; omega
  | @ret a H t o x r h ih =>
    obtain ⟨n, T, hb⟩ := ih
    obtain ⟨_, T'⟩ := T.upd t none
    rw [h] at T'
    refine ⟨_, T', ?_⟩
    simp only [ahead, costs, Nat.sub_zero]
    exact hb

theorem Atomic.bound {c : Op → Nat} {F : FS → Nat} (h0 : F FS.init = 0) (hn : ∀ fs o, F (fs.next o) ≤ F fs + c o)
    (ho : ∀ fs f, F { fs with obj := f } = F fs) (r : Atomic a H) :
    F a.fs ≤ costs c H ∧ ∀ t o, a.now t = some (o, .start) → F a.fs + c o ≤ costs c H := by
  obtain ⟨n, T, hb⟩ := r.budget h0 hn ho
  refine ⟨by omega, fun t o h => ?_⟩
  have := (T.upd t none).1
  rw [h] at this
  simp only [ahead] at this
  omega

theorem costs_opens : ∀ H, costs (fun o => if (makes o).isSome then 1 else 0) H = opens H := by
  intro H
  induction H with
  | nil => rfl
  | cons e H ih => cases e <;> simp only [costs, opens, ih]

theorem costs_bytes : ∀ H, costs bytesOf H = appended H := by
  intro H
  induction H with
  | nil => rfl
  | cons e H ih => cases e <;> simp only [costs, appended, ih]

theorem Atomic.opens (r : Atomic a H) {t : Tid} {o : Op} (h : a.now t = some (o, .start)) (hm : (makes o).isSome) :
    a.fs.opened + 1 ≤ opens H := by
  have := (r.bound (c := fun o => if (makes o).isSome then 1 else 0) (F := FS.opened) rfl ?_ (fun _ _ => rfl)).2 t o h
  · simp only [if_pos hm, costs_opens] at this
    exact this
  · intro fs o
    cases o <;> simp only [FS.next, makes] <;> (try split) <;> (try split) <;> simp [FS.withObj]

theorem bytes_length_le (d : Slice) : d.bytes.length ≤ d.len := by
  unfold Slice.bytes
  rw [List.length_take]
  exact Nat.min_le_left _ _

theorem Atomic.appended (r : Atomic a H) {t : Tid} {h : Nat} {d : Slice} (hn : a.now t = some (.append h d, .start)) (i : Nat) :
    (a.fs.data i).length + d.len ≤ appended H := by
  have := (r.bound (c := bytesOf) (F := fun fs => (fs.data i).length) rfl ?_ (fun _ _ => rfl)).2 t _ hn
  · rw [costs_bytes] at this
    exact this
  · intro fs o
    have hu : ∀ j, (upd fs.data j [] i).length ≤ (fs.data i).length := by
      intro j
      by_cases e : i = j
      · subst e; rw [upd_same]; exact Nat.zero_le _
      · rw [upd_other _ _ e]
    cases o with
    | newWritable n =>
      simp only [FS.next]
      split <;> exact Nat.le_trans (hu _) (Nat.le_add_right _ _)
    | newAppendable n =>
      simp only [FS.next]
      split
      · exact Nat.le_trans (hu _) (Nat.le_add_right _ _)
      · exact Nat.le_add_right _ _
    | append x e =>
      simp only [FS.next]
      split
      · rename_i j _
        by_cases e' : i = j
        · subst e'
          simp only [upd_same, List.length_append, bytesOf]
          have := bytes_length_le e
          omega
        · simp only [upd_other _ _ e']; exact Nat.le_add_right _ _
      · exact Nat.le_add_right _ _
    | newSequential n => simp only [FS.next]; split <;> exact Nat.le_add_right _ _
    | newRandomAccess n => simp only [FS.next]; split <;> exact Nat.le_add_right _ _
    | renameFile x y => simp only [FS.next]; split <;> (try split) <;> exact Nat.le_add_right _ _
    | seqRead x y => simp only [FS.next]; split <;> (try split) <;> exact Nat.le_add_right _ _
    | seqSkip x y => simp only [FS.next]; split <;> (try split) <;> exact Nat.le_add_right _ _
    | _ => exact Nat.le_add_right _ _

/-! ## The calls were permitted -/

/-- Every call was permitted when it was made. -/
def AllPermitted (H : Hist) : Prop := ∀ t o H0, (.call t o :: H0) <:+ H → Permitted H0 o

theorem AllPermitted.suffix {H' : Hist} (h : AllPermitted H) (hs : H' <:+ H) : AllPermitted H' :=
  fun t o H0 h0 => h t o H0 (h0.trans hs)

theorem AllPermitted.tail {e : Ev} (h : AllPermitted (e :: H)) : AllPermitted H := h.suffix (List.suffix_cons _ _)

theorem Run.permitted {w : World} (r : Run w H) : AllPermitted H := by
  induction r with
  | init => intro t o H0 h; have := h.length_le; simp at this
  | internal _ _ ih => exact ih
  | call r s p ih =>
    intro t o H0 h
    rcases List.suffix_cons_iff.mp h with h | h
    · injection h with h1 h2
      injection h1 with h1 h3
      subst h2; subst h3
      exact p
    · exact ih t o H0 h
  | ret r s ih =>
    intro t o H0 h
    rcases List.suffix_cons_iff.mp h with h | h
    · injection h with h1 h2; cases h1
    · exact ih t o H0 h

theorem Atomic.pend (r : Atomic a H) : ∀ t, pending H t = (a.now t).map Prod.fst := by
  induction r with
  | init => intro t; rfl
  | @call a H t o r h ih =>
    intro u
    show (if t = u then some o else pending H u) = (upd a.now t (some (o, .start)) u).map Prod.fst
    by_cases e : t = u
    · subst e; rw [if_pos rfl, upd_same]; rfl
    · rw [if_neg e, upd_other _ _ (Ne.symm e)]; exact ih u
  | @moment a H t o p p' fs r h m ih =>
    intro u
    show _ = (upd a.now t (some (o, p')) u).map Prod.fst
    rw [ih u]
    by_cases e : u = t
    · subst e; rw [upd_same, h]; rfl
    · rw [upd_other _ _ e]
  | @ret a H t o x r h ih =>
    intro u
    show (if t = u then none else pending H u) = (upd a.now t none u).map Prod.fst
    by_cases e : t = u
    · subst e; rw [if_pos rfl, upd_same]; rfl
    · rw [if_neg e, upd_other _ _ (Ne.symm e)]; exact ih u

/-- A call for a file object whose deletion was called is that deletion. -/
theorem AllPermitted.deleting {t u : Tid} {o : Op} {h : Nat} : ∀ {H}, AllPermitted H → pending H t = some o → target o = some h →
    Ev.call u (.delete h) ∈ H → o = .delete h ∧ u = t := by
  intro H
  induction H with
  | nil => intro _ h; cases h
  | cons e H ih =>
    intro ap hp ht hm
    cases e with
    | call v o' =>
      have pm := ap v o' H (List.suffix_refl _)
      simp only [pending] at hp
      by_cases e : v = t
      · rw [if_pos e] at hp
        injection hp with hp
        subst hp
        rcases List.mem_cons.mp hm with hm | hm
        · injection hm with h1 h2
          exact ⟨h2.symm, h1.trans e⟩
        · exact absurd hm (pm.notDeleted h ht u)
      · rw [if_neg e] at hp
        rcases List.mem_cons.mp hm with hm | hm
        · injection hm with h1 h2
          subst h2
          exact (pm.shared h rfl t o hp ht).1.elim
        · exact ih ap.tail hp ht hm
    | ret v x =>
      simp only [pending] at hp
      by_cases e : v = t
      · rw [if_pos e] at hp; cases hp
      · rw [if_neg e] at hp
        rcases List.mem_cons.mp hm with hm | hm
        · cases hm
        · exact ih ap.tail hp ht hm

/-- A call of a method of the Env when its destruction was called is that destruction. -/
theorem AllPermitted.destroying {t u : Tid} {o : Op} : ∀ {H}, AllPermitted H → pending H t = some o → target o = none →
    Ev.call u .destroyEnv ∈ H → o = .destroyEnv := by
  intro H
  induction H with
  | nil => intro _ h; cases h
  | cons e H ih =>
    intro ap hp ht hm
    cases e with
    | call v o' =>
      have pm := ap v o' H (List.suffix_refl _)
      simp only [pending] at hp
      by_cases e : v = t
      · rw [if_pos e] at hp
        injection hp with hp
        subst hp
        rcases List.mem_cons.mp hm with hm | hm
        · injection hm with h1 h2
          exact h2.symm
        · exact absurd hm (pm.notDestroyed ht u)
      · rw [if_neg e] at hp
        rcases List.mem_cons.mp hm with hm | hm
        · injection hm with h1 h2
          exact absurd ht (pm.last h2.symm t o hp)
        · exact ih ap.tail hp ht hm
    | ret v x =>
      simp only [pending] at hp
      by_cases e : v = t
      · rw [if_pos e] at hp; cases hp
      · rw [if_neg e] at hp
        rcases List.mem_cons.mp hm with hm | hm
        · cases hm
        · exact ih ap.tail hp ht hm

/-! ## File objects -/

/-- The kind of a file object. -/
def kindOf : Obj → Kind
  | .seq _ _ => .seq
  | .rand _ => .rand
  | .wr _ => .wr

/-- Where the file objects come from, and when they go. -/
structure Origin (a : Atom) (H : Hist) (κ : Nat → Kind) : Prop where
  obj : ∀ h x, a.fs.obj h = some x → h < a.fs.opened ∧ kindOf x = κ h
  now : ∀ t o s h, a.now t = some (o, .done (.opened s (some h))) → h < a.fs.opened ∧ makes o = some (κ h)
  ret : ∀ o s h, Returned H o (.opened s (some h)) → h < a.fs.opened ∧ makes o = some (κ h)
  gone : ∀ h, h < a.fs.opened → a.fs.obj h = none → ∃ u, Ev.call u (.delete h) ∈ H ∧
    ∀ p, a.now u = some (.delete h, p) → ∃ r, p = .done r

theorem returned_cons {e : Ev} {x : Res} (hr : Returned (e :: H) o x) :
    Returned H o x ∨ ∃ t, e = .ret t x ∧ pending H t = some o := by
  obtain ⟨t, H0, hs, hp⟩ := hr
  rcases List.suffix_cons_iff.mp hs with h | h
  · injection h with h1 h2
    subst h2
    exact .inr ⟨t, h1.symm, hp⟩
  · exact .inl ⟨t, H0, h, hp⟩

/-- How one moment changes the file objects: one new one of the kind that the call makes, which is also its answer; or none, and then
each old one stays, with the exception of a deleted one. -/
theorem Moment.objs {fs fs' : FS} {p p' : Phase} (m : Moment o fs p fs' p') :
    (∃ x s, fs'.opened = fs.opened + 1 ∧ fs'.obj = upd fs.obj fs.opened (some x) ∧ makes o = some (kindOf x) ∧
      p' = .done (.opened s (some fs.opened))) ∨
    (fs'.opened = fs.opened ∧ (∀ s h, p' ≠ .done (.opened s (some h))) ∧
      ∀ h, (fs'.obj h = none ∧ o = .delete h ∧ ∃ r, p' = .done r) ∨ (fs'.obj h).map kindOf = (fs.obj h).map kindOf) := by
  have one : ∀ {x : Nat} {i pos pos' : Nat}, fs.obj x = some (.seq i pos) → ∀ h,
      (upd fs.obj x (some (.seq i pos')) h).map kindOf = (fs.obj h).map kindOf := by
    intro x i pos pos' hx h
    by_cases e : h = x
    · subst e; rw [upd_same, hx]; rfl
    · rw [upd_other _ _ e]
  cases m with
  | beyond _ _ _ => exact .inr ⟨rfl, by (intro s h e; injection e with e; cases e), fun _ => .inr rfl⟩
  | check _ _ _ => exact .inr ⟨rfl, by (intro s h e; cases e), fun _ => .inr rfl⟩
  | move _ hx _ => exact .inr ⟨rfl, by (intro s h e; injection e with e; cases e), fun h => .inr (one hx h)⟩
  | @op r hs ha =>
    cases o with
    | newSequential n =>
      simp only [FS.Answer, FS.openAnswer] at ha
      cases hf : fs.name n with
      | none =>
        rw [hf] at ha; subst ha
        right
        simp only [FS.next, hf]
        exact ⟨by simp, by (intro s h e; injection e with e; injection e with e1 e2; cases e2), by simp⟩
      | some i =>
        rw [hf] at ha; subst ha
        left
        simp only [FS.next, hf]
        exact ⟨_, _, rfl, rfl, rfl, rfl⟩
    | newRandomAccess n =>
      simp only [FS.Answer, FS.openAnswer] at ha
      cases hf : fs.name n with
      | none =>
        rw [hf] at ha; subst ha
        right
        simp only [FS.next, hf]
        exact ⟨by simp, by (intro s h e; injection e with e; injection e with e1 e2; cases e2), by simp⟩
      | some i =>
        rw [hf] at ha; subst ha
        left
        simp only [FS.next, hf]
        exact ⟨_, _, rfl, rfl, rfl, rfl⟩
    | newWritable n =>
      simp only [FS.Answer] at ha
      subst ha
      left
      cases hf : fs.name n <;> simp only [FS.next, hf] <;> exact ⟨_, _, rfl, rfl, rfl, rfl⟩
    | newAppendable n =>
      simp only [FS.Answer] at ha
      subst ha
      left
      cases hf : fs.name n <;> simp only [FS.next, hf] <;> exact ⟨_, _, rfl, rfl, rfl, rfl⟩
    | seqRead x n =>
      right
      simp only [FS.Answer] at ha
      split at ha
      · rename_i i pos hx
        refine ⟨?_, ?_, ?_⟩
        · simp only [FS.next, hx]; split <;> rfl
        · intro s h e
          injection e with e
          unfold FS.readAnswer at ha
          rw [e] at ha
          split at ha <;> cases ha
        · intro h
          right
          simp only [FS.next, hx]
          split
          · exact one hx h
          · rfl
      · exact ha.elim
    | randRead x off n =>
      right
      simp only [FS.Answer] at ha
      split at ha
      · refine ⟨rfl, ?_, fun _ => .inr rfl⟩
        intro s h e
        injection e with e
        unfold FS.readAnswer at ha
        rw [e] at ha
        split at ha <;> cases ha
      · exact ha.elim
    | seqSkip x n => exact absurd trivial hs
    | delete x =>
      right
      simp only [FS.Answer] at ha
      subst ha
      refine ⟨rfl, by (intro s h e; injection e with e; cases e), fun h => ?_⟩
      simp only [FS.next]
      by_cases e : h = x
      · subst e; exact .inl ⟨upd_same _ _ _, rfl, _, rfl⟩
      · right; rw [upd_other _ _ e]
    | append x d =>
      right
      simp only [FS.Answer] at ha
      subst ha
      refine ⟨?_, by (intro s h e; injection e with e; cases e), fun h => .inr ?_⟩
      · simp only [FS.next]; split <;> rfl
      · simp only [FS.next]; split <;> rfl
    | renameFile x y =>
      right
      simp only [FS.Answer] at ha
      refine ⟨?_, ?_, fun h => .inr ?_⟩
      · simp only [FS.next]; split <;> (try split) <;> rfl
      · intro s h e
        injection e with e
        rw [e] at ha
        split at ha <;> cases ha
      · simp only [FS.next]; split <;> (try split) <;> rfl
    | getChildren d =>
      right
      simp only [FS.Answer] at ha
      obtain ⟨l, rfl, _⟩ := ha
      exact ⟨rfl, by (intro s h e; injection e with e; cases e), fun _ => .inr rfl⟩
    | fileExists n =>
      right
      simp only [FS.Answer] at ha
      subst ha
      exact ⟨rfl, by (intro s h e; injection e with e; cases e), fun _ => .inr rfl⟩
    | removeFile n =>
      right
      simp only [FS.Answer] at ha
      refine ⟨rfl, ?_, fun _ => .inr rfl⟩
      intro s h e
      injection e with e
      rw [e] at ha
      split at ha <;> cases ha
    | getFileSize n =>
      right
      simp only [FS.Answer] at ha
      refine ⟨rfl, ?_, fun _ => .inr rfl⟩
      intro s h e
      injection e with e
      rw [e] at ha
      split at ha <;> cases ha
    | _ =>
      right
      simp only [FS.Answer] at ha
      subst ha
      exact ⟨rfl, by (intro s h e; injection e with e; cases e), fun _ => .inr rfl⟩

theorem Atomic.origin (r : Atomic a H) (ap : AllPermitted H) : ∃ κ, Origin a H κ := by
  induction r with
  | init =>
    refine ⟨fun _ => .seq, ⟨?_, ?_, ?_, ?_⟩⟩
    · intro h x e; cases e
    · intro t o s h e; cases e
    · rintro o s h ⟨t, H0, hs, _⟩
      have := hs.length_le; simp at this
    · intro h hh; exact absurd hh (Nat.not_lt_zero _)
  | @call a H t o r h ih =>
    obtain ⟨κ, i⟩ := ih ap.tail
    refine ⟨κ, i.obj, ?_, ?_, ?_⟩
    · intro u o' s x hu
      rcases upd_eq_some hu with ⟨_, e⟩ | ⟨ne, e⟩
      · cases e
      · exact i.now u o' s x e
    · intro o' s x hr
      rcases returned_cons hr with hr | ⟨_, e, _⟩
      · exact i.ret o' s x hr
      · cases e
    · intro x hx hn
      obtain ⟨u, h1, h2⟩ := i.gone x hx hn
      refine ⟨u, List.mem_cons_of_mem _ h1, fun p hp => ?_⟩
      rcases upd_eq_some hp with ⟨_, e⟩ | ⟨ne, e⟩
      · injection e with e
        injection e with e1 e2
        exact absurd h1 ((ap t o H (List.suffix_refl _)).notDeleted x (by rw [e1]; rfl) u)
      · exact h2 p e
  | @moment a H t o p p' fs r h m ih =>
    obtain ⟨κ, i⟩ := ih ap
    have hc : Ev.call t o ∈ H := pending_mem (by rw [r.pend, h]; rfl)
    rcases m.objs with ⟨x, s, h1, h2, h3, h4⟩ | ⟨h1, h2, h3⟩
    · have keep : ∀ k, k < a.fs.opened → upd κ a.fs.opened (kindOf x) k = κ k := by
        intro k hk; exact upd_other _ _ (by omega)
      refine ⟨upd κ a.fs.opened (kindOf x), ?_, ?_, ?_, ?_⟩
      · intro k y hk
        rw [show (⟨fs, upd a.now t (some (o, p'))⟩ : Atom).fs.obj k = fs.obj k from rfl, h2] at hk
        rw [show (⟨fs, upd a.now t (some (o, p'))⟩ : Atom).fs.opened = fs.opened from rfl, h1]
        by_cases e : k = a.fs.opened
        · subst e
          rw [upd_same] at hk ⊢
          injection hk with hk
          subst hk
          exact ⟨Nat.lt_succ_self _, rfl⟩
        · rw [upd_other _ _ e] at hk
          obtain ⟨g1, g2⟩ := i.obj k y hk
          rw [keep k g1]
          exact ⟨Nat.lt_succ_of_lt g1, g2⟩
      · intro u o' s' k hu
        rw [show (⟨fs, upd a.now t (some (o, p'))⟩ : Atom).fs.opened = fs.opened from rfl, h1]
        rcases upd_eq_some hu with ⟨_, e⟩ | ⟨ne, e⟩
        · injection e with e
          injection e with e1 e2
          subst e1
          rw [h4] at e2
          injection e2 with e2
          injection e2 with e2 e3
          injection e3 with e3
          subst e3
          rw [upd_same]
          exact ⟨Nat.lt_succ_self _, h3⟩
        · obtain ⟨g1, g2⟩ := i.now u o' s' k e
          rw [keep k g1]
          exact ⟨Nat.lt_succ_of_lt g1, g2⟩
      · intro o' s' k hr
        rw [show (⟨fs, upd a.now t (some (o, p'))⟩ : Atom).fs.opened = fs.opened from rfl, h1]
        obtain ⟨g1, g2⟩ := i.ret o' s' k hr
        rw [keep k g1]
        exact ⟨Nat.lt_succ_of_lt g1, g2⟩
      · intro k hk hn
        rw [show (⟨fs, upd a.now t (some (o, p'))⟩ : Atom).fs.opened = fs.opened from rfl, h1] at hk
        rw [show (⟨fs, upd a.now t (some (o, p'))⟩ : Atom).fs.obj k = fs.obj k from rfl, h2] at hn
        by_cases e : k = a.fs.opened
        · subst e; rw [upd_same] at hn; cases hn
        · rw [upd_other _ _ e] at hn
          obtain ⟨u, g1, g2⟩ := i.gone k (by omega) hn
          refine ⟨u, g1, fun q hq => ?_⟩
          rcases upd_eq_some hq with ⟨_, e'⟩ | ⟨ne, e'⟩
          · injection e' with e'
            injection e' with e1 e2
            rw [e1] at h3; cases h3
          · exact g2 q e'
    · refine ⟨κ, ?_, ?_, ?_, ?_⟩
      · intro k y hk
        rw [show (⟨fs, upd a.now t (some (o, p'))⟩ : Atom).fs.opened = fs.opened from rfl, h1]
        rcases h3 k with ⟨g1, _⟩ | g1
        · rw [show (⟨fs, upd a.now t (some (o, p'))⟩ : Atom).fs.obj k = fs.obj k from rfl, g1] at hk; cases hk
        · rw [show fs.obj k = some y from hk] at g1
          cases e : a.fs.obj k with
          | none => rw [e] at g1; cases g1
          | some z =>
            rw [e] at g1
            injection g1 with g1
            rw [g1]
            exact i.obj k z e
      · intro u o' s' k hu
        rw [show (⟨fs, upd a.now t (some (o, p'))⟩ : Atom).fs.opened = fs.opened from rfl, h1]
        rcases upd_eq_some hu with ⟨_, e⟩ | ⟨ne, e⟩
        · injection e with e
          injection e with e1 e2
          exact absurd e2 (h2 s' k)
        · exact i.now u o' s' k e
      · intro o' s' k hr
        rw [show (⟨fs, upd a.now t (some (o, p'))⟩ : Atom).fs.opened = fs.opened from rfl, h1]
        exact i.ret o' s' k hr
      · intro k hk hn
        rw [show (⟨fs, upd a.now t (some (o, p'))⟩ : Atom).fs.opened = fs.opened from rfl, h1] at hk
        have hn' : fs.obj k = none := hn
        have key : ∀ u, Ev.call u (.delete k) ∈ H → (∀ q, a.now u = some (.delete k, q) → ∃ r, q = .done r) →
            ∃ u, Ev.call u (.delete k) ∈ H ∧ ∀ q, upd a.now t (some (o, p')) u = some (.delete k, q) → ∃ r, q = .done r := by
          intro u g1 g2
          refine ⟨u, g1, fun q hq => ?_⟩
          rcases upd_eq_some hq with ⟨e, e'⟩ | ⟨ne, e'⟩
          · injection e' with e'
            injection e' with e1 e2
            subst e; subst e1
            obtain ⟨r', e3⟩ := g2 p h
            subst e3
            cases m
          · exact g2 q e'
        rcases h3 k with ⟨_, g1, r', g2⟩ | g1
        · subst g1
          refine ⟨t, hc, fun q hq => ?_⟩
          rw [show (⟨fs, upd a.now t (some (.delete k, p'))⟩ : Atom).now t = some (.delete k, p') from upd_same _ _ _] at hq
          injection hq with hq
          injection hq with _ hq
          exact ⟨r', hq ▸ g2⟩
        · rw [hn'] at g1
          cases e : a.fs.obj k with
          | some z => rw [e] at g1; cases g1
          | none =>
            obtain ⟨u, g2, g3⟩ := i.gone k hk e
            exact key u g2 g3
  | @ret a H t o x r h ih =>
    obtain ⟨κ, i⟩ := ih ap.tail
    refine ⟨κ, i.obj, ?_, ?_, ?_⟩
    · intro u o' s y hu
      rcases upd_eq_some hu with ⟨_, e⟩ | ⟨ne, e⟩
      · cases e
      · exact i.now u o' s y e
    · intro o' s y hr
      rcases returned_cons hr with hr | ⟨u, e, hp⟩
      · exact i.ret o' s y hr
      · injection e with e1 e2
        subst e1; subst e2
        rw [r.pend, h] at hp
        injection hp with hp
        subst hp
        exact i.now t _ s y h
    · intro y hy hn
      obtain ⟨u, h1, h2⟩ := i.gone y hy hn
      refine ⟨u, List.mem_cons_of_mem _ h1, fun p hp => ?_⟩
      rcases upd_eq_some hp with ⟨_, e⟩ | ⟨ne, e⟩
      · cases e
      · exact h2 p e

/-! ## Names -/

/-- The name was created and nobody takes it away. -/
theorem Atomic.named (r : Atomic a H) (n : Bytes) (h1 : ∀ u, Ev.call u (.removeFile n) ∉ H) (h2 : ∀ u b, Ev.call u (.renameFile n b) ∉ H)
    (h3 : ∀ u, Ev.call u .destroyEnv ∉ H) :
    ((∃ x, Returned H (.newWritable n) x) → (a.fs.name n).isSome) ∧
    (∀ t x, a.now t = some (.newWritable n, .done x) → (a.fs.name n).isSome) := by
  induction r with
  | init =>
    refine ⟨?_, ?_⟩
    · rintro ⟨x, t, H0, hs, _⟩
      have := hs.length_le; simp at this
    · intro t x h; cases h
  | @call a H t o r h ih =>
    obtain ⟨i1, i2⟩ := ih (fun u hm => h1 u (List.mem_cons_of_mem _ hm)) (fun u b hm => h2 u b (List.mem_cons_of_mem _ hm))
      (fun u hm => h3 u (List.mem_cons_of_mem _ hm))
    refine ⟨?_, ?_⟩
    · rintro ⟨x, hr⟩
      rcases returned_cons hr with hr | ⟨_, e, _⟩
      · exact i1 ⟨x, hr⟩
      · cases e
    · intro u x hu
      rcases upd_eq_some hu with ⟨_, e⟩ | ⟨ne, e⟩
      · cases e
      · exact i2 u x e
  | @ret a H t o y r h ih =>
    obtain ⟨i1, i2⟩ := ih (fun u hm => h1 u (List.mem_cons_of_mem _ hm)) (fun u b hm => h2 u b (List.mem_cons_of_mem _ hm))
      (fun u hm => h3 u (List.mem_cons_of_mem _ hm))
    refine ⟨?_, ?_⟩
    · rintro ⟨x, hr⟩
      rcases returned_cons hr with hr | ⟨u, e, hp⟩
      · exact i1 ⟨x, hr⟩
      · injection e with e1 e2
        subst e1; subst e2
        rw [r.pend, h] at hp
        injection hp with hp
        subst hp
        exact i2 _ _ h
    · intro u x hu
      rcases upd_eq_some hu with ⟨_, e⟩ | ⟨ne, e⟩
      · cases e
      · exact i2 u x e
  | @moment a H t o p p' fs r h m ih =>
    obtain ⟨i1, i2⟩ := ih h1 h2 h3
    have hc : Ev.call t o ∈ H := pending_mem (by rw [r.pend, h]; rfl)
    have key : ((a.fs.name n).isSome → (fs.name n).isSome) ∧ (o = .newWritable n → (fs.name n).isSome) := by
      cases m with
      | beyond ho _ _ => exact ⟨_root_.id, by (intro e; rw [ho] at e; cases e)⟩
      | check ho _ _ => exact ⟨_root_.id, by (intro e; rw [ho] at e; cases e)⟩
      | move ho _ _ => exact ⟨_root_.id, by (intro e; rw [ho] at e; cases e)⟩
      | op hs ha =>
        have up : ∀ m i, (a.fs.name n).isSome → (upd a.fs.name m (some i) n).isSome := by
          intro m i hi
          by_cases e : n = m
          · subst e; rw [upd_same]; rfl
          · rw [upd_other _ _ e]; exact hi
        cases o with
        | newSequential m => exact ⟨by (simp only [FS.next]; split <;> exact _root_.id), by (intro e; cases e)⟩
        | newRandomAccess m => exact ⟨by (simp only [FS.next]; split <;> exact _root_.id), by (intro e; cases e)⟩
        | newWritable m =>
          constructor
          · simp only [FS.next]
            split
            · exact up _ _
            · exact _root_.id
          · intro e
            injection e with e
            subst e
            simp only [FS.next]
            split
            · simp only [FS.withObj, upd_same]; rfl
            · rename_i i hi
              simp only [FS.withObj]; rw [hi]; rfl
        | newAppendable m =>
          refine ⟨?_, by (intro e; cases e)⟩
          simp only [FS.next]
          split
          · exact up _ _
          · exact _root_.id
        | removeFile m =>
          refine ⟨?_, by (intro e; cases e)⟩
          intro hi
          have : n ≠ m := by rintro rfl; exact h1 t hc
          simp only [FS.next]
          rw [upd_other _ _ this]; exact hi
        | renameFile x y =>
          refine ⟨?_, by (intro e; cases e)⟩
          intro hi
          have : n ≠ x := by rintro rfl; exact h2 t y hc
          simp only [FS.next]
          split
          · exact hi
          · split
            · exact hi
            · simp only [upd_other _ _ this]; exact up _ _ hi
        | seqRead x k => exact ⟨by (simp only [FS.next]; split <;> (try split) <;> exact _root_.id), by (intro e; cases e)⟩
        | seqSkip x k => exact absurd trivial hs
        | append x d => exact ⟨by (simp only [FS.next]; split <;> exact _root_.id), by (intro e; cases e)⟩
        | destroyEnv => exact absurd hc (h3 t)
        | _ => exact ⟨_root_.id, by (intro e; cases e)⟩
    refine ⟨fun hr => key.1 (i1 hr), ?_⟩
    intro u x hu
    rcases upd_eq_some hu with ⟨_, e⟩ | ⟨ne, e⟩
    · injection e with e
      injection e with e1 e2
      exact key.2 e1
    · exact key.1 (i2 u x e)

/-! ## The result -/

/-- The call event of the call that a thread is in. -/
theorem pending_suffix {t : Tid} {o : Op} : ∀ {H : Hist}, pending H t = some o → ∃ H0, (.call t o :: H0) <:+ H := by
  intro H
  induction H with
  | nil => intro h; cases h
  | cons e H ih =>
    intro h
    have tail : pending H t = some o → ∃ H0, (.call t o :: H0) <:+ e :: H := by
      intro h
      obtain ⟨H0, h0⟩ := ih h
      exact ⟨H0, h0.trans (List.suffix_cons _ _)⟩
    cases e with
    | call u o' =>
      simp only [pending] at h
      by_cases hu : u = t
      · rw [if_pos hu] at h; injection h with h; subst hu; subst h; exact ⟨H, List.suffix_refl _⟩
      · rw [if_neg hu] at h; exact tail h
    | ret u r =>
      simp only [pending] at h
      by_cases hu : u = t
      · rw [if_pos hu] at h; cases h
      · rw [if_neg hu] at h; exact tail h

theorem opens_suffix {H' : Hist} (h : H' <:+ H) : opens H' ≤ opens H := by
  obtain ⟨l, rfl⟩ := h
  induction l with
  | nil => exact Nat.le_refl _
  | cons e l ih =>
    rw [List.cons_append]
    cases e with
    | call u o => simp only [opens]; omega
    | ret u r => simp only [opens]; exact ih

theorem appended_suffix {H' : Hist} (h : H' <:+ H) : appended H' ≤ appended H := by
  obtain ⟨l, rfl⟩ := h
  induction l with
  | nil => exact Nat.le_refl _
  | cons e l ih =>
    rw [List.cons_append]
    cases e with
    | call u o => simp only [appended]; omega
    | ret u r => simp only [appended]; exact ih

/-- Every returned handle was returned for a call. -/
theorem Atomic.returned (r : Atomic a H) {t : Tid} {x : Res} (h : Ev.ret t x ∈ H) : ∃ o, Returned H o x := by
  induction r with
  | init => cases h
  | call r _ ih =>
    rcases List.mem_cons.mp h with h | h
    · cases h
    · obtain ⟨o, u, H0, h1, h2⟩ := ih h
      exact ⟨o, u, H0, h1.trans (List.suffix_cons _ _), h2⟩
  | moment _ _ _ ih => exact ih h
  | @ret a H u o y r hn ih =>
    rcases List.mem_cons.mp h with h | h
    · injection h with h1 h2
      subst h1; subst h2
      exact ⟨o, t, H, List.suffix_refl _, by rw [r.pend, hn]; rfl⟩
    · obtain ⟨o, u, H0, h1, h2⟩ := ih h
      exact ⟨o, u, H0, h1.trans (List.suffix_cons _ _), h2⟩

theorem Careful.disciplined (c : Careful H) (ap : AllPermitted H) : Disciplined H := by
  intro a H' hs r t o p hn hp
  have ap' := ap.suffix hs
  have hpe : pending H' t = some o := by rw [r.pend, hn]; rfl
  obtain ⟨H0, hsuf⟩ := pending_suffix hpe
  have pm := ap' t o H0 hsuf
  have hm' : Ev.call t o ∈ H' := pending_mem hpe
  have hm : Ev.call t o ∈ H := hs.subset hm'
  obtain ⟨κ, i⟩ := r.origin ap'
  -- Skip apart, a call that has had no effect is at its start
  have start : ¬ IsSkip o → p = .start := by
    intro hns
    cases p with
    | start => rfl
    | done x => exact absurd rfl (hp x)
    | checked =>
      exfalso
      clear hpe hp hm hm' pm hsuf hs ap' i c ap
      induction r with
      | init => cases hn
      | call _ _ ih =>
        rcases upd_eq_some hn with ⟨_, e⟩ | ⟨_, e⟩
        · cases e
        · exact ih e
      | @moment _ _ _ _ _ _ _ _ _ m ih =>
        rcases upd_eq_some hn with ⟨_, e⟩ | ⟨_, e⟩
        · injection e with e
          injection e with e1 e2
          subst e1
          cases m with
          | op => cases e2
          | beyond => cases e2
          | check ho => rw [ho] at hns; exact hns trivial
          | move => cases e2
        · exact ih e
      | ret _ _ ih =>
        rcases upd_eq_some hn with ⟨_, e⟩ | ⟨_, e⟩
        · cases e
        · exact ih e
  have live : ∀ h, target o = some h → ∃ x, a.fs.obj h = some x ∧ ∀ k, needs o = some (h, k) → kindOf x = k := by
    intro h ht
    obtain ⟨u, s, hr⟩ := pm.known h ht
    have hr' : Ev.ret u (.opened s (some h)) ∈ H' := hsuf.subset (List.mem_cons_of_mem _ hr)
    obtain ⟨o', hro⟩ := r.returned hr'
    obtain ⟨h1, h2⟩ := i.ret o' s h hro
    cases e : a.fs.obj h with
    | none =>
      exfalso
      obtain ⟨v, g1, g2⟩ := i.gone h h1 e
      obtain ⟨g3, g4⟩ := ap'.deleting hpe ht g1
      subst g3; subst g4
      obtain ⟨x, e'⟩ := g2 p hn
      exact hp x e'
    | some x =>
      refine ⟨x, rfl, fun k hk => ?_⟩
      rw [(i.obj h x e).2]
      obtain ⟨v, H1, g1, g2⟩ := hro
      have := c.kind t o h k o' s hm hk ⟨v, H1, g1.trans hs, g2⟩
      rw [h2] at this
      injection this
  have nopen : (makes o).isSome → ¬ IsSkip o → a.fs.opened + 2 < 2 ^ 31 := by
    intro hmk hns
    have h1 := r.opens (by rw [hn, start hns]) hmk
    have h2 := opens_suffix hs
    have h3 := c.opens
    omega
  have kWr : ∀ {x : Obj}, kindOf x = .wr → ∃ j, x = .wr j := by
    intro x h; cases x with
    | wr j => exact ⟨j, rfl⟩
    | seq _ _ => cases h
    | rand _ => cases h
  have kSeq : ∀ {x : Obj}, kindOf x = .seq → ∃ j pos, x = .seq j pos := by
    intro x h; cases x with
    | seq j pos => exact ⟨j, pos, rfl⟩
    | wr _ => cases h
    | rand _ => cases h
  have kRand : ∀ {x : Obj}, kindOf x = .rand → ∃ j, x = .rand j := by
    intro x h; cases x with
    | rand j => exact ⟨j, rfl⟩
    | seq _ _ => cases h
    | wr _ => cases h
  cases o with
  | newSequential n => exact nopen rfl _root_.id
  | newRandomAccess n => exact nopen rfl _root_.id
  | newWritable n => exact nopen rfl _root_.id
  | newAppendable n =>
    refine ⟨nopen rfl _root_.id, ?_⟩
    obtain ⟨⟨x, hx⟩, hno⟩ := c.appendable t n H0 (hsuf.trans hs)
    refine (r.named n ?_ ?_ ?_).1 ?_
    · intro u hu; exact (hno u).1 (hs.subset hu)
    · intro u b hu; exact (hno u).2 b (hs.subset hu)
    · intro u hu
      have := ap'.destroying hpe rfl hu
      cases this
    · obtain ⟨v, H1, g1, g2⟩ := hx
      exact ⟨x, v, H1, (g1.trans (List.suffix_cons _ _)).trans hsuf, g2⟩
  | renameFile x y => exact .inl (c.rename t x y hm)
  | seqRead h n =>
    obtain ⟨x, h1, h2⟩ := live h rfl
    obtain ⟨j, pos, rfl⟩ := kSeq (h2 _ rfl)
    exact ⟨j, pos, h1⟩
  | seqSkip h n =>
    obtain ⟨x, h1, h2⟩ := live h rfl
    obtain ⟨j, pos, rfl⟩ := kSeq (h2 _ rfl)
    exact ⟨j, pos, h1⟩
  | randRead h off n =>
    obtain ⟨x, h1, h2⟩ := live h rfl
    obtain ⟨j, rfl⟩ := kRand (h2 _ rfl)
    exact ⟨j, h1⟩
  | append h d =>
    obtain ⟨x, h1, h2⟩ := live h rfl
    obtain ⟨j, rfl⟩ := kWr (h2 _ rfl)
    refine ⟨c.slices t h d hm, j, h1, ?_⟩
    have g1 := r.appended (by rw [hn, start _root_.id]) j
    have g2 := appended_suffix hs
    have g3 := c.bytes
    omega
  | close h =>
    obtain ⟨x, h1, h2⟩ := live h rfl
    obtain ⟨j, rfl⟩ := kWr (h2 _ rfl)
    exact ⟨j, h1⟩
  | flush h =>
    obtain ⟨x, h1, h2⟩ := live h rfl
    obtain ⟨j, rfl⟩ := kWr (h2 _ rfl)
    exact ⟨j, h1⟩
  | sync h =>
    obtain ⟨x, h1, h2⟩ := live h rfl
    obtain ⟨j, rfl⟩ := kWr (h2 _ rfl)
    exact ⟨j, h1⟩
  | delete h =>
    obtain ⟨x, h1, _⟩ := live h rfl
    show (a.fs.obj h).isSome
    rw [h1]; rfl
  | _ => exact trivial

end MemConc
end Lsmdb
