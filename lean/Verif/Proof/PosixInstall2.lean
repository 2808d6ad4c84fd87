import Verif.Proof.PosixInstall1
import Verif.Proof.PosixTrip

/-! Which names a step changes, and the rename that puts the new file in place. -/

namespace Lsmdb
namespace Posix

open MemEnv (St lit)

namespace Conc

/-- How names change in a step that renames within the names `N` or without. -/
inductive Shift (N T : Bytes → Prop) (k k' : Kernel) : Prop
  | same (h : ∀ q, k'.lookup q = k.lookup q) : Shift N T k k'
  | made (p : Bytes) (hp : ¬ N p) (h : ∀ q, q ≠ p → k'.lookup q = k.lookup q) : Shift N T k k'
  | gone (p : Bytes) (hp : ¬ T p) (h : ∀ q, k'.lookup q = if q = p then none else k.lookup q) : Shift N T k k'
  | moved (a b : Bytes) (i : Nat) (hab : N a ↔ N b) (ha : ¬ T a) (h1 : k.lookup a = some i) (h2 : k.lookup b ≠ some i)
      (h : ∀ q, k'.lookup q = if q = a then none else if q = b then some i else k.lookup q) : Shift N T k k'

variable {N R T : Bytes → Prop} {S : Nat → Option Bytes} {k k' : Kernel} {strerror : Strerror} {full : Bool} {c c' : Conf}

theorem shift_rfl : Shift N T k k := .same fun _ => rfl

theorem shift_eq (h : k'.names = k.names) : Shift N T k k' := .same fun q => by unfold Kernel.lookup; rw [h]

theorem shift_erase {p : Bytes} (hp : ¬ T p) : Shift N T k (k.setName p none) := .gone p hp fun q => lookup_setName k p q none

theorem shift_made {p : Bytes} {v : Option Nat} (hp : ¬ N p) (h : k'.names = (k.setName p v).names) : Shift N T k k' := by
  refine .made p hp fun q hq => ?_
  have : k'.lookup q = (k.setName p v).lookup q := by unfold Kernel.lookup; rw [h]
  rw [this, lookup_setName, if_neg hq]

theorem kopen_shift (m : Mode) (p : Bytes) (hp : ¬ N p ∨ m = .rdonly) : Shift N T k (kopen m p k).2 := by
  unfold kopen
  by_cases h0 : p = []
  · rw [if_pos h0]; exact shift_rfl
  · rw [if_neg h0]
    dsimp only
    cases hl : k.lookup p with
    | none =>
      dsimp only
      by_cases hc : m.creat = true
      · rw [if_pos hc]
        have hp : ¬ N p := by
          rcases hp with hp | rfl
          · exact hp
          · exact nomatch hc
        exact shift_made (v := some k.inodes.length) hp rfl
      · rw [if_neg hc]; exact shift_rfl
    | some j =>
      dsimp only
      cases hj : k.inodes[j]? with
      | none => exact shift_rfl
      | some n =>
        dsimp only
        by_cases hd : n.dir = true ∧ m ≠ .rdonly
        · rw [if_pos hd]; exact shift_rfl
        · rw [if_neg hd]
          by_cases hm : m = .trunc
          · simp only [if_pos hm]
            exact shift_eq rfl
          · simp only [if_neg hm]
            exact shift_eq rfl

theorem rename_shift {a b : Bytes} {i : Nat} (hab : N a ↔ N b) (ha : ¬ T a) (h1 : k.lookup a = some i) (h2 : k.lookup b ≠ some i) :
    Shift N T k ((k.setName b (some i)).setName a none) :=
  .moved a b i hab ha h1 h2 fun q => by rw [lookup_setName, lookup_setName]

/-- What a step does to names, after what others did. -/
theorem exec_shift {cmd : Cmd} {sh sh' : Shared} {w w' : World} {r : cmd.Resp} (he : cmd.exec sh w = .done (r, sh') w')
    (hc : Cmd.pooled N T cmd) (hx : ∀ x ∈ w.choices, Spares N S T x) (hL : Lasts N S T w.k) :
    ∃ k, (k = w.k ∨ ∃ x ∈ w.choices, k = x.other w.k) ∧ Shift N T k w'.k := by
  have key : ∀ {α : Type} {call : α → List Call} {f : Choice → Kernel → α × Kernel} {r : α}, sys call f w = .done r w' →
      (∀ x k, Lasts N S T k → Shift N T k (f x k).2) → ∃ k, (k = w.k ∨ ∃ x ∈ w.choices, k = x.other w.k) ∧ Shift N T k w'.k := by
    intro α call f r hs hf
    obtain ⟨x, hm, hk⟩ := sys_done hs
    rw [hk]
    exact ⟨_, .inr ⟨x, hm, rfl⟩, hf x _ (hL.others (hx x hm))⟩
  cases cmd with
  | «open» m p =>
    obtain ⟨he, -⟩ := keep_done he
    refine key he fun x k hL => ?_
    cases hf : x.fail with
    | some e => exact shift_rfl
    | none => exact kopen_shift m (cstr p) hc
  | opendir p =>
    obtain ⟨he, -⟩ := keep_done he
    refine key he fun x k hL => ?_
    cases hf : x.fail with
    | some e => exact shift_rfl
    | none =>
      dsimp only
      cases hl : k.lookup (cstr p) with
      | none => exact shift_rfl
      | some i =>
        dsimp only
        by_cases hd : ((k.inodes[i]?).map (·.dir)).getD false = true
        · rw [if_pos hd]
          have := kopen_shift (N := N) (T := T) (k := k) .rdonly (cstr p) (.inr rfl)
          cases h1 : (kopen .rdonly (cstr p) k).1 with
          | error e => exact this
          | ok fd => exact this
        · rw [if_neg hd]; exact shift_rfl
  | close fd =>
    obtain ⟨he, -⟩ := keep_done he
    refine key he fun x k hL => ?_
    cases ho : k.ofd fd with
    | none => exact shift_rfl
    | some o =>
      cases hf : x.fail with
      | some e => exact shift_eq rfl
      | none => exact shift_eq rfl
  | read fd n =>
    obtain ⟨he, -⟩ := keep_done he
    refine key he fun x k hL => ?_
    cases hf : x.fail with
    | some e => exact shift_rfl
    | none =>
      dsimp only [kread]
      cases ho : k.ofd fd with
      | none => exact shift_rfl
      | some o =>
        dsimp only
        split
        · split
          · exact shift_rfl
          · split
            · exact shift_rfl
            · exact shift_eq rfl
        · exact shift_rfl
  | pread fd n o =>
    obtain ⟨he, -⟩ := keep_done he
    refine key he fun x k hL => ?_
    have : ∀ (y : Except Errno Bytes × Kernel), y.2 = k → Shift N T k y.2 := fun y hy => by rw [hy]; exact shift_rfl
    apply this
    cases hf : x.fail with
    | some e => rfl
    | none =>
      dsimp only
      cases k.ofd fd with
      | none => rfl
      | some q =>
        dsimp only
        split
        · rfl
        · split
          · split
            · rfl
            · split <;> rfl
          · rfl
  | lseek fd o =>
    obtain ⟨he, -⟩ := keep_done he
    refine key he fun x k hL => ?_
    cases hf : x.fail with
    | some e => exact shift_rfl
    | none =>
      dsimp only
      cases ho : k.ofd fd with
      | none => exact shift_rfl
      | some q =>
        dsimp only
        split
        · exact shift_rfl
        · split
          · exact shift_rfl
          · exact shift_eq rfl
  | write fd d =>
    obtain ⟨he, -⟩ := keep_done he
    refine key he fun x k hL => ?_
    cases hf : x.fail with
    | some e => exact shift_rfl
    | none =>
      dsimp only [kwrite]
      cases ho : k.ofd fd with
      | none => exact shift_rfl
      | some o =>
        dsimp only
        split
        · split
          · exact shift_rfl
          · exact shift_eq rfl
        · exact shift_rfl
  | sync fd =>
    obtain ⟨he, -⟩ := keep_done he
    refine key he fun x k hL => ?_
    cases hf : x.fail with
    | some e => exact shift_rfl
    | none =>
      dsimp only [ksync]
      split
      · exact shift_rfl
      · split
        · exact shift_rfl
        · split
          · exact shift_eq rfl
          · exact shift_eq rfl
  | stat p =>
    obtain ⟨he, -⟩ := keep_done he
    refine key he fun x k hL => ?_
    cases hf : x.fail with
    | some e => exact shift_rfl
    | none =>
      dsimp only
      cases k.lookup (cstr p) with
      | none => exact shift_rfl
      | some i => exact shift_rfl
  | access p =>
    obtain ⟨he, -⟩ := keep_done he
    refine key he fun x k hL => ?_
    cases hf : x.fail with
    | some e => exact shift_rfl
    | none =>
      dsimp only
      cases k.lookup (cstr p) with
      | none => exact shift_rfl
      | some i => exact shift_rfl
  | unlink p =>
    obtain ⟨he, -⟩ := keep_done he
    refine key he fun x k hL => ?_
    cases hf : x.fail with
    | some e => exact shift_rfl
    | none =>
      dsimp only
      cases hl : k.lookup (cstr p) with
      | none => exact shift_rfl
      | some i =>
        dsimp only
        split
        · exact shift_rfl
        · exact shift_erase hc
  | mkdir p =>
    obtain ⟨he, -⟩ := keep_done he
    refine key he fun x k hL => ?_
    cases hf : x.fail with
    | some e => exact shift_rfl
    | none =>
      dsimp only
      split
      · exact shift_rfl
      · cases hl : k.lookup (cstr p) with
        | some i => exact shift_rfl
        | none => exact shift_made (v := some k.inodes.length) hc rfl
  | rmdir p =>
    obtain ⟨he, -⟩ := keep_done he
    refine key he fun x k hL => ?_
    cases hf : x.fail with
    | some e => exact shift_rfl
    | none =>
      dsimp only
      cases hl : k.lookup (cstr p) with
      | none => exact shift_rfl
      | some i =>
        dsimp only
        by_cases hd : ((k.inodes[i]?).map (·.dir)).getD false = true
        · rw [if_pos hd]
          split
          · exact shift_rfl
          · refine shift_erase fun hT => ?_
            obtain ⟨D, hD⟩ := (hL.names _ _ hl).1 (hL.found _ hT).1
            obtain ⟨n, hn, hnd, -⟩ := hL.files i D hD
            rw [hn] at hd
            simp [hnd] at hd
        · rw [if_neg hd]; exact shift_rfl
  | rename a b =>
    obtain ⟨he, -⟩ := keep_done he
    refine key he fun x k hL => ?_
    cases hf : x.fail with
    | some e => exact shift_rfl
    | none =>
      dsimp only
      cases hl : k.lookup (cstr a) with
      | none => exact shift_rfl
      | some i =>
        obtain ⟨hab, hT⟩ : (N (cstr a) ↔ N (cstr b)) ∧ ¬ T (cstr a) := hc
        dsimp only
        split
        · exact shift_rfl
        · split
          · exact shift_rfl
          · cases hj : k.lookup (cstr b) with
            | none => exact rename_shift hab hT hl (by rw [hj]; exact nofun)
            | some j =>
              dsimp only
              by_cases hij : i = j
              · rw [if_pos hij]; exact shift_rfl
              · rw [if_neg hij]
                split
                · exact shift_rfl
                · exact rename_shift hab hT hl (by rw [hj]; exact fun e => hij (Option.some.inj e).symm)
  | mmap fd n =>
    obtain ⟨he, -⟩ := keep_done he
    refine key he fun x k hL => ?_
    cases hf : x.fail with
    | some e => exact shift_rfl
    | none =>
      dsimp only
      split
      · exact shift_rfl
      · cases k.inodeOf fd with
        | none => exact shift_rfl
        | some i => exact shift_eq rfl
  | munmap m =>
    obtain ⟨he, -⟩ := keep_done he
    refine key he fun x k hL => ?_
    cases hm : (k.maps[m]?).join with
    | none => exact shift_rfl
    | some i => exact shift_eq rfl
  | other fd =>
    obtain ⟨he, -⟩ := keep_done he
    refine key he fun x k hL => ?_
    cases hf : x.fail with
    | some e => exact shift_rfl
    | none => exact shift_rfl
  | readdir fd l =>
    obtain ⟨he, -⟩ := keep_done he
    refine key he fun x k hL => ?_
    cases hf : x.fail with
    | some e => exact shift_rfl
    | none => exact shift_rfl
  | fetchSub l =>
    injection he with _ he
    subst he
    exact ⟨_, .inl rfl, shift_rfl⟩
  | fetchAdd l =>
    injection he with _ he
    subst he
    exact ⟨_, .inl rfl, shift_rfl⟩
  | insert n =>
    injection he with _ he
    subst he
    exact ⟨_, .inl rfl, shift_rfl⟩
  | remove n =>
    injection he with _ he
    subst he
    exact ⟨_, .inl rfl, shift_rfl⟩

/-! ## The two names -/

/-- The two names. -/
def Two (tmp target : Bytes) (p : Bytes) : Prop := p = cstr tmp ∨ p = cstr target

/-- The old file and the new one. -/
def OldNew (old new : Nat) (D0 D : Bytes) (i : Nat) : Option Bytes := if i = old then some D0 else if i = new then some D else none

/-- One file. -/
def One (new : Nat) (D : Bytes) (i : Nat) : Option Bytes := if i = new then some D else none

/-- As long as the temporary name exists it means the new file, and the target the old one. -/
def Before (tmp target : Bytes) (old new : Nat) (k : Kernel) : Prop :=
  ∀ i, k.lookup (cstr tmp) = some i → i = new ∧ k.lookup (cstr target) = some old

variable {tmp target : Bytes} {old new : Nat} {D0 D : Bytes}

theorem Before.shift (hne : cstr tmp ≠ cstr target) (hon : old ≠ new) (h : Before tmp target old new k)
    (hs : Shift (Two tmp target) (· = cstr target) k k') : Before tmp target old new k' := by
  intro i hi
  cases hs with
  | same e => rw [e] at hi ⊢; exact h i hi
  | made p hp e =>
    rw [e _ fun e' => hp (.inl e'.symm)] at hi
    rw [e _ fun e' => hp (.inr e'.symm)]
    exact h i hi
  | gone p hp e =>
    rw [e] at hi ⊢
    split at hi
    · exact nomatch hi
    · rw [if_neg fun e' => hp e'.symm]
      exact h i hi
  | moved a b j hab ha h1 h2 e =>
    rw [e] at hi
    split at hi
    · exact nomatch hi
    · rename_i hta
      have hN : ¬ Two tmp target a := by
        rintro (rfl | rfl)
        · exact hta rfl
        · exact ha rfl
      have hNb : ¬ Two tmp target b := fun hb => hN (hab.2 hb)
      rw [if_neg fun e' => hNb (.inl e'.symm)] at hi
      rw [e, if_neg fun e' => ha e'.symm, if_neg fun e' => hNb (.inr e'.symm)]
      exact h i hi

theorem Before.other {x : Choice} (hx : Bystander tmp target x) (h : Before tmp target old new k) : Before tmp target old new (x.other k) := by
  intro i hi
  rw [hx.names k _ (.inl rfl)] at hi
  rw [hx.names k _ (.inr rfl)]
  exact h i hi

theorem Before.step {e : Option Ev} (hne : cstr tmp ≠ cstr target) (hon : old ≠ new) (hP : Peace (Two tmp target) S (· = cstr target) c)
    (hx : ∀ x ∈ c.w.choices, Bystander tmp target x) (h : Before tmp target old new c.w.k) (hs : Step strerror full c e c') :
    Before tmp target old new c'.w.k := by
  cases hs with
  | call => exact h
  | ret => rw [finish_w]; exact h
  | move t home cmd k r sh w ht he =>
    obtain ⟨k, hk, hsh⟩ := exec_shift he (hP.progs t home _ ht).1 hP.choices hP.lasts
    refine Before.shift hne hon ?_ hsh
    rcases hk with rfl | ⟨x, hm, rfl⟩
    · exact h
    · exact h.other (hx x hm)

/-- The rename that succeeds. -/
theorem rename_done {w w' : World} (hx : sysRename tmp target w = .done (.ok ()) w') (hon : old ≠ new) (hne : cstr tmp ≠ cstr target)
    (hb : ∀ x ∈ w.choices, Bystander tmp target x) (h : Before tmp target old new w.k) :
    w'.k.lookup (cstr tmp) = none ∧ w'.k.lookup (cstr target) = some new := by
  obtain ⟨x, hm, hf, -⟩ := sys_done2 hx
  have h := h.other (hb x hm)
  generalize x.other w.k = k at hf h
  cases hfail : x.fail with
  | some e => simp only [hfail] at hf; exact nomatch (Prod.mk.inj hf).1
  | none =>
    simp only [hfail] at hf
    cases hl : k.lookup (cstr tmp) with
    | none => simp only [hl] at hf; exact nomatch (Prod.mk.inj hf).1
    | some i =>
      obtain ⟨rfl, ht⟩ := h i hl
      simp only [hl, ht] at hf
      split at hf
      · exact nomatch (Prod.mk.inj hf).1
      · split at hf
        · exact nomatch (Prod.mk.inj hf).1
        · rw [if_neg fun e => hon e.symm] at hf
          split at hf
          · exact nomatch (Prod.mk.inj hf).1
          · have := (Prod.mk.inj hf).2
            rw [← this]
            refine ⟨by rw [lookup_setName, if_pos rfl], by rw [lookup_setName, if_neg (Ne.symm hne), lookup_setName, if_pos rfl]⟩

/-- The new file is in place: there is only this file under the two names. -/
theorem Lasts.after (hon : old ≠ new) (h : Lasts (Two tmp target) (OldNew old new D0 D) (· = cstr target) k)
    (h1 : k.lookup (cstr tmp) = none) (h2 : k.lookup (cstr target) = some new) : Lasts (Two tmp target) (One new D) (· = cstr target) k := by
  have sub : ∀ {i E}, One new D i = some E → OldNew old new D0 D i = some E := by
    intro i E hi
    unfold One at hi
    unfold OldNew
    split at hi
    · rename_i e
      subst e
      rw [if_neg (Ne.symm hon), if_pos rfl]
      exact hi
    · exact nomatch hi
  refine ⟨fun p i hp => ⟨?_, fun ⟨E, hE⟩ => (h.names p i hp).2 ⟨E, sub hE⟩⟩, fun i E hE => h.files i E (sub hE),
    fun i q hq ⟨E, hE⟩ => h.fds i q hq ⟨E, sub hE⟩, h.found⟩
  rintro (rfl | rfl)
  · exact nomatch h1.symm.trans hp
  · rw [h2] at hp
    injection hp with hp
    exact ⟨D, by unfold One; rw [if_pos hp.symm]⟩

/-- Bystanders leave the files alone, whichever they are. -/
theorem Bystander.spares {x : Choice} (hx : Bystander tmp target x) : Spares (Two tmp target) S (· = cstr target) x := by
  refine ⟨fun k => ⟨fun i E n _ hn => hx.files k i n hn, fun hN hF p i hp => ?_, hx.fds k⟩, fun k _ _ p hp hl => ?_⟩
  · by_cases h : Two tmp target p
    · rw [hx.names k p h] at hp
      exact hN p i hp
    · refine ⟨fun h' => (h h').elim, fun hS => ?_⟩
      rcases hx.others k p i (fun e => h (.inl e)) (fun e => h (.inr e)) hp with ⟨q, hq1, hq2, hq⟩ | hlen
      · rcases (hN q i hq).2 hS with e | e
        · exact (hq1 e).elim
        · exact (hq2 e).elim
      · obtain ⟨E, hE⟩ := hS
        obtain ⟨n, hn, -⟩ := hF i E hE
        exact absurd (List.getElem?_eq_some_iff.1 hn).1 (by omega)
  · rw [hx.names k p (.inr hp)]
    exact hl

theorem Bystander.mindful {x : Choice} (hx : Bystander tmp target x) : Mindful (Two tmp target) (· = cstr target) (· = cstr target) S x := by
  refine ⟨hx.spares, ?_⟩
  rintro k hN hF hA p v rfl (hv | hv)
  · exact hA _ v rfl (.inl (by rw [hv, hx.names k _ (.inr rfl)]))
  · exact hA _ v rfl (.inr (hx.pend k v hv))

/-- While the temporary file is written only the target counts. -/
theorem Bystander.spares1 {x : Choice} (hx : Bystander tmp target x) :
    Mindful (· = cstr target) (· = cstr target) (· = cstr target) (One old D0) x := by
  have h1 : ∀ {i E}, One old D0 i = some E → i = old := by
    intro i E hi
    unfold One at hi
    split at hi
    · assumption
    · exact nomatch hi
  refine ⟨⟨fun k => ⟨fun i E n _ hn => hx.files k i n hn, fun hN hF p i hp => ?_, hx.fds k⟩, fun k _ _ p hp hl => ?_⟩, ?_⟩
  · by_cases h : p = cstr target
    · rw [hx.names k p (.inr h)] at hp
      exact hN p i hp
    · refine ⟨fun h' => (h h').elim, fun ⟨E, hE⟩ => ?_⟩
      obtain rfl := h1 hE
      exfalso
      obtain ⟨n, hn, -⟩ := hF i E hE
      by_cases h2 : p = cstr tmp
      · rw [hx.names k p (.inl h2)] at hp
        exact h ((hN p i hp).2 ⟨E, hE⟩)
      · rcases hx.others k p i h2 h hp with ⟨q, _, hq2, hq⟩ | hlen
        · exact hq2 ((hN q i hq).2 ⟨E, hE⟩)
        · exact absurd (List.getElem?_eq_some_iff.1 hn).1 (by omega)
  · rw [hx.names k p (.inr hp)]
    exact hl
  · rintro k hN hF hA p v rfl (hv | hv)
    · exact hA _ v rfl (.inl (by rw [hv, hx.names k _ (.inr rfl)]))
    · exact hA _ v rfl (.inr (hx.pend k v hv))

theorem only_and {α : Type} {P Q : Cmd → Prop} {A B : α → Prop} {p : Prog α} (h1 : Only P A p) (h2 : Only Q B p) :
    Only (fun x => P x ∧ Q x) (fun a => A a ∧ B a) p := by
  induction p with
  | ret a => exact ⟨h1, h2⟩
  | call c k ih => exact ⟨⟨h1.1, h2.1⟩, fun r => ih r (h1.2 r) (h2.2 r)⟩
  | fault => trivial
  | spin => trivial

theorem pooled_two {cmd : Cmd} (h1 : Cmd.elsewhere true (cstr tmp) cmd) (h2 : Cmd.pooled (· = cstr target) (· = cstr target) cmd) :
    Cmd.pooled (Two tmp target) (· = cstr target) cmd := by
  cases cmd with
  | «open» m p =>
    rcases h1 with h1 | h1
    · rcases h2 with h2 | h2
      · exact .inl fun h => h.elim h1 h2
      · exact .inr h2
    · exact .inr h1.2
  | mkdir p => exact fun h => h.elim h1 h2
  | unlink p => exact h2
  | rename a b =>
    obtain ⟨h3, h4⟩ : (cstr a = cstr target ↔ cstr b = cstr target) ∧ ¬ cstr a = cstr target := h2
    exact ⟨⟨fun h => (h.elim h1.1 h4).elim, fun h => (h.elim h1.2 fun e => h4 (h3.2 e)).elim⟩, h4⟩
  | _ => trivial

end Conc
end Posix
end Lsmdb
