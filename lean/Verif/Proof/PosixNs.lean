import Verif.Proof.PosixPres
import Verif.Spec.PosixNs

/-! # The POSIX file namespace -/

namespace Lsmdb
namespace Posix

open MemEnv (St lit)

theorem aFind_erase {β : Type} (l : List (Bytes × β)) (p q : Bytes) :
    aFind (aErase l p) q = if q = p then none else aFind l q := by
  induction l with
  | nil => simp [aErase, aFind]
  | cons x r ih =>
    obtain ⟨k, v⟩ := x
    unfold aErase at ih ⊢
    by_cases hk : k = p
    · subst hk
      simp only [List.filter, ne_eq, not_true_eq_false, decide_false, ih, aFind]
      by_cases hq : q = k
      · simp [hq]
      · rw [if_neg hq, if_neg hq, if_neg (Ne.symm hq)]
    · have : decide (k ≠ p) = true := by simp [hk]
      simp only [List.filter, this, aFind, ih]
      by_cases hq : k = q
      · subst hq; simp [hk]
      · simp [hq]

theorem lookup_setName (k : Kernel) (p q : Bytes) (v : Option Nat) :
    (k.setName p v).lookup q = if q = p then v else k.lookup q := by
  unfold Kernel.setName Kernel.lookup
  cases v with
  | none =>
    simp only [List.nil_append]
    rw [aFind_erase]
  | some i =>
    simp only [List.singleton_append, aFind]
    rw [aFind_erase]
    by_cases h : p = q
    · subst h; simp
    · rw [if_neg h, if_neg (Ne.symm h), if_neg (Ne.symm h)]

theorem aFind_mem {β : Type} (l : List (Bytes × β)) (p : Bytes) : aFind l p ≠ none ↔ ∃ v, (p, v) ∈ l := by
  induction l with
  | nil => simp [aFind]
  | cons x r ih =>
    obtain ⟨k, v⟩ := x
    unfold aFind
    by_cases h : k = p
    · subst h; simp only [if_true]; simp only [ne_eq, reduceCtorEq, not_false_eq_true, true_iff]
      exact ⟨v, List.mem_cons_self⟩
    · rw [if_neg h, ih]
      constructor
      · rintro ⟨v', h'⟩; exact ⟨v', List.mem_cons_of_mem _ h'⟩
      · rintro ⟨v', h'⟩
        rcases List.mem_cons.1 h' with h' | h'
        · injection h' with h' _; exact absurd h'.symm h
        · exact ⟨v', h'⟩

theorem fsOf_none {k : Kernel} (ht : Tidy k) {p : Bytes} : fsOf k p = none ↔ k.lookup p = none := by
  unfold fsOf
  cases h : k.lookup p with
  | none => simp
  | some i =>
    obtain ⟨n, hn⟩ := ht.node p i h
    simp only [hn]
    split <;> simp

theorem fsOf_some {k : Kernel} {p : Bytes} {i : Nat} {n : Inode} (h : k.lookup p = some i) (hn : k.inodes[i]? = some n) :
    fsOf k p = if n.dir then some .dir else some (.file n.data) := by
  unfold fsOf; rw [h]; simp only [hn]

theorem hasChild_iff {k : Kernel} (ht : Tidy k) (d : Bytes) :
    (fsOf k).hasChild d ↔ k.names.any (fun e => decide (parentDir e.1 = d)) = true := by
  unfold FsMap.hasChild
  rw [List.any_eq_true]
  constructor
  · rintro ⟨p, h1, h2⟩
    rw [ne_eq, fsOf_none ht] at h1
    obtain ⟨v, hv⟩ := (aFind_mem k.names p).1 h1
    exact ⟨_, hv, by simpa using h2⟩
  · rintro ⟨⟨p, v⟩, h1, h2⟩
    refine ⟨p, ?_, by simpa using h2⟩
    rw [ne_eq, fsOf_none ht]
    exact (aFind_mem k.names p).2 ⟨v, h1⟩

theorem fsOf_setName_none {k : Kernel} (p : Bytes) : fsOf (k.setName p none) = (fsOf k).put p none := by
  funext q
  unfold fsOf FsMap.put
  rw [lookup_setName]
  by_cases h : q = p
  · simp [h]
  · rw [if_neg h, if_neg h]; rfl

theorem Tidy.setName_none {k : Kernel} (h : Tidy k) (p : Bytes) : Tidy (k.setName p none) := by
  refine ⟨fun q i hq => ?_, fun q r i hq hr => ?_⟩
  · rw [lookup_setName] at hq
    split at hq
    · exact nomatch hq
    · exact h.node q i hq
  · rw [lookup_setName] at hq hr
    split at hq
    · exact nomatch hq
    · split at hr
      · exact nomatch hr
      · exact h.one q r i hq hr

theorem move_lookup (k : Kernel) (a b : Bytes) (i : Nat) (q : Bytes) :
    ((k.setName b (some i)).setName a none).lookup q = if q = a then none else if q = b then some i else k.lookup q := by
  rw [lookup_setName, lookup_setName]

theorem fsOf_move {k : Kernel} (a b : Bytes) (hab : a ≠ b) (i : Nat) (hi : k.lookup a = some i) :
    fsOf ((k.setName b (some i)).setName a none) = ((fsOf k).put b (fsOf k a)).put a none := by
  funext q
  have h1 : fsOf ((k.setName b (some i)).setName a none) q =
      match (if q = a then none else if q = b then some i else k.lookup q) with
      | none => none
      | some i => match k.inodes[i]? with
        | none => none
        | some n => if n.dir then some .dir else some (.file n.data) := by
    rw [← move_lookup]; rfl
  rw [h1]
  unfold FsMap.put
  by_cases hq : q = a
  · simp [hq]
  · rw [if_neg hq, if_neg hq]
    by_cases hb : q = b
    · rw [if_pos hb, if_pos hb]
      unfold fsOf; rw [hi]; rfl
    · rw [if_neg hb, if_neg hb]; rfl

theorem Tidy.move {k : Kernel} (h : Tidy k) (a b : Bytes) (i : Nat) (hi : k.lookup a = some i) :
    Tidy ((k.setName b (some i)).setName a none) := by
  refine ⟨fun q j hq => ?_, fun q r j hq hr => ?_⟩
  · rw [move_lookup] at hq
    split at hq
    · exact nomatch hq
    · split at hq
      · injection hq with hq; subst hq; exact h.node a i hi
      · exact h.node q j hq
  · rw [move_lookup] at hq hr
    split at hq
    · exact nomatch hq
    · split at hr
      · exact nomatch hr
      · rename_i ha hra
        split at hq <;> split at hr
        · rename_i h1 h2; rw [h1, h2]
        · injection hq with hq; subst hq; exact absurd (h.one r a _ hr hi) hra
        · injection hr with hr; subst hr; exact absurd (h.one q a _ hq hi) ha
        · exact h.one q r j hq hr

theorem cstr_noNul {s : Bytes} (h : 0 ∉ s) : cstr s = s := cstr_eq h

theorem statusOf_error {strerror : Strerror} {ctx : Bytes} {e : Errno} : statusOf strerror ctx (.error e) ≠ .ok :=
  PosixError_ne_ok strerror ctx e

end Posix
end Lsmdb
