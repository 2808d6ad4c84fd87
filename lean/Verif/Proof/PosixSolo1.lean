import Verif.Proof.PosixConc8
import Verif.Spec.PosixSolo

/-! More fuel changes nothing; a step can be taken again in another world; steps leave the descriptors of others alone. -/

namespace Lsmdb
namespace Posix

open MemEnv (St lit)

namespace Conc

open Prog

/-! ## Fuel -/

/-- The second program goes on where the first one gives up. -/
inductive Le {α : Type} : Prog α → Prog α → Prop
  | spin (q : Prog α) : Le .spin q
  | ret (a : α) : Le (.ret a) (.ret a)
  | fault (f : Fault) : Le (.fault f) (.fault f)
  | call (c : Cmd) (k k' : c.Resp → Prog α) (h : ∀ r, Le (k r) (k' r)) : Le (.call c k) (.call c k')

theorem Le.refl {α : Type} (p : Prog α) : Le p p := by
  induction p with
  | ret a => exact .ret a
  | fault f => exact .fault f
  | spin => exact .spin _
  | call c k ih => exact .call c k k ih

theorem Le.bind {α β : Type} {p q : Prog α} {f g : α → Prog β} (h : Le p q) (hf : ∀ a, Le (f a) (g a)) : Le (p >>= f) (q >>= g) := by
  induction h with
  | spin q => exact .spin _
  | ret a => exact hf a
  | fault e => exact .fault e
  | call c k k' h ih => exact .call c _ _ ih

theorem Le.run {α : Type} {p q : Prog α} (h : Le p q) : ∀ {s : Shared} {w w' : World} {x : α × Shared},
    p.run s w = .done x w' → q.run s w = .done x w' := by
  induction h with
  | spin q => intro s w w' x e; exact nomatch e
  | ret a => intro s w w' x e; exact e
  | fault f => intro s w w' x e; exact e
  | call c k k' h ih =>
    intro s w w' x e
    rw [run_call] at e ⊢
    cases hx : c.exec s w with
    | done a w1 => rw [hx] at e; exact ih a.1 e
    | crash w1 => rw [hx] at e; exact e
    | fault f => rw [hx] at e; exact e

variable (strerror : Strerror) (full : Bool)

theorem le_seqReadLoop (f : SeqFile) (n cap : Nat) : ∀ (a b : Nat), a ≤ b →
    Le (seqReadLoop strerror f n cap a) (seqReadLoop strerror f n cap b) := by
  intro a
  induction a with
  | zero => intro b _; exact .spin _
  | succ a ih =>
    intro b h
    obtain ⟨b, rfl⟩ : ∃ k, b = k + 1 := ⟨b - 1, by omega⟩
    unfold seqReadLoop
    refine (Le.refl _).bind fun r => ?_
    cases r with
    | error e =>
      by_cases he : e = EINTR
      · simp only [if_pos he]; exact ih b (by omega)
      · simp only [if_neg he]; exact Le.refl _
    | ok d => exact Le.refl _

theorem le_writeLoop (fd : Int) (name : Bytes) : ∀ (a b : Nat) (d : Bytes), a ≤ b →
    Le (writeLoop strerror fd name a d) (writeLoop strerror fd name b d) := by
  intro a
  induction a with
  | zero => intro b d _; exact .spin _
  | succ a ih =>
    intro b d h
    obtain ⟨b, rfl⟩ : ∃ k, b = k + 1 := ⟨b - 1, by omega⟩
    unfold writeLoop
    by_cases hd : d.length > 0
    · simp only [if_pos hd]
      refine (Le.refl _).bind fun r => ?_
      cases r with
      | error e =>
        by_cases he : e = EINTR
        · simp only [if_pos he]; exact ih b _ (by omega)
        · simp only [if_neg he]; exact Le.refl _
      | ok n => exact ih b _ (by omega)
    · simp only [if_neg hd]; exact Le.refl _

theorem le_readdirLoop (fd : Int) : ∀ (a b : Nat) (rest l : List Bytes), a ≤ b →
    Le (readdirLoop fd a rest l) (readdirLoop fd b rest l) := by
  intro a
  induction a with
  | zero => intro b _ _ _; exact .spin _
  | succ a ih =>
    intro b rest l h
    obtain ⟨b, rfl⟩ : ∃ k, b = k + 1 := ⟨b - 1, by omega⟩
    unfold readdirLoop
    refine (Le.refl _).bind fun r => ?_
    cases r with
    | none => exact Le.refl _
    | some d => exact ih b _ _ (by omega)

section
variable {a b : Nat} (hab : a ≤ b)
include hab

theorem le_FlushBuffer (f : WFile) : Le (FlushBuffer strerror a f) (FlushBuffer strerror b f) :=
  (Le.refl _).bind fun d => (le_writeLoop strerror _ _ _ _ d hab).bind fun _ => Le.refl _

theorem le_Append (f : WFile) (d : Slice) : Le (Append strerror a f d) (Append strerror b f d) := by
  unfold Append
  refine (Le.refl _).bind fun bytes => (Le.refl _).bind fun buf => ?_
  simp only
  split
  · exact Le.refl _
  · refine (le_FlushBuffer strerror hab _).bind fun x => ?_
    split
    · exact Le.refl _
    · unfold appendRest
      split
      · exact Le.refl _
      · exact (le_writeLoop strerror _ _ _ _ _ hab).bind fun _ => Le.refl _

theorem le_Close (f : WFile) : Le (Close strerror a f) (Close strerror b f) :=
  (le_FlushBuffer strerror hab f).bind fun _ => Le.refl _

theorem le_Sync (f : WFile) : Le (Sync strerror full a f) (Sync strerror full b f) := by
  unfold Sync
  refine (Le.refl _).bind fun st => ?_
  split
  · exact Le.refl _
  · exact (le_FlushBuffer strerror hab f).bind fun _ => Le.refl _

theorem le_wstep (f : WFile) (op : WOp) : Le (wstep strerror full a f op) (wstep strerror full b f op) := by
  cases op with
  | append d => exact le_Append strerror hab f d
  | flush => exact le_FlushBuffer strerror hab f
  | sync => exact le_Sync strerror full hab f
  | close => exact le_Close strerror hab f

theorem le_wDestroy (f : WFile) : Le (wDestroy strerror a f) (wDestroy strerror b f) := by
  unfold wDestroy
  split
  · exact (le_Close strerror hab f).bind fun _ => Le.refl _
  · exact Le.refl _

theorem le_destroy (o : Obj) : Le (destroy strerror a o) (destroy strerror b o) := by
  cases o with
  | wr f => exact le_wDestroy strerror hab f
  | _ => exact Le.refl _

theorem le_body (op : POp) (o : Option Obj) : Le (body strerror full a op o) (body strerror full b op o) := by
  cases op with
  | getChildren d =>
    refine Le.bind ?_ fun _ => Le.refl _
    unfold GetChildren
    refine (Le.refl _).bind fun r => ?_
    cases r with
    | error e => exact Le.refl _
    | ok x => exact (le_readdirLoop x.1 a b _ _ hab).bind fun _ => Le.refl _
  | seqRead h n =>
    cases o with
    | none => exact Le.refl _
    | some o =>
      cases o with
      | seq f => exact (le_seqReadLoop strerror f n n a b hab).bind fun _ => Le.refl _
      | _ => exact Le.refl _
  | write h op =>
    cases o with
    | none => exact Le.refl _
    | some o =>
      cases o with
      | wr f => exact (le_wstep strerror full hab f op).bind fun _ => Le.refl _
      | _ => exact Le.refl _
  | delete h =>
    cases o with
    | none => exact Le.refl _
    | some o => exact (le_destroy strerror hab o).bind fun _ => Le.refl _
  | unlockFile h =>
    cases o with
    | none => exact Le.refl _
    | some o => cases o <;> exact Le.refl _
  | seqSkip h n =>
    cases o with
    | none => exact Le.refl _
    | some o => cases o <;> exact Le.refl _
  | randRead h off n =>
    cases o with
    | none => exact Le.refl _
    | some o => cases o <;> exact Le.refl _
  | _ => exact Le.refl _

end

/-! ## Steps in another world -/

/-- A step on the members that calls share. -/
def _root_.Lsmdb.Posix.Cmd.onShared : Cmd → Bool
  | .fetchSub _ => true
  | .fetchAdd _ => true
  | .insert _ => true
  | .remove _ => true
  | _ => false

/-- The step of `w` can be taken with any choice that decides the same and shows the same system. -/
def Again {α : Type} (y : P α) (w : World) (r : α) (w' : World) : Prop :=
  ∃ x calls, w.choices = x :: w'.choices ∧ ∀ (k : Kernel) (x' : Choice) (rest : List Choice) (l : List Call), x'.fail = x.fail →
    x'.count = x.count → x'.other k = x.other w.k → y ⟨k, x' :: rest, l⟩ = .done r ⟨w'.k, rest, l ++ calls⟩

theorem sys_again {α : Type} {call : α → List Call} {f : Choice → Kernel → α × Kernel}
    (hf : ∀ x x' k, x'.fail = x.fail → x'.count = x.count → f x' k = f x k) {w w' : World} {r : α}
    (h : sys call f w = .done r w') : Again (sys call f) w r w' := by
  unfold sys at h
  cases hc : w.choices with
  | nil => rw [hc] at h; exact nomatch h
  | cons x xs =>
    rw [hc] at h
    simp only [Out.done.injEq] at h
    obtain ⟨rfl, rfl⟩ := h
    refine ⟨x, call (f x (x.other w.k)).1, hc, fun k x' rest l h1 h2 h3 => ?_⟩
    unfold sys
    simp only [h3, hf x x' _ h1 h2]

theorem exec_again {cmd : Cmd} (hs : cmd.onShared = false) {sh sh' : Shared} {w w' : World} {r : cmd.Resp}
    (h : cmd.exec sh w = .done (r, sh') w') : ∃ x calls, w.choices = x :: w'.choices ∧
      ∀ (s : Shared) (k : Kernel) (x' : Choice) (rest : List Choice) (l : List Call), x'.fail = x.fail → x'.count = x.count →
        x'.other k = x.other w.k → cmd.exec s ⟨k, x' :: rest, l⟩ = .done (r, s) ⟨w'.k, rest, l ++ calls⟩ := by
  have go : ∀ {α : Type} {y : P α} {r : α}, Again y w r w' → ∃ x calls, w.choices = x :: w'.choices ∧
      ∀ (s : Shared) (k : Kernel) (x' : Choice) (rest : List Choice) (l : List Call), x'.fail = x.fail → x'.count = x.count →
        x'.other k = x.other w.k → keep s y ⟨k, x' :: rest, l⟩ = .done (r, s) ⟨w'.k, rest, l ++ calls⟩ := by
    rintro α y r ⟨x, calls, h1, h2⟩
    refine ⟨x, calls, h1, fun s k x' rest l a b c => ?_⟩
    unfold keep
    rw [h2 k x' rest l a b c]
  cases cmd with
  | fetchSub l => exact nomatch hs
  | fetchAdd l => exact nomatch hs
  | insert l => exact nomatch hs
  | remove l => exact nomatch hs
  | _ =>
    refine go (sys_again ?_ (keep_done h).1)
    rintro ⟨o, a, b⟩ ⟨o', a', b'⟩ k h1 h2
    cases h1
    cases h2
    rfl

/-! ## Descriptors of others -/

/-- The descriptor whose state the step changes. -/
def _root_.Lsmdb.Posix.Cmd.moves : Cmd → Option Int
  | .close fd => some fd
  | .read fd _ => some fd
  | .lseek fd _ => some fd
  | .write fd _ => some fd
  | _ => none

theorem sys_ofd {α : Type} {call : α → List Call} {f : Choice → Kernel → α × Kernel} {i : Nat} {o : Ofd}
    (hf : ∀ x k, k.ofd (i : Int) = some o → (f x k).2.ofd (i : Int) = some o) {w w' : World} {r : α}
    (hx : ∀ x ∈ w.choices, (x.other w.k).ofd (i : Int) = w.k.ofd (i : Int)) (ho : w.k.ofd (i : Int) = some o)
    (h : sys call f w = .done r w') : w'.k.ofd (i : Int) = some o := by
  unfold sys at h
  cases hc : w.choices with
  | nil => rw [hc] at h; exact nomatch h
  | cons x xs =>
    rw [hc] at h
    simp only [Out.done.injEq] at h
    obtain ⟨rfl, rfl⟩ := h
    exact hf x _ ((hx x (by rw [hc]; exact List.mem_cons_self)).trans ho)

theorem ofd_ne {k : Kernel} {fd : Int} {i : Nat} {o' : Ofd} (h : k.ofd fd = some o') (hn : fd ≠ (i : Int)) : fd.toNat ≠ i := by
  have := (toNat_lt_of_ofd h).1
  omega

theorem ofd_set_ne {k : Kernel} {fd : Int} {i : Nat} {x : Option Ofd} {o o' : Ofd} (h : k.ofd fd = some o') (hn : fd ≠ (i : Int))
    (ho : k.ofd (i : Int) = some o) : Kernel.ofd { k with fds := k.fds.set fd.toNat x } (i : Int) = some o := by
  have h1 := ofd_ne h hn
  rw [ofd_set_other (by omega)]
  exact ho

theorem kopen_ofd {m : Mode} {p : Bytes} {k : Kernel} {i : Nat} {o : Ofd} (ho : k.ofd (i : Int) = some o) :
    (kopen m p k).2.ofd (i : Int) = some o := by
  unfold kopen
  by_cases hp : p = []
  · simp only [if_pos hp]; exact ho
  · simp only [if_neg hp]
    cases hl : k.lookup p with
    | none =>
      by_cases hm : m.creat = true
      · simp only [if_pos hm]
        exact (ofd_putFd ho rfl).trans ho
      · simp only [if_neg hm]; exact ho
    | some j =>
      simp only
      cases hj : k.inodes[j]? with
      | none => exact ho
      | some n =>
        simp only
        split
        · exact ho
        · by_cases ht : m = .trunc
          · simp only [if_pos ht]
            exact (ofd_putFd ho rfl).trans ho
          · simp only [if_neg ht]
            exact (ofd_putFd ho rfl).trans ho

theorem exec_ofd {cmd : Cmd} {i : Nat} {o : Ofd} {sh sh' : Shared} {w w' : World} {r : cmd.Resp} (hm : cmd.moves ≠ some (i : Int))
    (hx : ∀ x ∈ w.choices, (x.other w.k).ofd (i : Int) = w.k.ofd (i : Int)) (ho : w.k.ofd (i : Int) = some o)
    (h : cmd.exec sh w = .done (r, sh') w') : w'.k.ofd (i : Int) = some o := by
  cases cmd with
  | fetchSub l => injection h with _ h; rw [← h]; exact ho
  | fetchAdd l => injection h with _ h; rw [← h]; exact ho
  | insert l => injection h with _ h; rw [← h]; exact ho
  | remove l => injection h with _ h; rw [← h]; exact ho
  | «open» m p =>
    refine sys_ofd (fun x k hk => ?_) hx ho (keep_done h).1
    cases x.fail with
    | some e => exact hk
    | none => exact kopen_ofd hk
  | opendir p =>
    refine sys_ofd (fun x k hk => ?_) hx ho (keep_done h).1
    cases x.fail with
    | some e => exact hk
    | none =>
      simp only
      split
      · exact hk
      · split
        · split
          · exact kopen_ofd hk
          · exact kopen_ofd hk
        · exact hk
  | close fd =>
    refine sys_ofd (fun x k hk => ?_) hx ho (keep_done h).1
    simp only
    cases hf : k.ofd fd with
    | none => exact hk
    | some o' =>
      have hn : fd ≠ (i : Int) := fun e => hm (by rw [e]; rfl)
      cases x.fail <;> exact ofd_set_ne hf hn hk
  | read fd n =>
    refine sys_ofd (fun x k hk => ?_) hx ho (keep_done h).1
    have hn : fd ≠ (i : Int) := fun e => hm (by rw [e]; rfl)
    cases x.fail with
    | some e => exact hk
    | none =>
      simp only [kread]
      cases hf : k.ofd fd with
      | none => exact hk
      | some o' =>
        simp only
        split
        · cases k.inodes[o'.ino]? with
          | none => exact hk
          | some j =>
            simp only
            split
            · exact hk
            · exact ofd_set_ne hf hn hk
        · exact hk
  | lseek fd n =>
    refine sys_ofd (fun x k hk => ?_) hx ho (keep_done h).1
    have hn : fd ≠ (i : Int) := fun e => hm (by rw [e]; rfl)
    cases x.fail with
    | some e => exact hk
    | none =>
      simp only
      cases hf : k.ofd fd with
      | none => exact hk
      | some o' =>
        simp only
        split
        · exact hk
        · split
          · exact hk
          · exact ofd_set_ne hf hn hk
  | write fd d =>
    refine sys_ofd (fun x k hk => ?_) hx ho (keep_done h).1
    have hn : fd ≠ (i : Int) := fun e => hm (by rw [e]; rfl)
    cases x.fail with
    | some e => exact hk
    | none =>
      simp only [kwrite]
      cases hf : k.ofd fd with
      | none => exact hk
      | some o' =>
        simp only
        split
        · cases k.inodes[o'.ino]? with
          | none => exact hk
          | some j => exact ofd_set_ne hf hn hk
        · exact hk
  | _ =>
    refine sys_ofd (fun x k hk => ?_) hx ho (keep_done h).1
    try simp only [ksync]
    repeat' split
    all_goals exact hk

end Conc
end Posix
end Lsmdb
