import Verif.Spec.PosixLock

/-! Invariants of the lock table and of the kernel's locks. -/

namespace Lsmdb
namespace PLock

/-- The name a thread has in the table for its own call. -/
def Pc.owns : Pc → Option Bytes
  | .setlk n _ | .failClose n _ | .failRemove n _ | .leaveLock n (some _) => some n
  | .unlck h | .remove h | .leaveUnlock h false => some h.name
  | _ => none

/-- The handle that `UnlockFile` works on. -/
def Pc.handle : Pc → Option Handle
  | .unlck h | .remove h | .close h | .leaveUnlock h _ => some h
  | _ => none

theorem at_pc (s : Sys) (t u : Nat × Nat) (p : Pc) : (s.at t p).pc u = if u = t then p else s.pc u := rfl
@[simp] theorem at_locks (s : Sys) (t : Nat × Nat) (p : Pc) : (s.at t p).locks = s.locks := rfl
@[simp] theorem at_table (s : Sys) (t : Nat × Nat) (p : Pc) : (s.at t p).table = s.table := rfl
@[simp] theorem at_fresh (s : Sys) (t : Nat × Nat) (p : Pc) : (s.at t p).fresh = s.fresh := rfl
theorem setTable_table (s : Sys) (p : Nat) (n : Bytes) (b : Bool) (q : Nat) (m : Bytes) :
    (s.setTable p n b).table q m = if q = p ∧ m = n then b else s.table q m := rfl
@[simp] theorem setTable_pc (s : Sys) (p : Nat) (n : Bytes) (b : Bool) : (s.setTable p n b).pc = s.pc := rfl
@[simp] theorem setTable_locks (s : Sys) (p : Nat) (n : Bytes) (b : Bool) : (s.setTable p n b).locks = s.locks := rfl
@[simp] theorem setLock_pc (s : Sys) (i : Nat) (o : Option Nat) : (s.setLock i o).pc = s.pc := rfl
@[simp] theorem setLock_table (s : Sys) (i : Nat) (o : Option Nat) : (s.setLock i o).table = s.table := rfl
theorem setLock_locks (s : Sys) (i : Nat) (o : Option Nat) (j : Nat) :
    (s.setLock i o).locks j = if j = i then o else s.locks j := rfl
@[simp] theorem drop_pc (s : Sys) (p i : Nat) : (s.drop p i).pc = s.pc := by unfold Sys.drop; split <;> rfl
@[simp] theorem drop_table (s : Sys) (p i : Nat) : (s.drop p i).table = s.table := by unfold Sys.drop; split <;> rfl
theorem drop_locks (s : Sys) (p i j : Nat) :
    (s.drop p i).locks j = if j = i ∧ s.locks i = some p then none else s.locks j := by
  unfold Sys.drop; split <;> simp_all [setLock_locks]

/-- Same process, same name. -/
def Clash (a b : Handle) : Prop := a.proc = b.proc ∧ a.name = b.name

structure Tab (l : List Handle) (s : Sys) : Prop where
  own : ∀ p k n, (s.pc (p, k)).owns = some n → s.table p n = true
  hold : ∀ h ∈ l, s.table h.proc h.name = true
  back : ∀ p n, s.table p n = true → (∃ k, (s.pc (p, k)).owns = some n) ∨ ∃ h ∈ l, h.proc = p ∧ h.name = n
  uniq : ∀ p k k' n, (s.pc (p, k)).owns = some n → (s.pc (p, k')).owns = some n → k = k'
  excl : ∀ p k n, (s.pc (p, k)).owns = some n → ∀ h ∈ l, h.proc = p → h.name ≠ n
  pw : l.Pairwise (fun a b => ¬ Clash a b)
  proc : ∀ p k h, (s.pc (p, k)).handle = some h → h.proc = p

theorem tab_init : Tab [] Sys.init := by constructor <;> simp [Sys.init, Pc.owns, Pc.handle]

/-- A thread moves without changing what it owns. -/
theorem tab_move {l : List Handle} {s s' : Sys} {p k : Nat} {q : Pc} (ht : Tab l s)
    (hpc : ∀ u, s'.pc u = if u = (p, k) then q else s.pc u) (htab : s'.table = s.table)
    (ho : q.owns = (s.pc (p, k)).owns) (hh : q.handle = none ∨ q.handle = (s.pc (p, k)).handle) : Tab l s' := by
  obtain ⟨h1, h2, h3, h4, h5, h6, h7⟩ := ht
  have e : ∀ u, (s'.pc u).owns = (s.pc u).owns := fun u => by
    rw [hpc]; split <;> simp_all
  have e' : ∀ u h, (s'.pc u).handle = some h → (s.pc u).handle = some h := fun u h => by
    rw [hpc]; split
    · rcases hh with hh | hh <;> simp_all
    · exact id
  constructor
  · simpa only [e, htab] using h1
  · simpa only [htab] using h2
  · simpa only [e, htab] using h3
  · simpa only [e] using h4
  · simpa only [e] using h5
  · exact h6
  · exact fun p k h hx => h7 p k h (e' _ _ hx)

theorem tab_at {l : List Handle} {s x : Sys} {p k : Nat} {q : Pc} (ht : Tab l s) (hpc : x.pc = s.pc) (htab : x.table = s.table)
    (ho : q.owns = (s.pc (p, k)).owns) (hh : q.handle = none ∨ q.handle = (s.pc (p, k)).handle) : Tab l (x.at (p, k) q) :=
  tab_move (p := p) (k := k) ht (fun u => by rw [at_pc, hpc]) (by rw [at_table, htab]) ho hh

/-- A thread stops owning a name that leaves the table. -/
theorem tab_release {l : List Handle} {s : Sys} {p k : Nat} {n : Bytes} {q : Pc} (ht : Tab l s)
    (ho : (s.pc (p, k)).owns = some n) (hq : q.owns = none)
    (hh : q.handle = none ∨ q.handle = (s.pc (p, k)).handle) : Tab l ((s.setTable p n false).at (p, k) q) := by
  obtain ⟨h1, h2, h3, h4, h5, h6, h7⟩ := ht
  have e1 : ∀ a b, ((s.setTable p n false).at (p, k) q).pc (a, b) = if a = p ∧ b = k then q else s.pc (a, b) := fun a b => by
    simp [at_pc]
  have e2 : ∀ a m, ((s.setTable p n false).at (p, k) q).table a m = if a = p ∧ m = n then false else s.table a m := fun a m => rfl
  constructor <;> intros <;> grind

/-- A thread inserts a name. -/
theorem tab_insert {l : List Handle} {s : Sys} {p k : Nat} {n : Bytes} {q : Pc} (ht : Tab l s)
    (ho : (s.pc (p, k)).owns = none) (hf : s.table p n = false) (hq : q.owns = some n)
    (hh : q.handle = none) : Tab l ((s.setTable p n true).at (p, k) q) := by
  obtain ⟨h1, h2, h3, h4, h5, h6, h7⟩ := ht
  have e1 : ∀ a b, ((s.setTable p n true).at (p, k) q).pc (a, b) = if a = p ∧ b = k then q else s.pc (a, b) := fun a b => by
    simp [at_pc]
  have e2 : ∀ a m, ((s.setTable p n true).at (p, k) q).table a m = if a = p ∧ m = n then true else s.table a m := fun a m => rfl
  constructor <;> intros <;> grind

theorem tab_give {l : List Handle} {s : Sys} {p k : Nat} {h : Handle} {q : Pc} (ht : Tab l s)
    (ho : (s.pc (p, k)).owns = some h.name) (hp : h.proc = p) (hq : q.owns = none) (hh : q.handle = none) :
    Tab (h :: l) (s.at (p, k) q) := by
  obtain ⟨h1, h2, h3, h4, h5, h6, h7⟩ := ht
  have e1 : ∀ a b, (s.at (p, k) q).pc (a, b) = if a = p ∧ b = k then q else s.pc (a, b) := fun a b => by
    simp [at_pc]
  have e2 : ∀ a m, (s.at (p, k) q).table a m = s.table a m := fun _ _ => rfl
  have e3 : ∀ x, x ∈ h :: l ↔ x = h ∨ x ∈ l := fun x => List.mem_cons
  constructor
  · intros; grind
  · intros; grind
  · intro a m hm
    rw [e2] at hm
    rcases h3 a m hm with ⟨k', hk⟩ | ⟨x, hx, hy⟩
    · by_cases hc : a = p ∧ k' = k
      · obtain ⟨rfl, rfl⟩ := hc
        exact Or.inr ⟨h, by simp, hp, by rw [ho] at hk; exact Option.some.inj hk⟩
      · exact Or.inl ⟨k', by rw [e1, if_neg hc]; exact hk⟩
    · exact Or.inr ⟨x, by simp [hx], hy⟩
  · intros; grind
  · intros; grind [Clash]
  · exact List.pairwise_cons.mpr ⟨fun x hx hc => h5 p k _ ho x hx (hc.1.symm.trans hp) hc.2.symm, h6⟩
  · intros; grind

theorem tab_take {l : List Handle} {s : Sys} {p k : Nat} {h : Handle} {q : Pc} (ht : Tab l s)
    (ho : (s.pc (p, k)).owns = none) (hl : h ∈ l) (hp : h.proc = p) (hq : q.owns = some h.name) (hh : q.handle = some h) :
    Tab (l.filter (· ≠ h)) (s.at (p, k) q) := by
  obtain ⟨h1, h2, h3, h4, h5, h6, h7⟩ := ht
  have h8 : ∀ x ∈ l, x ≠ h → ¬ Clash x h := by
    intro x hx hne hc
    have := List.Pairwise.forall_of_forall_of_flip (R := fun a b => a = b ∨ ¬ Clash a b) (l := l) (fun x _ => Or.inl rfl)
      (h6.imp (fun h => Or.inr h)) (h6.imp (fun h => Or.inr (fun ⟨a, b⟩ => h ⟨a.symm, b.symm⟩))) hx hl
    rcases this with rfl | h
    · exact hne rfl
    · exact h hc
  have e1 : ∀ a b, (s.at (p, k) q).pc (a, b) = if a = p ∧ b = k then q else s.pc (a, b) := fun a b => by
    simp [at_pc]
  have e2 : ∀ a m, (s.at (p, k) q).table a m = s.table a m := fun _ _ => rfl
  constructor
  · intros; grind
  · intros; grind
  · intros; grind
  · intros; grind
  · intros; grind [Clash]
  · exact h6.filter _
  · intros; grind

set_option maxHeartbeats 2000000 in
theorem tab_step {l : List Handle} {s s' : Sys} {e : Option Ev} (ht : Tab l s) (h : Step s e s')
    (hu : ∀ t h, e = some (.callUnlock t h) → h ∈ l ∧ h.proc = t.1) : Tab (e.toList.foldl heldStep l) s' := by
  cases h with
  | exit p =>
    obtain ⟨h1, h2, h3, h4, h5, h6, h7⟩ := ht
    have e0 : Pc.idle.owns = none := rfl
    have e0' : Pc.idle.handle = none := rfl
    simp only [Option.toList, List.foldl, heldStep]
    constructor
    · intros; grind
    · intros; grind
    · intro q n; simp only; split
      · simp
      · intro hx
        rcases h3 q n hx with ⟨k, hk⟩ | ⟨h, hh, e1, e2⟩
        · exact Or.inl ⟨k, hk⟩
        · exact Or.inr ⟨h, by simp_all, e1, e2⟩
    · intros; grind
    · intros; grind
    · exact h6.filter _
    · intros; grind
  | otherClose p i =>
    obtain ⟨h1, h2, h3, h4, h5, h6, h7⟩ := ht
    constructor <;> simpa [heldStep]
  | insert t n f h =>
    obtain ⟨p, k⟩ := t
    cases hb : s.table p n
    · simp only [hb]; exact tab_insert ht (by simp [h, Pc.owns]) hb rfl rfl
    · refine tab_move (p := p) (k := k) ht (q := .dupClose n f) (fun u => by simp [at_pc, hb]) ?_ (by simp [h, Pc.owns]) (Or.inl rfl)
      funext q m; simp only [at_table, setTable_table]; split <;> simp_all
  | failRemove t n f h => obtain ⟨p, k⟩ := t; exact tab_release ht (by simp [h, Pc.owns]) rfl (Or.inl rfl)
  | remove t x h =>
    obtain ⟨p, k⟩ := t
    exact tab_release ht (by simp [h, Pc.owns]) rfl (Or.inr (by simp [h, Pc.handle]))
  | lockOk t n f h => obtain ⟨p, k⟩ := t; exact tab_give ht (by simp [h, Pc.owns]) rfl rfl rfl
  | unlockFails t x h =>
    obtain ⟨p, k⟩ := t
    exact tab_give ht (by simp [h, Pc.owns]) (ht.proc p k x (by simp [h, Pc.handle])) rfl rfl
  | callUnlock t x h =>
    obtain ⟨p, k⟩ := t
    obtain ⟨h1, h2⟩ := hu _ _ rfl
    exact tab_take ht (by simp [h, Pc.owns]) h1 h2 rfl rfl
  | callLock t n h | openOk t n ino h | openFails t n h | dupClose t n f h | setlkOk t n f h hf
  | setlkFails t n f h | failClose t n f h | lockFails t n h | unlckOk t x h | unlckFails t x h
  | close t x h | unlockOk t x h =>
    obtain ⟨p, k⟩ := t
    exact tab_at ht (by simp) (by simp) (by simp [h, Pc.owns]) (by simp [h, Pc.handle])

theorem held_append (es : List Ev) (e : Option Ev) : held (es ++ e.toList) = e.toList.foldl heldStep (held es) := by
  simp [held, List.foldl_append]

theorem tab_run {es : List Ev} {s : Sys} (h : Run es s) : Tab (held es) s := by
  induction h with
  | nil => exact tab_init
  | step _ h' hu ih => rw [held_append]; exact tab_step ih h' hu

/-! ### Across processes -/

/-- The file that a call has locked. -/
def Pc.locked : Pc → Option Nat
  | .leaveLock _ (some f) => some f.ino
  | .unlck h | .leaveUnlock h false => some h.fd.ino
  | _ => none

structure Car (l : List Handle) (s : Sys) : Prop where
  lock : ∀ p k i, (s.pc (p, k)).locked = some i → s.locks i = some p
  hold : ∀ h ∈ l, s.locks h.fd.ino = some h.proc
  uniq : ∀ p k k' i, (s.pc (p, k)).file = some i → (s.pc (p, k')).file = some i → k = k'
  excl : ∀ p k i, (s.pc (p, k)).file = some i → ∀ h ∈ l, h.proc = p → h.fd.ino ≠ i
  pw : l.Pairwise (fun a b => ¬ (a.proc = b.proc ∧ a.fd.ino = b.fd.ino))
  proc : ∀ p k h, (s.pc (p, k)).handle = some h → h.proc = p

theorem car_init : Car [] Sys.init := by constructor <;> simp [Sys.init, Pc.locked, Pc.file, Pc.handle]

theorem locked_file {q : Pc} {i : Nat} (h : q.locked = some i) : q.file = some i := by
  unfold Pc.locked at h; unfold Pc.file; split at h <;> simp_all

/-- A thread moves, and the locks that it has no right to stay as they are. -/
theorem car_at {l : List Handle} {s x : Sys} {p k : Nat} {q : Pc} (ht : Car l s) (hpc : x.pc = s.pc)
    (hlk : ∀ i, x.locks i = s.locks i ∨ ((s.pc (p, k)).file = some i ∧
      ((x.locks i = none ∧ s.locks i = some p) ∨ (x.locks i = some p ∧ (s.locks i = none ∨ s.locks i = some p)))))
    (hq : ∀ i, q.locked = some i → x.locks i = some p)
    (hf : q.file = none ∨ q.file = (s.pc (p, k)).file) (hh : q.handle = none ∨ q.handle = (s.pc (p, k)).handle) :
    Car l (x.at (p, k) q) := by
  obtain ⟨h1, h2, h3, h4, h5, h6⟩ := ht
  have e1 : ∀ a b, (x.at (p, k) q).pc (a, b) = if a = p ∧ b = k then q else s.pc (a, b) := fun a b => by
    simp [at_pc, hpc]
  have e2 : ∀ i, (x.at (p, k) q).locks i = x.locks i := fun _ => rfl
  have e3 : ∀ a b i, (s.pc (a, b)).locked = some i → (s.pc (a, b)).file = some i := fun _ _ _ h => locked_file h
  constructor
  · intro a b i
    have := hlk i
    grind
  · intro h hh
    have := hlk h.fd.ino
    grind
  · intros; grind
  · intros; grind
  · exact h5
  · intros; grind

theorem car_open {l : List Handle} {s x : Sys} {p k : Nat} {n : Bytes} {f : Fd} (ht : Car l s) (hpc : x.pc = s.pc) (hlk : x.locks = s.locks)
    (ha : (∀ h ∈ l, h.proc = p → h.fd.ino ≠ f.ino) ∧ ∀ k, (s.pc (p, k)).file ≠ some f.ino) :
    Car l (x.at (p, k) (.insert n f)) := by
  obtain ⟨h1, h2, h3, h4, h5, h6⟩ := ht
  obtain ⟨ha1, ha2⟩ := ha
  have e1 : ∀ a b, (x.at (p, k) (.insert n f)).pc (a, b) = if a = p ∧ b = k then .insert n f else s.pc (a, b) := fun a b => by
    simp [at_pc, hpc]
  have e2 : ∀ i, (x.at (p, k) (.insert n f)).locks i = s.locks i := fun _ => by simp [hlk]
  have e3 : (Pc.insert n f).file = some f.ino := rfl
  have e4 : (Pc.insert n f).locked = none := rfl
  have e5 : (Pc.insert n f).handle = none := rfl
  constructor
  · intros; grind
  · intros; grind
  · intros; grind
  · intros; grind
  · exact h5
  · intros; grind

theorem car_give {l : List Handle} {s : Sys} {p k : Nat} {h : Handle} (ht : Car l s)
    (ho : (s.pc (p, k)).locked = some h.fd.ino) (hp : h.proc = p) : Car (h :: l) (s.at (p, k) .idle) := by
  obtain ⟨h1, h2, h3, h4, h5, h6⟩ := ht
  have e1 : ∀ a b, (s.at (p, k) .idle).pc (a, b) = if a = p ∧ b = k then .idle else s.pc (a, b) := fun a b => by
    simp [at_pc]
  have e2 : ∀ i, (s.at (p, k) .idle).locks i = s.locks i := fun _ => rfl
  have e3 : Pc.idle.file = none := rfl
  have e4 : Pc.idle.locked = none := rfl
  have e5 : Pc.idle.handle = none := rfl
  have e6 := locked_file ho
  constructor
  · intros; grind
  · intros; grind
  · intros; grind
  · intros; grind
  · exact List.pairwise_cons.mpr ⟨fun x hx hc => h4 p k _ e6 x hx (hc.1.symm.trans hp) hc.2.symm, h5⟩
  · intros; grind

theorem car_take {l : List Handle} {s : Sys} {p k : Nat} {h : Handle} (ht : Car l s)
    (ho : s.pc (p, k) = .idle) (hl : h ∈ l) (hp : h.proc = p) : Car (l.filter (· ≠ h)) (s.at (p, k) (.unlck h)) := by
  obtain ⟨h1, h2, h3, h4, h5, h6⟩ := ht
  have h8 : ∀ x ∈ l, x ≠ h → ¬ (x.proc = h.proc ∧ x.fd.ino = h.fd.ino) := by
    intro x hx hne hc
    have := List.Pairwise.forall_of_forall_of_flip (R := fun a b => a = b ∨ ¬ (a.proc = b.proc ∧ a.fd.ino = b.fd.ino)) (l := l)
      (fun x _ => Or.inl rfl)
      (h5.imp (fun h => Or.inr h)) (h5.imp (fun h => Or.inr (fun ⟨a, b⟩ => h ⟨a.symm, b.symm⟩))) hx hl
    rcases this with rfl | h
    · exact hne rfl
    · exact h hc
  have e1 : ∀ a b, (s.at (p, k) (.unlck h)).pc (a, b) = if a = p ∧ b = k then .unlck h else s.pc (a, b) := fun a b => by
    simp [at_pc]
  have e2 : ∀ i, (s.at (p, k) (.unlck h)).locks i = s.locks i := fun _ => rfl
  have e3 : (Pc.unlck h).file = some h.fd.ino := rfl
  have e4 : (Pc.unlck h).locked = some h.fd.ino := rfl
  have e5 : (Pc.unlck h).handle = some h := rfl
  constructor
  · intros; grind
  · intros; grind
  · intros; grind
  · intros; grind
  · exact h5.filter _
  · intros; grind

set_option maxHeartbeats 2000000 in
theorem car_step {es : List Ev} {s s' : Sys} {e : Option Ev} (ht : Car (held es) s) (h : Step s e s')
    (hu : ∀ t h, e = some (.callUnlock t h) → h ∈ held es ∧ h.proc = t.1) (hc : CarefulStep es s s' e) :
    Car (e.toList.foldl heldStep (held es)) s' := by
  cases h with
  | exit p =>
    obtain ⟨h1, h2, h3, h4, h5, h6⟩ := ht
    have e0 : Pc.idle.locked = none := rfl
    have e0' : Pc.idle.handle = none := rfl
    have e0'' : Pc.idle.file = none := rfl
    simp only [Option.toList, List.foldl, heldStep]
    constructor
    · intros; grind
    · intros; grind
    · intros; grind
    · intros; grind
    · exact h5.filter _
    · intros; grind
  | otherClose p i =>
    obtain ⟨h1, h2, h3, h4, h5, h6⟩ := ht
    obtain ⟨ha, hb⟩ := hc.2 p i rfl
    have e3 : ∀ a b i, (s.pc (a, b)).locked = some i → (s.pc (a, b)).file = some i := fun _ _ _ h => locked_file h
    simp only [Option.toList, List.foldl, heldStep]
    have e4 := drop_pc s p i
    have e5 := drop_locks s p i
    constructor
    · intros; grind
    · intros; grind
    · rw [e4]; exact h3
    · rw [e4]; exact h4
    · exact h5
    · rw [e4]; exact h6
  | openOk t n ino h =>
    obtain ⟨p, k⟩ := t
    refine car_open ht rfl rfl ?_
    exact hc.1 (p, k) n ⟨s.fresh, ino⟩ (by simp [at_pc]) (by simp [h])
  | lockOk t n f h => obtain ⟨p, k⟩ := t; exact car_give ht (by simp [h, Pc.locked]) rfl
  | unlockFails t x h =>
    obtain ⟨p, k⟩ := t
    exact car_give ht (by simp [h, Pc.locked]) (ht.proc p k x (by simp [h, Pc.handle]))
  | callUnlock t x h =>
    obtain ⟨p, k⟩ := t
    obtain ⟨h1, h2⟩ := hu _ _ rfl
    exact car_take ht h h1 h2
  | insert t n f h =>
    obtain ⟨p, k⟩ := t
    refine car_at ht rfl (fun i => Or.inl rfl) ?_ ?_ ?_
    all_goals split <;> simp [h, Pc.locked, Pc.file, Pc.handle]
  | failRemove t n f h | remove t x h =>
    obtain ⟨p, k⟩ := t
    exact car_at ht rfl (fun i => Or.inl rfl) (by simp [Pc.locked]) (by simp [h, Pc.file]) (by simp [h, Pc.handle])
  | callLock t n h | openFails t n h | setlkFails t n f h | lockFails t n h | unlockOk t x h =>
    obtain ⟨p, k⟩ := t
    exact car_at ht rfl (fun i => Or.inl rfl) (by simp [Pc.locked]) (by simp [h, Pc.file]) (by simp [h, Pc.handle])
  | unlckFails t x h =>
    obtain ⟨p, k⟩ := t
    exact car_at ht rfl (fun i => Or.inl rfl) (fun i hi => ht.lock p k i (by simpa [h, Pc.locked] using hi))
      (by simp [h, Pc.file]) (by simp [h, Pc.handle])
  | setlkOk t n f h hf =>
    obtain ⟨p, k⟩ := t
    refine car_at ht rfl (fun i => ?_) (by simp [Pc.locked, setLock_locks]) (by simp [h, Pc.file]) (by simp [h, Pc.handle])
    simp only [setLock_locks]
    by_cases hi : i = f.ino
    · subst hi; right; simpa [h, Pc.file] using hf
    · simp [hi]
  | dupClose t n f h | failClose t n f h =>
    obtain ⟨p, k⟩ := t
    refine car_at ht (by simp) (fun i => ?_) (by simp [Pc.locked]) (by simp [h, Pc.file]) (by simp [h, Pc.handle])
    simp only [drop_locks]
    by_cases hi : i = f.ino ∧ s.locks f.ino = some p
    · obtain ⟨rfl, hl⟩ := hi; right; simp [h, Pc.file, hl]
    · simp [hi]
  | unlckOk t x h | close t x h =>
    obtain ⟨p, k⟩ := t
    refine car_at ht (by simp) (fun i => ?_) (by simp [Pc.locked]) (by simp [h, Pc.file]) (by simp [h, Pc.handle])
    simp only [drop_locks]
    by_cases hi : i = x.fd.ino ∧ s.locks x.fd.ino = some p
    · obtain ⟨rfl, hl⟩ := hi; right; simp [h, Pc.file, hl]
    · simp [hi]

theorem car_run {es : List Ev} {s : Sys} (h : CarefulRun es s) : Car (held es) s := by
  induction h with
  | nil => exact car_init
  | step _ h' hu hc ih => rw [held_append]; exact car_step ih h' hu hc

theorem careful_at {es : List Ev} {s x : Sys} {t : Nat × Nat} {q : Pc} {e : Option Ev} (hx : x.pc = s.pc)
    (hq : ∀ n f, q = .insert n f → Away es s t.1 f.ino) (he : ∀ p i, e ≠ some (.otherClose p i)) :
    CarefulStep es s (x.at t q) e := by
  refine ⟨fun u n f h1 h2 => ?_, fun p i h => absurd h (he p i)⟩
  rw [at_pc, hx] at h1
  split at h1
  · subst_vars; exact hq n f rfl
  · exact absurd h1 h2

theorem careful_exit {es : List Ev} {s s' : Sys} {p : Nat} (hx : s'.pc = fun t => if t.1 = p then .idle else s.pc t) :
    CarefulStep es s s' (some (.exit p)) := by
  refine ⟨fun u n f h1 h2 => ?_, by simp⟩
  rw [hx] at h1
  simp only at h1
  split at h1
  · exact nomatch h1
  · exact absurd h1 h2

end PLock
end Lsmdb
