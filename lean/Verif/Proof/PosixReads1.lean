import Verif.Proof.PosixSolo4
import Verif.Proof.PosixMaps
import Verif.Spec.PosixReads

/-! Reads of one random-access file by many threads. -/

namespace Lsmdb
namespace Posix

open MemEnv (St lit)

namespace Conc

open Prog

variable {strerror : Strerror} {full : Bool}

/-- Whatever the program returns, it is of this kind. -/
def Returns {α : Type} (Q : α → Prop) : Prog α → Prop
  | .ret a => Q a
  | .call _ k => ∀ r, Returns Q (k r)
  | .fault _ => True
  | .spin => True

theorem returns_bind {α β : Type} {p : Prog α} {f : α → Prog β} {Q : β → Prop} (h : ∀ a, Returns Q (f a)) : Returns Q (p.bind f) := by
  induction p with
  | ret a => exact h a
  | call c k ih => exact fun r => ih r
  | fault e => trivial
  | spin => trivial

/-- Deleting an object leaves nothing. -/
theorem returns_delete (fuel h : Nat) (o : Obj) :
    Returns (fun a => ∃ r, a = Fin.back none r) (body strerror full fuel (.delete h) (some o)) :=
  returns_bind fun _ => ⟨_, rfl⟩

/-! ## The programs of a read -/

/-- The end of a read through a permanent descriptor. -/
def permEnd (strerror : Strerror) (f : RandFile) (n : Nat) : Except Errno Bytes → Prog Fin
  | .error e => .ret (.ans (.data (PosixError strerror f.filename e) (some [])))
  | .ok d => if d.length ≤ n then .ret (.ans (.data .ok (some d))) else .fault .outOfBounds

/-- A read through a permanent descriptor. -/
def permProg (strerror : Strerror) (f : RandFile) (offset n : Nat) : Prog Fin :=
  .call (.pread f.fd n (toOff offset)) (permEnd strerror f n)

theorem body_perm {f : RandFile} (hp : f.has_permanent_fd = true) (hf : f.fd ≠ -1) (fuel h offset n : Nat) :
    body strerror full fuel (.randRead h offset n) (some (.rand f)) = permProg strerror f offset n := by
  obtain ⟨p, fd, name⟩ := f
  subst hp
  have hc : cassert (decide (fd ≠ -1)) = .ok () := cassert_true (by simpa using hf)
  show (Prog.bind (Prog.ofM (cassert (decide (fd ≠ -1)))) _).bind _ = _
  rw [hc]
  show Prog.call _ _ = Prog.call _ _
  congr 1
  funext r
  cases r with
  | error e => rfl
  | ok d =>
    show ((if d.length ≤ n then _ else _ : Prog _).bind _).bind _ = if d.length ≤ n then _ else _
    by_cases hd : d.length ≤ n
    · rw [if_pos hd, if_pos hd]; rfl
    · rw [if_neg hd, if_neg hd]; rfl

/-- The last step of a read that opened the file: close. -/
def tempClose (fd : Int) (s : St) (d : Option Bytes) : Prog Fin := .call (.close fd) (fun _ => .ret (.ans (.data s d)))

/-- The end of a read that opened the file. -/
def tempEnd (strerror : Strerror) (f : RandFile) (n : Nat) (fd : Int) : Except Errno Bytes → Prog Fin
  | .error e => tempClose fd (PosixError strerror f.filename e) (some [])
  | .ok d => if d.length ≤ n then tempClose fd .ok (some d) else .fault .outOfBounds

/-- A read that has opened the file. -/
def tempRead (strerror : Strerror) (f : RandFile) (offset n : Nat) (fd : Int) : Prog Fin :=
  .call (.pread fd n (toOff offset)) (tempEnd strerror f n fd)

/-- What a read that opens the file makes of the result. -/
def tempOpened (strerror : Strerror) (f : RandFile) (offset n : Nat) : Except Errno Int → Prog Fin
  | .error e => .ret (.ans (.data (PosixError strerror f.filename e) none))
  | .ok fd => if fd = -1 then .fault .assertFail else tempRead strerror f offset n fd

/-- A read that opens the file. -/
def tempProg (strerror : Strerror) (f : RandFile) (offset n : Nat) : Prog Fin :=
  .call (.open .rdonly f.filename) (tempOpened strerror f offset n)

theorem body_temp {f : RandFile} (hp : f.has_permanent_fd = false) (hf : f.fd = -1) (fuel h offset n : Nat) :
    body strerror full fuel (.randRead h offset n) (some (.rand f)) = tempProg strerror f offset n := by
  obtain ⟨p, fd0, name⟩ := f
  subst hp
  have hf : fd0 = -1 := hf
  subst hf
  show Prog.call _ _ = Prog.call _ _
  congr 1
  funext r
  cases r with
  | error e => rfl
  | ok fd =>
    show (Prog.bind (Prog.ofM (cassert (decide ((fd : Int) ≠ -1)))) _).bind _ = if (fd : Int) = -1 then _ else _
    by_cases h1 : (fd : Int) = -1
    · rw [if_pos h1]
      have hc : cassert (decide ((fd : Int) ≠ -1)) = .error .assertFail := by
        have : decide ((fd : Int) ≠ -1) = false := by simpa using h1
        rw [this]; rfl
      rw [hc]; rfl
    · rw [if_neg h1]
      have hc : cassert (decide ((fd : Int) ≠ -1)) = .ok () := cassert_true (by simpa using h1)
      rw [hc]
      show Prog.call _ _ = Prog.call _ _
      congr 1
      funext r
      cases r with
      | error e => rfl
      | ok d =>
        show ((if d.length ≤ n then _ else _ : Prog _).bind _).bind _ = if d.length ≤ n then _ else _
        by_cases hd : d.length ≤ n
        · rw [if_pos hd, if_pos hd]; rfl
        · rw [if_neg hd, if_neg hd]; rfl

/-! ## What the steps do to the kernel -/

/-- A mapping that is not unmapped stays. -/
theorem exec_map {cmd : Cmd} {m : Nat} {q : Nat × Nat} {sh sh' : Shared} {w w' : World} {r : cmd.Resp} (hm : cmd ≠ .munmap m)
    (hx : ∀ x ∈ w.choices, KeepsMaps x) (ho : w.k.maps[m]? = some (some q))
    (h : cmd.exec sh w = .done (r, sh') w') : w'.k.maps[m]? = some (some q) := by
  have same : ∀ {α : Type} {x : P α} {a : α}, MapsP x → x w = .done a w' → w'.k.maps[m]? = some (some q) := by
    intro α x a hp he
    rw [show w'.k.maps = w.k.maps from (hp.out w a w' hx he).1]; exact ho
  cases cmd with
  | fetchSub l => injection h with _ h; rw [← h]; exact ho
  | fetchAdd l => injection h with _ h; rw [← h]; exact ho
  | insert l => injection h with _ h; rw [← h]; exact ho
  | remove l => injection h with _ h; rw [← h]; exact ho
  | «open» md p => exact same (sysOpen_maps md p) (keep_done h).1
  | opendir p => exact same (sysOpendir_maps p) (keep_done h).1
  | close fd => exact same (sysClose_maps fd) (keep_done h).1
  | read fd n => exact same (sysRead_maps fd n) (keep_done h).1
  | pread fd n off => exact same (sysPread_maps fd n off) (keep_done h).1
  | lseek fd n => exact same (sysLseekCur_maps fd n) (keep_done h).1
  | write fd d => exact same (sysWrite_maps fd d) (keep_done h).1
  | sync fd => exact same (sysSync_maps fd) (keep_done h).1
  | stat p => exact same (sysStat_maps p) (keep_done h).1
  | access p => exact same (sysAccess_maps p) (keep_done h).1
  | unlink p => exact same (sysUnlink_maps p) (keep_done h).1
  | mkdir p => exact same (sysMkdir_maps p) (keep_done h).1
  | rmdir p => exact same (sysRmdir_maps p) (keep_done h).1
  | rename p p' => exact same (sysRename_maps p p') (keep_done h).1
  | other fd => exact same sysOther_maps (keep_done h).1
  | readdir fd l => exact same (sysReaddir_maps l) (keep_done h).1
  | mmap fd len =>
    rcases (sysMmap_maps hx fd len _ _ (keep_done h).1).2 with ⟨_, _, h1⟩ | ⟨_, _, h1⟩
    · rw [h1]; exact ho
    · rw [h1, List.getElem?_append_left (List.getElem?_eq_some_iff.1 ho).1]; exact ho
  | munmap m' =>
    rcases (sysMunmap_maps hx m' _ _ (keep_done h).1).2 with h1 | h1
    · rw [h1]; exact ho
    · rw [h1, List.getElem?_set_ne (fun e => hm (by rw [e]))]; exact ho

/-- `pread` at a small offset shows the file as it is. -/
theorem pread_small {w w' : World} {fd : Int} {o : Ofd} {ino n offset : Nat} {D : Bytes} {r : Except Errno Bytes}
    (hx : ∀ x ∈ w.choices, (x.other w.k).fds = w.k.fds) (ho : w.k.ofd fd = some o) (hi : o.ino = ino) (hrd : o.rd = true)
    (hoff : offset < 2 ^ 63) (h : sysPread fd n (toOff offset) w = .done r w') (hD : RegularFile w'.k ino D) :
    (∃ e, r = .error e) ∨ ∃ d, r = .ok d ∧ Excerpt D offset n d := by
  unfold sysPread sys at h
  cases hc : w.choices with
  | nil => rw [hc] at h; exact nomatch h
  | cons x xs =>
    rw [hc] at h
    have ho' : (x.other w.k).ofd fd = some o := by
      unfold Kernel.ofd at ho ⊢; rw [hx x (by rw [hc]; exact List.mem_cons_self)]; exact ho
    injection h with h1 h2
    subst h1 h2
    cases hf : x.fail with
    | some e => exact .inl ⟨e, by simp only [hf]⟩
    | none =>
      have h0 : ¬ (toOff offset) < 0 := by rw [toOff_small hoff]; omega
      simp only [hf, ho', h0, if_false, hrd, if_true, hi] at hD ⊢
      have hk : RegularFile (x.other w.k) ino D := by
        cases hq : (x.other w.k).inodes[ino]? with
        | none => simp only [hq] at hD; obtain ⟨n', h1, -⟩ := hD; rw [hq] at h1; exact nomatch h1
        | some q =>
          simp only [hq] at hD
          split at hD <;> exact hD
      obtain ⟨i, h1, h2, h3⟩ := hk
      simp only [h1, h2, h3, Bool.false_eq_true, if_false, toOff_small hoff]
      refine .inr ⟨_, rfl, ?_, ?_, ?_⟩
      · simp only [Int.toNat_natCast]
        exact (List.take_prefix _ _).trans (List.take_prefix _ _)
      · simp only [List.length_take, List.length_drop]; omega
      · rw [← List.length_eq_zero_iff]
        simp only [List.length_take, List.length_drop, Int.toNat_natCast]
        omega

/-- `pread` shows the file as it is. -/
theorem pread_good {w w' : World} {fd : Int} {o : Ofd} {ino n offset : Nat} {D : Bytes} {r : Except Errno Bytes}
    (hx : ∀ x ∈ w.choices, (x.other w.k).fds = w.k.fds) (ho : w.k.ofd fd = some o) (hi : o.ino = ino) (hrd : o.rd = true)
    (hoff : offset < 2 ^ 64) (h : sysPread fd n (toOff offset) w = .done r w') (hD : RegularFile w'.k ino D) :
    (∃ e, r = .error e) ∨ ∃ d, r = .ok d ∧ Excerpt D offset n d := by
  by_cases hoff' : offset < 2 ^ 63
  · exact pread_small hx ho hi hrd hoff' h hD
  · left
    unfold sysPread sys at h
    cases hc : w.choices with
    | nil => rw [hc] at h; exact nomatch h
    | cons x xs =>
      rw [hc] at h
      have ho' : (x.other w.k).ofd fd = some o := by
        unfold Kernel.ofd at ho ⊢; rw [hx x (by rw [hc]; exact List.mem_cons_self)]; exact ho
      injection h with h1 h2
      subst h1
      cases hf : x.fail with
      | some e => exact ⟨e, by simp only [hf]⟩
      | none =>
        have h0 : (toOff offset) < 0 := by rw [toOff_big (by omega) hoff]; omega
        exact ⟨EINVAL, by simp only [hf, ho', if_pos h0]⟩

/-- `open` shows what the name means. -/
theorem open_good {w w' : World} {name : Bytes} {r : Except Errno Int} (h : sysOpen .rdonly name w = .done r w') :
    (∃ e, r = .error e) ∨ ∃ (i ino : Nat) (o : Ofd), r = .ok (i : Int) ∧ w'.k.lookup (cstr name) = some ino ∧ w'.k.ofd (i : Int) = some o ∧
      o.ino = ino ∧ o.rd = true := by
  unfold sysOpen sys at h
  cases hc : w.choices with
  | nil => rw [hc] at h; exact nomatch h
  | cons x xs =>
    rw [hc] at h
    injection h with h1 h2
    subst h1 h2
    generalize x.other w.k = k
    cases hf : x.fail with
    | some e => exact .inl ⟨e, by simp only [hf]⟩
    | none =>
      simp only [hf, kopen]
      by_cases h0 : cstr name = []
      · simp only [h0, if_true]; exact .inl ⟨_, rfl⟩
      · rw [if_neg h0]
        cases hl : k.lookup (cstr name) with
        | none => simp only [Mode.creat, Bool.false_eq_true, if_false]; exact .inl ⟨_, rfl⟩
        | some i =>
          simp only
          cases hq : k.inodes[i]? with
          | none => exact .inl ⟨_, rfl⟩
          | some q =>
            simp only [ne_eq, not_true_eq_false, and_false, if_false, reduceCtorEq]
            refine .inr ⟨_, i, Mode.rdonly.ofd i, rfl, hl, ?_, rfl, rfl⟩
            unfold Kernel.ofd
            rw [if_neg (by omega)]
            simp [putFd_get_same]

end Conc
end Posix
end Lsmdb
