import Verif.Proof.PosixRead

/-! # POSIX random-access files -/

namespace Lsmdb
namespace Posix

open MemEnv (St lit)

variable (strerror : Strerror)

/-- Same names, file `ino` and mappings. -/
structure Kept (name : Bytes) (ino : Nat) (k k' : Kernel) : Prop where
  name : k'.lookup (cstr name) = k.lookup (cstr name)
  ino : ∀ n, k.inodes[ino]? = some n → k'.inodes[ino]? = some n
  maps : k'.maps = k.maps

theorem Kept.refl (name : Bytes) (ino : Nat) (k : Kernel) : Kept name ino k k := ⟨rfl, fun _ h => h, rfl⟩

theorem Kept.trans {name : Bytes} {ino : Nat} {k k' k'' : Kernel} (h : Kept name ino k k') (h' : Kept name ino k' k'') :
    Kept name ino k k'' := ⟨h'.name.trans h.name, fun n hn => h'.ino n (h.ino n hn), h'.maps.trans h.maps⟩

theorem Steady.kept {name : Bytes} {ino : Nat} {c : Choice} (h : Steady name ino c) (k : Kernel) :
    Kept name ino k (c.other k) := ⟨(h k).1, (h k).2.1, (h k).2.2.2⟩

theorem RegularFile.kept {k k' : Kernel} {ino : Nat} {D name : Bytes} (h : RegularFile k ino D)
    (hk : Kept name ino k k') : RegularFile k' ino D := by
  obtain ⟨n, h1, h2, h3⟩ := h
  exact ⟨n, hk.ino n h1, h2, h3⟩

theorem RegularFile.data {k : Kernel} {ino : Nat} {D : Bytes} (h : RegularFile k ino D) : k.data ino = D := by
  obtain ⟨n, h1, h2, h3⟩ := h
  simp [Kernel.data, h1, h3]

/-- `open(O_RDONLY)` of a regular file. -/
theorem sysOpen_kept {w : World} {name : Bytes} {ino : Nat} {D : Bytes} (hs : ∀ c ∈ w.choices, Steady name ino c)
    (hl : w.k.lookup (cstr name) = some ino) (hr : RegularFile w.k ino D) :
    (sysOpen .rdonly name w).Sat (fun r w' => w'.choices <:+ w.choices ∧ Kept name ino w.k w'.k ∧
      ((∃ e, r = .error e ∧ w'.k.fds = w.k.fds) ∨
       (∃ fd : Nat, r = .ok (fd : Int) ∧ cstr name ≠ [] ∧ w'.k.ofd fd = some (Mode.rdonly.ofd ino) ∧
         (∀ i : Nat, i ≠ fd → w'.k.fds[i]? = w.k.fds[i]?) ∧ ∀ o, w.k.fds[fd]? ≠ some (some o)))) (fun _ => True) := by
  unfold sysOpen
  apply Out.Sat.sys (fun _ => trivial)
  intro c cs hcs
  have hc := hs c (by rw [hcs]; exact List.mem_cons_self)
  have hk := hc.kept w.k
  refine ⟨by rw [hcs]; exact List.suffix_cons _ _, ?_⟩
  cases hf : c.fail with
  | some e => exact ⟨hk, .inl ⟨e, rfl, (hc w.k).2.2.1⟩⟩
  | none =>
    simp only [kopen]
    by_cases h0 : cstr name = []
    · simp only [h0, if_true]; exact ⟨by simpa [h0] using hk, .inl ⟨_, rfl, (hc w.k).2.2.1⟩⟩
    · obtain ⟨n, h1, h2, h3⟩ := hr.kept hk
      rw [if_neg h0, hk.name, hl]
      simp only [h1, h2, Bool.false_eq_true, false_and, if_false, reduceCtorEq]
      refine ⟨⟨hk.name, hk.ino, hk.maps⟩, .inr ⟨_, rfl, h0, ?_, ?_, ?_⟩⟩
      · unfold Kernel.ofd
        rw [if_neg (by omega)]
        simp [putFd_get_same]
      · intro i hi
        rw [putFd_get_other _ _ _ hi, (hc w.k).2.2.1]
      · intro o ho
        rw [← (hc w.k).2.2.1] at ho
        rcases freeFd_none (c.other w.k).fds with h | h <;> rw [h] at ho <;> exact nomatch ho

theorem sysClose_kept {w : World} {name : Bytes} {ino : Nat} (hs : ∀ c ∈ w.choices, Steady name ino c) (fd : Nat) :
    (sysClose fd w).Sat (fun _ w' => w'.choices <:+ w.choices ∧ Kept name ino w.k w'.k ∧
      ∀ i : Nat, i ≠ fd → w'.k.fds[i]? = w.k.fds[i]?) (fun _ => True) := by
  unfold sysClose
  apply Out.Sat.sys (fun _ => trivial)
  intro c cs hcs
  have hc := hs c (by rw [hcs]; exact List.mem_cons_self)
  have hk := hc.kept w.k
  refine ⟨by rw [hcs]; exact List.suffix_cons _ _, ?_⟩
  cases ho : (c.other w.k).ofd fd with
  | none => exact ⟨hk, fun i _ => by rw [(hc w.k).2.2.1]⟩
  | some o =>
    have h2 : ∀ i : Nat, i ≠ fd → ((c.other w.k).fds.set (fd : Int).toNat none)[i]? = w.k.fds[i]? := by
      intro i hi
      rw [List.getElem?_set_ne (by simpa using Ne.symm hi), (hc w.k).2.2.1]
    cases hf : c.fail with
    | some e => exact ⟨⟨hk.name, hk.ino, hk.maps⟩, h2⟩
    | none => exact ⟨⟨hk.name, hk.ino, hk.maps⟩, h2⟩

/-- The bytes a successful read returns. -/
def Excerpt (D : Bytes) (offset n : Nat) (d : Bytes) : Prop :=
  d <+: D.drop offset ∧ d.length ≤ n ∧ (d = [] ↔ n = 0 ∨ D.length ≤ offset)

theorem sysPread_kept {w : World} {name : Bytes} {ino : Nat} {D : Bytes} {fd : Int} {o : Ofd}
    (hs : ∀ c ∈ w.choices, Steady name ino c) (ho : w.k.ofd fd = some o) (hi : o.ino = ino) (hrd : o.rd = true)
    (hr : RegularFile w.k ino D) (offset n : Nat) (hoff : offset < 2 ^ 63) :
    (sysPread fd n (toOff offset) w).Sat (fun r w' => w'.choices <:+ w.choices ∧ Kept name ino w.k w'.k ∧
      w'.k.fds = w.k.fds ∧ ((∃ e, r = .error e) ∨ ∃ d, r = .ok d ∧ Excerpt D offset n d)) (fun _ => True) := by
  unfold sysPread
  apply Out.Sat.sys (fun _ => trivial)
  intro c cs hcs
  have hc := hs c (by rw [hcs]; exact List.mem_cons_self)
  have hk := hc.kept w.k
  have hfd := (hc w.k).2.2.1
  refine ⟨by rw [hcs]; exact List.suffix_cons _ _, ?_⟩
  cases hf : c.fail with
  | some e => exact ⟨hk, hfd, .inl ⟨e, rfl⟩⟩
  | none =>
    have ho' : (c.other w.k).ofd fd = some o := by
      unfold Kernel.ofd at ho ⊢; rw [hfd]; exact ho
    obtain ⟨i, h1, h2, h3⟩ := hr.kept hk
    simp only [ho', hrd, if_true, hi, h1, h2, h3, Bool.false_eq_true, if_false, toOff_small hoff]
    rw [if_neg (by omega)]
    refine ⟨hk, hfd, .inr ⟨_, rfl, ?_, ?_, ?_⟩⟩
    · simp only [Int.toNat_natCast]
      exact (List.take_prefix _ _).trans (List.take_prefix _ _)
    · simp only [List.length_take, List.length_drop]; omega
    · rw [← List.length_eq_zero_iff]
      simp only [List.length_take, List.length_drop, Int.toNat_natCast]
      omega

theorem Serves.kept {k k' : Kernel} {name : Bytes} {ino : Nat} {D : Bytes} {o : Obj} (h : Serves k name ino D o)
    (hk : Kept name ino k k') (hf : k'.fds = k.fds) : Serves k' name ino D o := by
  cases o with
  | rand f =>
    obtain ⟨h1, h2, h3⟩ := h
    refine ⟨h1.kept hk, h2, ?_⟩
    split
    · rename_i hp
      rw [if_pos hp] at h3
      obtain ⟨h3, o, h4⟩ := h3
      refine ⟨h3, o, ?_⟩
      unfold Kernel.ofd at h4 ⊢
      rw [hf]; exact h4
    · rename_i hp
      rw [if_neg hp] at h3
      exact ⟨h3.1, hk.name.trans h3.2.1, h3.2.2⟩
  | mmap f =>
    obtain ⟨h1, h2, h3, h4⟩ := h
    exact ⟨h1.kept hk, h2, by rw [hk.maps]; exact h3, h4⟩
  | seq f => exact h
  | wr f => exact h
  | lock fd n => exact h
  | logger fd => exact h

/-- What a random-access read gives. -/
structure RandPost (name : Bytes) (ino : Nat) (D : Bytes) (offset n : Nat) (o : Obj) (cs : List Choice)
    (r : St × Option Bytes) (w' : World) : Prop where
  suffix : w'.choices <:+ cs
  serves : Serves w'.k name ino D o
  post : (∃ d, r = (.ok, some d) ∧ Excerpt D offset n d) ∨ (r.1 ≠ .ok ∧ r.2.getD [] = [])

theorem RandRead_serves {w : World} {name : Bytes} {ino : Nat} {D : Bytes} {f : RandFile} (offset n cap : Nat)
    (hn : n ≤ cap) (hoff : offset < 2 ^ 63) (hs : ∀ c ∈ w.choices, Steady name ino c)
    (h : Serves w.k name ino D (.rand f)) :
    (f.Read strerror offset n cap w).Sat (RandPost name ino D offset n (.rand f) w.choices) (fun _ => True) := by
  have hh := h
  obtain ⟨hr, rfl, h3⟩ := h
  unfold RandFile.Read
  cases hp : f.has_permanent_fd with
  | true =>
    rw [hp, if_pos rfl] at h3
    obtain ⟨h3, o, h4, h5, h6⟩ := h3
    simp only [if_true]
    apply Out.Sat.bind
    apply Out.Sat.pure
    apply Out.Sat.bind
    refine Out.Sat.pureM (a := ()) (by simp [cassert, h3]) ?_
    apply Out.Sat.bind
    refine true_mono (sysPread_kept (name := f.filename) hs h4 h5 h6 hr offset n hoff) ?_
    rintro r w' ⟨g1, g2, g3, g4⟩
    rcases g4 with ⟨e, rfl⟩ | ⟨d, rfl, g4⟩
    · simp only []
      apply Out.Sat.bind
      apply Out.Sat.pure
      exact Out.Sat.pure ⟨g1, hh.kept g2 g3, .inr ⟨PosixError_ne_ok _ _ _, rfl⟩⟩
    · simp only []
      rw [if_pos (by have := g4.2.1; omega)]
      apply Out.Sat.bind
      apply Out.Sat.pure
      exact Out.Sat.pure ⟨g1, hh.kept g2 g3, .inl ⟨d, rfl, g4⟩⟩
  | false =>
    rw [hp, if_neg (by simp)] at h3
    obtain ⟨h3, h4, h5⟩ := h3
    simp only [Bool.false_eq_true, if_false]
    have hserve : ∀ k', Kept f.filename ino w.k k' → Serves k' f.filename ino D (.rand f) := by
      intro k' hk
      exact ⟨hr.kept hk, rfl, by rw [hp, if_neg (by simp)]; exact ⟨h3, hk.name.trans h4, h5⟩⟩
    apply Out.Sat.bind
    refine true_mono (sysOpen_kept hs h4 hr) ?_
    rintro r w1 ⟨g1, g2, g3⟩
    rcases g3 with ⟨e, rfl, _⟩ | ⟨fd, rfl, _, g4, _, _⟩
    · exact Out.Sat.pure ⟨g1, hserve _ g2, .inr ⟨PosixError_ne_ok _ _ _, rfl⟩⟩
    · simp only []
      have hs1 : ∀ c ∈ w1.choices, Steady f.filename ino c := fun c hc => hs c (g1.subset hc)
      apply Out.Sat.bind
      refine Out.Sat.pureM (a := ()) (by have : (fd : Int) ≠ -1 := by omega
                                         simp [cassert, this]) ?_
      apply Out.Sat.bind
      refine true_mono (sysPread_kept (name := f.filename) hs1 g4 rfl rfl (hr.kept g2) offset n hoff) ?_
      rintro r w2 ⟨k1, k2, k3, k4⟩
      have hs2 : ∀ c ∈ w2.choices, Steady f.filename ino c := fun c hc => hs1 c (k1.subset hc)
      have hcl := sysClose_kept hs2 fd
      have hass : cassert (decide ((fd : Int) ≠ f.fd)) = .ok () := by
        have : (fd : Int) ≠ f.fd := by omega
        simp [cassert, this]
      rcases k4 with ⟨e, rfl⟩ | ⟨d, rfl, k4⟩
      · simp only []
        apply Out.Sat.bind
        apply Out.Sat.pure
        apply Out.Sat.bind
        refine Out.Sat.pureM hass ?_
        apply Out.Sat.bind
        refine true_mono hcl ?_
        rintro r w3 ⟨m1, m2, _⟩
        exact Out.Sat.pure ⟨m1.trans (k1.trans g1), hserve _ (g2.trans (k2.trans m2)),
          .inr ⟨PosixError_ne_ok _ _ _, rfl⟩⟩
      · simp only []
        rw [if_pos (by have := k4.2.1; omega)]
        apply Out.Sat.bind
        apply Out.Sat.pure
        apply Out.Sat.bind
        refine Out.Sat.pureM hass ?_
        apply Out.Sat.bind
        refine true_mono hcl ?_
        rintro r w3 ⟨m1, m2, _⟩
        exact Out.Sat.pure ⟨m1.trans (k1.trans g1), hserve _ (g2.trans (k2.trans m2)), .inl ⟨d, rfl, k4⟩⟩

/-- Reads of a mapping. -/
theorem MmapRead_serves {k : Kernel} {name : Bytes} {ino : Nat} {D : Bytes} {f : MmapFile} (offset n : Nat)
    (hoff : offset + n < 2 ^ 64) (h : Serves k name ino D (.mmap f)) :
    (offset + n ≤ D.length ∧ (f.Read strerror offset n).1 = .ok ∧
      viewBytes k (f.Read strerror offset n).2 = some ((D.drop offset).take n)) ∨
    (D.length < offset + n ∧ f.Read strerror offset n = (PosixError strerror name EINVAL, .empty)) := by
  obtain ⟨hr, rfl, h3, h4⟩ := h
  unfold MmapFile.Read
  rw [Nat.mod_eq_of_lt hoff]
  by_cases hle : offset + n > f.length
  · rw [if_pos hle]; right; exact ⟨by omega, rfl⟩
  · rw [if_neg hle]
    refine .inl ⟨by omega, rfl, ?_⟩
    simp only [viewBytes, h3, Option.join_some, hr.data]
    rw [if_pos (by omega)]

theorem sysStat_kept {w : World} {name : Bytes} {ino : Nat} {D : Bytes} (hs : ∀ c ∈ w.choices, Steady name ino c)
    (hl : w.k.lookup (cstr name) = some ino) (hr : RegularFile w.k ino D) :
    (sysStat name w).Sat (fun r w' => w'.choices <:+ w.choices ∧ Kept name ino w.k w'.k ∧ w'.k.fds = w.k.fds ∧
      ((∃ e, r = .error e) ∨ r = .ok D.length)) (fun _ => True) := by
  unfold sysStat
  apply Out.Sat.sys (fun _ => trivial)
  intro c cs hcs
  have hc := hs c (by rw [hcs]; exact List.mem_cons_self)
  have hk := hc.kept w.k
  refine ⟨by rw [hcs]; exact List.suffix_cons _ _, ?_⟩
  cases hf : c.fail with
  | some e => exact ⟨hk, (hc w.k).2.2.1, .inl ⟨e, rfl⟩⟩
  | none =>
    simp only [hk.name, hl, (hr.kept hk).data]
    exact ⟨hk, (hc w.k).2.2.1, .inr trivial⟩

theorem get_append_old {α : Type} {l : List α} {x : α} {m : Nat} {y : α} (h : l[m]? = some y) :
    (l ++ [x])[m]? = some y := push_get h

/-- `mmap` of a regular file. -/
theorem sysMmap_kept {w : World} {name : Bytes} {ino : Nat} {fd : Int} {o : Ofd}
    (hs : ∀ c ∈ w.choices, Steady name ino c) (ho : w.k.ofd fd = some o) (hi : o.ino = ino) (len : Nat) :
    (sysMmap fd len w).Sat (fun r w' => w'.choices <:+ w.choices ∧
      w'.k.lookup (cstr name) = w.k.lookup (cstr name) ∧ (∀ n, w.k.inodes[ino]? = some n → w'.k.inodes[ino]? = some n) ∧ w'.k.fds = w.k.fds ∧
      ((∃ e, r = .error e ∧ w'.k.maps = w.k.maps) ∨ (len ≠ 0 ∧ r = .ok w.k.maps.length ∧
        w'.k.maps = w.k.maps ++ [some (ino, len)]))) (fun _ => True) := by
  unfold sysMmap
  apply Out.Sat.sys (fun _ => trivial)
  intro c cs hcs
  have hc := hs c (by rw [hcs]; exact List.mem_cons_self)
  obtain ⟨c1, c2, c3, c4⟩ := hc w.k
  refine ⟨by rw [hcs]; exact List.suffix_cons _ _, ?_⟩
  cases hf : c.fail with
  | some e => exact ⟨c1, c2, c3, .inl ⟨e, rfl, c4⟩⟩
  | none =>
    by_cases h0 : len = 0
    · simp only [h0, if_true]; exact ⟨c1, c2, c3, .inl ⟨_, rfl, c4⟩⟩
    · have ho' : (c.other w.k).inodeOf fd = some ino := by
        unfold Kernel.inodeOf Kernel.ofd at *
        rw [c3, ho, ← hi]; rfl
      simp only [h0, if_false, ho']
      exact ⟨c1, c2, c3, .inr ⟨h0, by rw [c4], by rw [c4]⟩⟩

/-- What NewRandomAccessFile hands out. -/
structure OpenRandPost (name : Bytes) (ino : Nat) (D : Bytes) (cs : List Choice)
    (r : St × Option Nat × PEnv) (w' : World) : Prop where
  suffix : w'.choices <:+ cs
  post : (∃ h o, r.1 = .ok ∧ r.2.1 = some h ∧ r.2.2.has h o ∧ Serves w'.k name ino D o) ∨ (r.1 ≠ .ok ∧ r.2.1 = none)

theorem alloc_has (e : PEnv) (o : Obj) : (e.alloc o).2.has (e.alloc o).1 o := by simp [PEnv.alloc, PEnv.has]

theorem NewRandom_serves {w : World} {name : Bytes} {ino : Nat} {D : Bytes} (e : PEnv)
    (hs : ∀ c ∈ w.choices, Steady name ino c)
    (hl : w.k.lookup (cstr name) = some ino) (hr : RegularFile w.k ino D) :
    (e.NewRandomAccessFile strerror name w).Sat (OpenRandPost name ino D w.choices) (fun _ => True) := by
  unfold PEnv.NewRandomAccessFile
  apply Out.Sat.bind
  refine true_mono (sysOpen_kept hs hl hr) ?_
  rintro r w1 ⟨g1, g2, g3⟩
  rcases g3 with ⟨err, rfl, _⟩ | ⟨fd, rfl, hne, g4, g5, _⟩
  · exact Out.Sat.pure ⟨g1, .inr ⟨PosixError_ne_ok _ _ _, rfl⟩⟩
  · simp only []
    have hs1 : ∀ c ∈ w1.choices, Steady name ino c := fun c hc => hs c (g1.subset hc)
    generalize hacq : Limiter.Acquire e.mmap_limiter = acq
    obtain ⟨acquired, lim⟩ := acq
    cases acquired with
    | true =>
      simp only [if_true]
      apply Out.Sat.bind
      unfold GetFileSize
      apply Out.Sat.bind
      refine true_mono (sysStat_kept hs1 (g2.name.trans hl) (hr.kept g2)) ?_
      rintro r w2 ⟨k1, k2, k3, k4⟩
      have hs2 : ∀ c ∈ w2.choices, Steady name ino c := fun c hc => hs1 c (k1.subset hc)
      rcases k4 with ⟨err, rfl⟩ | rfl
      · simp only []
        apply Out.Sat.pure
        simp only [PosixError_ne_ok, if_false]
        apply Out.Sat.bind
        apply Out.Sat.pure
        apply Out.Sat.bind
        refine true_mono (sysClose_kept hs2 fd) ?_
        rintro _ w3 ⟨m1, _, _⟩
        simp only [ne_eq, PosixError_ne_ok, not_false_eq_true, if_true]
        exact Out.Sat.pure ⟨m1.trans (k1.trans g1), .inr ⟨PosixError_ne_ok _ _ _, rfl⟩⟩
      · simp only []
        apply Out.Sat.pure
        simp only [if_true]
        apply Out.Sat.bind
        have ho2 : w2.k.ofd fd = some (Mode.rdonly.ofd ino) := by
          unfold Kernel.ofd at g4 ⊢; rw [k3]; exact g4
        refine true_mono (sysMmap_kept hs2 ho2 rfl D.length) ?_
        rintro r w3 ⟨n1, n2, n3, n4, n5⟩
        have hs3 : ∀ c ∈ w3.choices, Steady name ino c := fun c hc => hs2 c (n1.subset hc)
        rcases n5 with ⟨err, rfl, _⟩ | ⟨_, rfl, n6⟩
        · simp only []
          apply Out.Sat.bind
          apply Out.Sat.pure
          apply Out.Sat.bind
          refine true_mono (sysClose_kept hs3 fd) ?_
          rintro _ w4 ⟨m1, _, _⟩
          simp only [ne_eq, PosixError_ne_ok, not_false_eq_true, if_true]
          exact Out.Sat.pure ⟨m1.trans (n1.trans (k1.trans g1)), .inr ⟨PosixError_ne_ok _ _ _, rfl⟩⟩
        · simp only []
          apply Out.Sat.bind
          apply Out.Sat.pure
          apply Out.Sat.bind
          refine true_mono (sysClose_kept hs3 fd) ?_
          rintro _ w4 ⟨m1, m2, _⟩
          simp only [ne_eq, not_true_eq_false, if_false]
          refine Out.Sat.pure ⟨m1.trans (n1.trans (k1.trans g1)), .inl ⟨_, _, rfl, rfl, alloc_has _ _, ?_⟩⟩
          refine ⟨?_, rfl, ?_, rfl⟩
          · obtain ⟨i, i1, i2, i3⟩ := (hr.kept g2).kept k2
            exact ⟨i, m2.ino i (n3 i i1), i2, i3⟩
          · rw [m2.maps, n6]; simp
    | false =>
      simp only [Bool.false_eq_true, if_false]
      apply Out.Sat.bind
      unfold RandFile.new
      generalize hacq2 : Limiter.Acquire e.fd_limiter = acq2
      obtain ⟨acquired, lim2⟩ := acq2
      cases acquired with
      | true =>
        simp only [if_true]
        apply Out.Sat.pure
        refine Out.Sat.pure ⟨g1, .inl ⟨_, _, rfl, rfl, alloc_has _ _, hr.kept g2, rfl, ?_⟩⟩
        exact ⟨by simp only []; omega, _, g4, rfl, rfl⟩
      | false =>
        simp only [Bool.false_eq_true, if_false]
        apply Out.Sat.bind
        refine Out.Sat.pureM (a := ()) (by simp [cassert]) ?_
        apply Out.Sat.bind
        refine true_mono (sysClose_kept hs1 fd) ?_
        rintro _ w2 ⟨m1, m2, _⟩
        apply Out.Sat.pure
        refine Out.Sat.pure ⟨m1.trans g1, .inl ⟨_, _, rfl, rfl, alloc_has _ _, (hr.kept g2).kept m2, rfl, ?_⟩⟩
        exact ⟨rfl, m2.name.trans (g2.name.trans hl), hne⟩

end Posix
end Lsmdb
