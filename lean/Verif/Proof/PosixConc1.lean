import Verif.Model.PosixConc
import Verif.Proof.PosixOwn

/-! Ownership for programs of threads: what a call owns at each point. -/

namespace Lsmdb
namespace Posix

open MemEnv (St lit)

/-- What a running call owns: descriptors, mappings, names in the lock table, slots of limiters (granted, and taken
back in a moment); `B` are the descriptors it may use. -/
structure Ghost where
  F : List Nat
  M : List Nat
  N : List Bytes
  B : List Nat
  grant : Lim → Nat
  pend : Lim → Nat

/-- The call owns nothing. -/
structure Ghost.Empty (g : Ghost) : Prop where
  F : g.F = []
  M : g.M = []
  N : g.N = []
  grant : ∀ l, g.grant l = 0
  pend : ∀ l, g.pend l = 0

def Ghost.none (B : List Nat) : Ghost := ⟨[], [], [], B, fun _ => 0, fun _ => 0⟩

def upL (f : Lim → Nat) (l : Lim) (v : Nat) : Lim → Nat := fun x => if x = l then v else f x

def Ghost.addF (g : Ghost) (i : Nat) : Ghost := { g with F := i :: g.F }
def Ghost.delF (g : Ghost) (i : Nat) : Ghost := { g with F := g.F.filter (· ≠ i) }
def Ghost.addM (g : Ghost) (i : Nat) : Ghost := { g with M := i :: g.M }
def Ghost.delM (g : Ghost) (i : Nat) : Ghost := { g with M := g.M.filter (· ≠ i) }
def Ghost.addN (g : Ghost) (n : Bytes) : Ghost := { g with N := n :: g.N }
def Ghost.delN (g : Ghost) (n : Bytes) : Ghost := { g with N := g.N.filter (· ≠ n) }
def Ghost.addG (g : Ghost) (l : Lim) : Ghost := { g with grant := upL g.grant l (g.grant l + 1) }
def Ghost.delG (g : Ghost) (l : Lim) : Ghost := { g with grant := upL g.grant l (g.grant l - 1) }
def Ghost.addP (g : Ghost) (l : Lim) : Ghost := { g with pend := upL g.pend l (g.pend l + 1) }
def Ghost.delP (g : Ghost) (l : Lim) : Ghost := { g with pend := upL g.pend l (g.pend l - 1) }

/-- The call may use the descriptor. -/
def Ghost.ok (g : Ghost) (fd : Int) : Prop := fd < 0 ∨ ∃ i : Nat, fd = i ∧ i ∈ g.F

/-- The call may read from the descriptor at any place. -/
def Ghost.may (g : Ghost) (fd : Int) : Prop := fd < 0 ∨ ∃ i : Nat, fd = i ∧ (i ∈ g.F ∨ i ∈ g.B)

theorem Ghost.ok.may {g : Ghost} {fd : Int} (h : g.ok fd) : g.may fd := by
  rcases h with h | ⟨i, h, hi⟩
  · exact .inl h
  · exact .inr ⟨i, h, .inl hi⟩

/-- What a step needs, and what the call owns afterwards. -/
def Cmd.spec : (c : Cmd) → (c.Resp → Ghost → Prop) → Ghost → Prop
  | .open _ _, K, g => (∀ e, K (.error e) g) ∧ ∀ i : Nat, i ∉ g.F → K (.ok (i : Int)) (g.addF i)
  | .opendir _, K, g => (∀ e, K (.error e) g) ∧ ∀ (i : Nat) l, i ∉ g.F → K (.ok ((i : Int), l)) (g.addF i)
  | .close fd, K, g => (fd = -1 ∧ ∀ r, K r g) ∨
      ∃ i : Nat, fd = i ∧ i ∈ g.F ∧ ∀ r, K r (g.delF i)
  | .read fd n, K, g => g.ok fd ∧ ∀ r, (∀ d, r = .ok d → d.length ≤ n) → K r g
  | .pread fd n _, K, g => g.may fd ∧ ∀ r, (∀ d, r = .ok d → d.length ≤ n) → K r g
  | .lseek fd _, K, g => g.ok fd ∧ ∀ r, K r g
  | .write fd _, K, g => g.ok fd ∧ ∀ r, K r g
  | .sync fd, K, g => g.ok fd ∧ ∀ r, K r g
  | .other fd, K, g => g.ok fd ∧ ∀ r, K r g
  | .readdir fd _, K, g => g.ok fd ∧ ∀ r, K r g
  | .mmap fd _, K, g => g.ok fd ∧ (∀ e, K (.error e) g) ∧ ∀ m, m ∉ g.M → K (.ok m) (g.addM m)
  | .munmap m, K, g => m ∈ g.M ∧ ∀ r, K r (g.delM m)
  | .fetchSub l, K, g => (g.grant l = 0 ∧ g.pend l = 0) ∧ (∀ old : Int, 0 < old → K old (g.addG l)) ∧
      ∀ old : Int, old ≤ 0 → K old (g.addP l)
  | .fetchAdd l, K, g => (0 < g.pend l ∧ ∀ old : Int, K old (g.delP l)) ∨
      (0 < g.grant l ∧ ∀ old : Int, K old (g.delG l))
  | .insert n, K, g => (n ∉ g.N → K true (g.addN n)) ∧ K false g
  | .remove n, K, g => n ∈ g.N ∧ K () (g.delN n)
  | .stat _, K, g => ∀ r, K r g
  | .access _, K, g => ∀ r, K r g
  | .unlink _, K, g => ∀ r, K r g
  | .mkdir _, K, g => ∀ r, K r g
  | .rmdir _, K, g => ∀ r, K r g
  | .rename _ _, K, g => ∀ r, K r g

/-- The program never faults, respects what it owns, and ends owning what `Q` says. -/
def Prog.wp {α : Type} : Prog α → (α → Ghost → Prop) → Ghost → Prop
  | .ret a, Q, g => Q a g
  | .call c k, Q, g => c.spec (fun r g => (k r).wp Q g) g
  | .fault _, _, _ => False
  | .spin, _, _ => True

theorem Cmd.spec_mono {c : Cmd} {K K' : c.Resp → Ghost → Prop} (hk : ∀ r g, K r g → K' r g) {g : Ghost} (h : c.spec K g) :
    c.spec K' g := by
  cases c with
  | «open» m p => exact ⟨fun e => hk _ _ (h.1 e), fun i hi => hk _ _ (h.2 i hi)⟩
  | opendir p => exact ⟨fun e => hk _ _ (h.1 e), fun i l hi => hk _ _ (h.2 i l hi)⟩
  | close fd =>
    rcases h with ⟨h1, h2⟩ | ⟨i, h1, h2, h3⟩
    · exact .inl ⟨h1, fun r => hk _ _ (h2 r)⟩
    · exact .inr ⟨i, h1, h2, fun r => hk _ _ (h3 r)⟩
  | read fd n => exact ⟨h.1, fun r hr => hk _ _ (h.2 r hr)⟩
  | pread fd n o => exact ⟨h.1, fun r hr => hk _ _ (h.2 r hr)⟩
  | lseek fd o => exact ⟨h.1, fun r => hk _ _ (h.2 r)⟩
  | write fd d => exact ⟨h.1, fun r => hk _ _ (h.2 r)⟩
  | sync fd => exact ⟨h.1, fun r => hk _ _ (h.2 r)⟩
  | other fd => exact ⟨h.1, fun r => hk _ _ (h.2 r)⟩
  | readdir fd l => exact ⟨h.1, fun r => hk _ _ (h.2 r)⟩
  | mmap fd n => exact ⟨h.1, fun e => hk _ _ (h.2.1 e), fun i hi => hk _ _ (h.2.2 i hi)⟩
  | munmap m => exact ⟨h.1, fun r => hk _ _ (h.2 r)⟩
  | fetchSub l => exact ⟨h.1, fun o ho => hk _ _ (h.2.1 o ho), fun o ho => hk _ _ (h.2.2 o ho)⟩
  | fetchAdd l =>
    rcases h with ⟨h1, h2⟩ | ⟨h1, h2⟩
    · exact .inl ⟨h1, fun r => hk _ _ (h2 r)⟩
    · exact .inr ⟨h1, fun r => hk _ _ (h2 r)⟩
  | insert n => exact ⟨fun hn => hk _ _ (h.1 hn), hk _ _ h.2⟩
  | remove n => exact ⟨h.1, hk _ _ h.2⟩
  | stat p => exact fun r => hk _ _ (h r)
  | access p => exact fun r => hk _ _ (h r)
  | unlink p => exact fun r => hk _ _ (h r)
  | mkdir p => exact fun r => hk _ _ (h r)
  | rmdir p => exact fun r => hk _ _ (h r)
  | rename p q => exact fun r => hk _ _ (h r)

theorem Prog.wp_mono {α : Type} {p : Prog α} {Q Q' : α → Ghost → Prop} (hq : ∀ a g, Q a g → Q' a g) : ∀ {g : Ghost},
    p.wp Q g → p.wp Q' g := by
  induction p with
  | ret a => intro g h; exact hq a g h
  | call c k ih => intro g h; exact Cmd.spec_mono (fun r g h => ih r h) h
  | fault f => intro g h; exact h
  | spin => intro g h; exact h

theorem Prog.wp_bind {α β : Type} {p : Prog α} {f : α → Prog β} {Q : β → Ghost → Prop} : ∀ {g : Ghost},
    p.wp (fun a g => (f a).wp Q g) g → (p >>= f).wp Q g := by
  induction p with
  | ret a => intro g h; exact h
  | call c k ih => intro g h; exact Cmd.spec_mono (fun r g h => ih r h) h
  | fault f => intro g h; exact h
  | spin => intro g h; exact h

theorem Prog.wp_pure {α : Type} {a : α} {Q : α → Ghost → Prop} {g : Ghost} (h : Q a g) : (pure a : Prog α).wp Q g := h

theorem Prog.wp_go {c : Cmd} {Q : c.Resp → Ghost → Prop} {g : Ghost} (h : c.spec Q g) : c.go.wp Q g := h

/-- One step and then the rest. -/
theorem Prog.wp_then {c : Cmd} {β : Type} {f : c.Resp → Prog β} {Q : β → Ghost → Prop} {g : Ghost}
    (h : c.spec (fun r g => (f r).wp Q g) g) : (c.go >>= f).wp Q g := Prog.wp_bind (Prog.wp_go h)

theorem Prog.wp_ofM {α β : Type} {x : M α} {a : α} (hx : x = .ok a) {f : α → Prog β} {Q : β → Ghost → Prop} {g : Ghost}
    (h : (f a).wp Q g) : (Prog.ofM x >>= f).wp Q g := by
  rw [hx]; exact h

namespace Conc

open Prog

variable (strerror : Strerror) (full : Bool) (fuel : Nat)

/-! ## Limiters -/

theorem upL_same (f : Lim → Nat) (l : Lim) (v : Nat) : upL f l v l = v := by simp [upL]

theorem upL_upL (f : Lim → Nat) (l : Lim) (v v' : Nat) : upL (upL f l v) l v' = upL f l v' := by
  funext x; unfold upL; split <;> rfl

theorem upL_id (f : Lim → Nat) (l : Lim) : upL f l (f l) = f := by
  funext x; unfold upL; split
  · rename_i h; rw [h]
  · rfl

theorem addP_delP (g : Ghost) (l : Lim) : (g.addP l).delP l = g := by
  unfold Ghost.addP Ghost.delP
  simp only [upL_upL, upL_same, Nat.add_sub_cancel, upL_id]

theorem addG_delG (g : Ghost) (l : Lim) : (g.addG l).delG l = g := by
  unfold Ghost.addG Ghost.delG
  simp only [upL_upL, upL_same, Nat.add_sub_cancel, upL_id]

theorem filter_cons_self {α : Type} [DecidableEq α] {x : α} {l : List α} (h : x ∉ l) : (x :: l).filter (· ≠ x) = l := by
  rw [List.filter_cons]
  simp only [ne_eq, not_true_eq_false, decide_false, Bool.false_eq_true, ↓reduceIte]
  rw [List.filter_eq_self]
  intro a ha
  simp only [decide_not, Bool.not_eq_eq_eq_not, Bool.not_true, decide_eq_false_iff_not]
  rintro rfl
  exact h ha

theorem addF_delF {g : Ghost} {i : Nat} (h : i ∉ g.F) : (g.addF i).delF i = g := by
  unfold Ghost.addF Ghost.delF
  simp only [filter_cons_self h]

theorem addN_delN {g : Ghost} {i : Bytes} (h : i ∉ g.N) : (g.addN i).delN i = g := by
  unfold Ghost.addN Ghost.delN
  simp only [filter_cons_self h]

theorem wp_Acquire {l : Lim} {Q : Bool → Ghost → Prop} {g : Ghost} (hg : g.grant l = 0) (hp : g.pend l = 0)
    (ht : Q true (g.addG l)) (hf : Q false g) : (Acquire l).wp Q g := by
  unfold Acquire
  refine wp_then ⟨⟨hg, hp⟩, fun old ho => ?_, fun old ho => ?_⟩
  · simp only [if_pos ho]; exact ht
  · have hn : ¬ old > 0 := by omega
    simp only [if_neg hn]
    refine wp_then (.inl ⟨?_, fun o => ?_⟩)
    · unfold Ghost.addP; simp only [upL_same]; omega
    · simp only [addP_delP]; exact hf

theorem wp_Release {l : Lim} {Q : Unit → Ghost → Prop} {g : Ghost} (hg : 0 < g.grant l)
    (h : Q () (g.delG l)) : (Release l).wp Q g :=
  wp_then (.inr ⟨hg, fun _ => h⟩)

/-! ## Files -/

theorem wp_seqRead {f : SeqFile} {n : Nat} {Q : St × Option Bytes → Ghost → Prop} {g : Ghost} (hf : g.ok f.fd)
    (hQ : ∀ r, Q r g) : (seqRead strerror fuel f n n).wp Q g := by
  unfold seqRead
  induction fuel with
  | zero => exact trivial
  | succ fuel ih =>
    unfold seqReadLoop
    refine wp_then ⟨hf, fun r hr => ?_⟩
    cases r with
    | error e =>
      simp only []
      by_cases he : e = EINTR
      · rw [if_pos he]; exact ih
      · rw [if_neg he]; exact hQ _
    | ok d =>
      simp only []
      rw [if_pos (hr d rfl)]; exact hQ _

theorem wp_seqSkip {f : SeqFile} {n : Nat} {Q : St → Ghost → Prop} {g : Ghost} (hf : g.ok f.fd) (hQ : ∀ r, Q r g) :
    (seqSkip strerror f n).wp Q g := by
  unfold seqSkip
  refine wp_then ⟨hf, fun r => ?_⟩
  cases r <;> exact hQ _

/-- Closing the descriptor that was opened last. -/
theorem wp_close_own {i : Nat} {Q : Except Errno Unit → Ghost → Prop} {g : Ghost} (hi : i ∉ g.F) (h : ∀ r, Q r g) :
    (Cmd.close (i : Int)).spec Q (g.addF i) := by
  refine .inr ⟨i, rfl, List.mem_cons_self, fun r => ?_⟩
  rw [addF_delF hi]
  exact h r

theorem ok_addF (g : Ghost) (i : Nat) : (g.addF i).ok (i : Int) := .inr ⟨i, rfl, List.mem_cons_self⟩

theorem nat_ne_neg (i : Nat) : (i : Int) ≠ -1 := by omega

theorem cassert_true {b : Bool} (h : b = true) : cassert b = .ok () := by rw [h]; rfl

theorem randFd_perm {f : RandFile} (hp : f.has_permanent_fd = true) : randFd f = .ret (.ok f.fd) := by
  unfold randFd; exact if_pos hp

theorem randFd_temp {f : RandFile} (hp : ¬ f.has_permanent_fd = true) : randFd f = Cmd.go (.open .rdonly f.filename) := by
  unfold randFd; exact if_neg hp

theorem wp_randRes {f : RandFile} {n : Nat} {r : Except Errno Bytes} {Q : St × Option Bytes → Ghost → Prop} {g : Ghost}
    (hr : ∀ d, r = .ok d → d.length ≤ n) (hQ : ∀ x, Q x g) : (randRes strerror f n r).wp Q g := by
  cases r with
  | error e => exact hQ _
  | ok d => unfold randRes; simp only [if_pos (hr d rfl)]; exact hQ _

theorem wp_randRead {f : RandFile} {offset n : Nat} {Q : St × Option Bytes → Ghost → Prop} {g : Ghost}
    (hf : if f.has_permanent_fd then ∃ i : Nat, f.fd = i ∧ i ∈ g.B else f.fd = -1) (hQ : ∀ r, Q r g) :
    (randRead strerror f offset n n).wp Q g := by
  unfold randRead
  by_cases hp : f.has_permanent_fd = true
  · rw [randFd_perm hp]
    simp only [if_pos hp] at hf
    obtain ⟨i, hi, hB⟩ := hf
    refine wp_bind (p := Prog.ret _) ?_
    refine wp_ofM (f := fun _ => _) (cassert_true (by rw [hi]; exact decide_eq_true (nat_ne_neg i))) ?_
    refine wp_then ⟨.inr ⟨i, hi, .inr hB⟩, fun r hr => ?_⟩
    refine wp_bind (wp_randRes strerror hr fun x => ?_)
    simp only [if_pos hp]
    exact hQ x
  · rw [randFd_temp hp]
    simp only [if_neg hp] at hf
    refine wp_then ⟨fun e => hQ _, fun i hi => ?_⟩
    refine wp_ofM (cassert_true (decide_eq_true (nat_ne_neg i))) ?_
    refine wp_then ⟨(ok_addF g i).may, fun r hr => ?_⟩
    refine wp_bind (wp_randRes strerror hr fun x => ?_)
    simp only [if_neg hp]
    refine wp_ofM (cassert_true (by rw [hf]; exact decide_eq_true (nat_ne_neg i))) ?_
    exact wp_then (wp_close_own hi fun _ => hQ x)

theorem wp_WriteUnbuffered {f : WFile} {d : Bytes} {Q : St → Ghost → Prop} {g : Ghost} (hf : g.ok f.fd) (hQ : ∀ r, Q r g) :
    (WriteUnbuffered strerror fuel f d).wp Q g := by
  unfold WriteUnbuffered
  induction fuel generalizing d with
  | zero => exact trivial
  | succ fuel ih =>
    unfold writeLoop
    by_cases hd : d.length > 0
    · simp only [if_pos hd]
      refine wp_then ⟨hf, fun r => ?_⟩
      cases r with
      | error e =>
        simp only []
        by_cases he : e = EINTR
        · rw [if_pos he]; exact ih
        · rw [if_neg he]; exact hQ _
      | ok n => exact ih
    · simp only [if_neg hd]; exact hQ _

theorem wp_FlushBuffer {f : WFile} {b : Bytes} (hb : BufHas f b) {Q : St × WFile → Ghost → Prop} {g : Ghost} (hf : g.ok f.fd)
    (hQ : ∀ s, Q (s, { f with pos := 0 }) g) : (FlushBuffer strerror fuel f).wp Q g := by
  unfold FlushBuffer
  refine wp_ofM hb.load ?_
  exact wp_bind (wp_WriteUnbuffered strerror fuel hf fun s => hQ s)

theorem wp_Append {f : WFile} {b : Bytes} (hb : BufHas f b) {d : Slice} (hd : d.WF) {Q : St × WFile → Ghost → Prop}
    {g : Ghost} (hf : g.ok f.fd) (hQ : ∀ s (f' : WFile), f'.fd = f.fd → (∃ b', BufHas f' b') → Q (s, f') g) :
    (Append strerror fuel f d).wp Q g := by
  unfold Append
  refine wp_ofM (toString_ok hd) ?_
  have hl : d.bytes.length = d.len := bytes_len hd
  generalize hc : min d.len (kWritableFileBufferSize - f.pos) = copy
  have hle := hb.le
  have hst : f.pos + (d.bytes.take copy).length ≤ kWritableFileBufferSize := by
    simp; omega
  have hcl : (d.bytes.take copy).length = copy := by simp; omega
  refine wp_ofM (store_ok hst) ?_
  have hb1 := hb.append hst
  rw [hcl] at hb1
  rw [hcl]
  generalize hf1 : ({ f with
      buf := fun i => if f.pos ≤ i ∧ i < f.pos + copy then (List.take copy d.bytes)[i - f.pos]? else f.buf i
      pos := f.pos + copy } : WFile) = f1 at hb1 ⊢
  have hs1 : f1.fd = f.fd := by subst hf1; rfl
  by_cases hz : d.len - copy = 0
  · simp only [hz, if_true]
    exact hQ _ _ hs1 ⟨_, hb1⟩
  · simp only [hz, if_false]
    refine wp_bind (wp_FlushBuffer strerror fuel hb1 (by rw [hs1]; exact hf) fun st => ?_)
    simp only []
    by_cases ho : st = .ok
    · simp only [ho, ne_eq, not_true_eq_false, if_false]
      have hdl : (d.bytes.drop copy).length = d.len - copy := by simp [hl]
      unfold appendRest
      by_cases hsm : d.len - copy < kWritableFileBufferSize
      · simp only [hsm, if_true]
        refine wp_ofM (store_ok (by omega)) ?_
        have hb3 := BufHas.fresh { f1 with pos := 0 } (d.bytes.drop copy) (by omega)
        rw [hdl] at hb3
        rw [hdl]
        exact hQ _ _ hs1 ⟨_, hb3⟩
      · simp only [hsm, if_false]
        refine wp_bind (wp_WriteUnbuffered strerror fuel (by show g.ok f1.fd; rw [hs1]; exact hf) fun s => ?_)
        exact hQ _ _ hs1 ⟨_, BufHas.zero f1⟩
    · simp only [ne_eq, ho, not_false_eq_true, if_true]
      exact hQ _ _ hs1 ⟨_, BufHas.zero f1⟩

theorem wp_fullSync {fd : Int} {Q : Except Errno Unit → Ghost → Prop} {g : Ghost} (hf : g.ok fd) (hQ : ∀ r, Q r g) :
    (fullSync full fd).wp Q g := by
  unfold fullSync
  cases full
  · exact hQ _
  · exact wp_go ⟨hf, hQ⟩

theorem wp_SyncFd {fd : Int} {p : Bytes} {Q : St → Ghost → Prop} {g : Ghost} (hf : g.ok fd) (hQ : ∀ r, Q r g) :
    (SyncFd strerror full fd p).wp Q g := by
  unfold SyncFd
  refine wp_bind (wp_fullSync full hf fun r => ?_)
  cases r with
  | ok _ => exact hQ _
  | error _ =>
    refine wp_then ⟨hf, fun r => ?_⟩
    cases r <;> exact hQ _

theorem wp_SyncDir {f : WFile} {Q : St → Ghost → Prop} {g : Ghost} (hQ : ∀ r, Q r g) :
    (SyncDirIfManifest strerror full f).wp Q g := by
  unfold SyncDirIfManifest
  by_cases hm : f.is_manifest = true
  · simp only [if_pos hm]
    refine wp_then ⟨fun e => hQ _, fun i hi => ?_⟩
    refine wp_bind (wp_SyncFd strerror full (ok_addF g i) fun s => ?_)
    exact wp_then (wp_close_own hi fun _ => hQ s)
  · simp only [if_neg hm]
    exact hQ _

theorem wp_Sync {f : WFile} {b : Bytes} (hb : BufHas f b) {Q : St × WFile → Ghost → Prop} {g : Ghost} (hf : g.ok f.fd)
    (hQ : ∀ s (f' : WFile), f'.fd = f.fd → (∃ b', BufHas f' b') → Q (s, f') g) : (Sync strerror full fuel f).wp Q g := by
  unfold Sync
  refine wp_bind (wp_SyncDir strerror full fun s => ?_)
  by_cases ho : s = .ok
  · simp only [ho, ne_eq, not_true_eq_false, if_false]
    refine wp_bind (wp_FlushBuffer strerror fuel hb hf fun st => ?_)
    simp only []
    by_cases ho : st = .ok
    · simp only [ho, ne_eq, not_true_eq_false, if_false]
      exact wp_bind (wp_SyncFd strerror full hf fun s => hQ _ _ rfl ⟨_, BufHas.zero f⟩)
    · simp only [ne_eq, ho, not_false_eq_true, if_true]
      exact hQ _ _ rfl ⟨_, BufHas.zero f⟩
  · simp only [ne_eq, ho, not_false_eq_true, if_true]
    exact hQ _ _ rfl ⟨_, hb⟩

theorem wp_Close {f : WFile} {b : Bytes} (hb : BufHas f b) {Q : St × WFile → Ghost → Prop} {g : Ghost} (hf : g.ok f.fd)
    (hc : (Cmd.close f.fd).spec (fun _ g => ∀ s, Q (s, { f with pos := 0, fd := -1 }) g) g) :
    (Close strerror fuel f).wp Q g := by
  unfold Close
  refine wp_bind (wp_FlushBuffer strerror fuel hb hf fun st => ?_)
  simp only []
  refine wp_then (Cmd.spec_mono (c := .close f.fd) (fun r g h => ?_) hc)
  exact h _

/-! ## Objects -/

/-- The name an object keeps in the lock table. -/
def ownsName : Obj → Bytes → Prop
  | .lock _ n, m => m = n
  | _, _ => False

/-- The slots an object has. -/
def slots (o : Obj) : Lim → Nat
  | .mmap => if o.isMmap then 1 else 0
  | .fd => if o.isPermanent then 1 else 0

/-- A call owns what the object owns, and nothing else. -/
structure Has (g : Ghost) (o : Obj) : Prop where
  F : ∀ i, i ∈ g.F ↔ o.ownsFd i
  M : ∀ i, i ∈ g.M ↔ o.ownsMap i
  N : ∀ n, n ∈ g.N ↔ ownsName o n
  grant : ∀ l, g.grant l = slots o l
  pend : ∀ l, g.pend l = 0

/-- What a call owns when it returns. -/
def Done (home : Home) : Fin → Ghost → Prop
  | .new o, g => home = .none ∧ Has g o ∧ ObjOk o
  | .back (some o) _, g => (∃ h, home = .own h) ∧ Has g o ∧ ObjOk o
  | .back none _, g => g.Empty

end Conc
end Posix
end Lsmdb
