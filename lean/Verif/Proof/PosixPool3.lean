import Verif.Proof.PosixPool2
import Verif.Props.PosixLoad

/-! Random-access files opened under names that files are renamed to. -/

namespace Lsmdb
namespace Posix

open MemEnv (St lit)

namespace Conc

open Prog

variable {strerror : Strerror} {full : Bool} {t h : Nat} {name : Bytes}
variable {N : Bytes → Prop} {S : Nat → Option Bytes} {T : Bytes → Prop}

/-! ## The size is asked for once -/

/-- Neither `stat` nor `open`. -/
def _root_.Lsmdb.Posix.Cmd.plain : Cmd → Prop
  | .stat _ => False
  | .open _ _ => False
  | _ => True

/-- The program does not ask for the size, and opens nothing. -/
def NoStat {α : Type} : Prog α → Prop
  | .call c k => c.plain ∧ ∀ r, NoStat (k r)
  | _ => True

/-- The program asks for the size at most once. -/
def OneStat {α : Type} : Prog α → Prop
  | .call c k => ((∀ p, c ≠ .stat p) ∧ ∀ r, OneStat (k r)) ∨ ∀ r, NoStat (k r)
  | _ => True

theorem NoStat.bind {α β : Type} {p : Prog α} {f : α → Prog β} (hp : NoStat p) (hf : ∀ a, NoStat (f a)) : NoStat (p.bind f) := by
  induction p with
  | ret a => exact hf a
  | call c k ih => exact ⟨hp.1, fun r => ih r (hp.2 r)⟩
  | fault _ => trivial
  | spin => trivial

theorem OneStat.bind {α β : Type} {p : Prog α} {f : α → Prog β} (hp : OneStat p) (hf : ∀ a, NoStat (f a)) : OneStat (p.bind f) := by
  induction p with
  | ret a =>
    have := hf a
    show OneStat (f a)
    revert this
    cases f a with
    | call c k => exact fun h => .inr h.2
    | _ => exact fun _ => trivial
  | call c k ih =>
    rcases hp with hp | hp
    · exact .inl ⟨hp.1, fun r => ih r (hp.2 r)⟩
    · exact .inr fun r => (hp r).bind hf
  | fault _ => trivial
  | spin => trivial

theorem OneStat.after {α β : Type} {p : Prog α} {f : α → Prog β} (hp : NoStat p) (hf : ∀ a, OneStat (f a)) : OneStat (p.bind f) := by
  induction p with
  | ret a => exact hf a
  | call c k ih => exact .inl ⟨fun p e => by subst e; exact hp.1, fun r => ih r (hp.2 r)⟩
  | fault _ => trivial
  | spin => trivial

theorem noStat_acquire (l : Lim) : NoStat (Acquire l) := by
  refine ⟨trivial, show ∀ old : Int, _ from fun old => ?_⟩
  by_cases hh : old > 0
  · show NoStat (if old > 0 then _ else _)
    rw [if_pos hh]; trivial
  · show NoStat (if old > 0 then _ else _)
    rw [if_neg hh]; exact ⟨trivial, fun _ => trivial⟩

theorem noStat_newRand (fd : Int) : NoStat (newRandFile name fd) := by
  unfold newRandFile
  refine NoStat.bind (noStat_acquire _) fun b => ?_
  cases b with
  | true => trivial
  | false => exact ⟨trivial, fun _ => trivial⟩

theorem oneStat_mapFile (fd : Int) : OneStat (mapFile strerror fd name) := by
  unfold mapFile
  show OneStat (.call _ _)
  refine .inr fun r => ?_
  cases r with
  | error e =>
    show NoStat (if PosixError strerror name e = .ok then _ else _)
    rw [if_neg (PosixError_ne_ok strerror name e)]
    trivial
  | ok n =>
    refine ⟨trivial, fun r => ?_⟩
    cases r <;> trivial

theorem oneStat_random : OneStat (NewRandomAccessFile strerror name) := by
  refine .inl ⟨nofun, fun r => ?_⟩
  cases r with
  | error e => trivial
  | ok fd =>
    show OneStat ((Acquire .mmap).bind _)
    refine OneStat.after (noStat_acquire _) fun b => ?_
    cases b with
    | true =>
      refine OneStat.bind (oneStat_mapFile fd) fun x => ⟨trivial, fun _ => ?_⟩
      obtain ⟨st, o⟩ := x
      cases o with
      | some o => trivial
      | none => exact ⟨trivial, fun _ => trivial⟩
    | false => exact OneStat.after (noStat_newRand _) fun _ => trivial

/-! ## The call -/

/-- What the call has of a file: a descriptor, a mapping of `len` bytes. -/
structure Has2 (k : Kernel) (ino len : Nat) (F M : Option Nat) : Prop where
  fd : ∀ i, F = some i → ∃ q, k.ofd (i : Int) = some q ∧ q.ino = ino ∧ q.rd = true ∧ q.off = 0
  map : ∀ m, M = some m → k.maps[m]? = some (some (ino, len))

/-- How far the call is: it does not know the size yet, or `len` is what it has got. -/
def Far (S : Nat → Option Bytes) (name : Bytes) (p : Prog Fin) (F M : Option Nat) (len : Nat) : Prop :=
  (M = none ∧ OneStat p ∧ ∀ l, Leads false name l p F none) ∨ (NoStat p ∧ Leads false name len p F M ∧ ∃ j E, S j = some E ∧ len = E.length)

/-- The call that opens a random-access file. -/
def RandOpen (S : Nat → Option Bytes) (name : Bytes) (p : Prog Fin) (c : Conf) : Prop :=
  p ≠ .spin → ∃ F M len, Far S name p F M len ∧ ((F = none ∧ M = none) ∨ ∃ ino D, S ino = some D ∧ Has2 c.w.k ino len F M)

theorem Far.leads {p : Prog Fin} {F M : Option Nat} {len : Nat} (h : Far S name p F M len) : Leads false name len p F M := by
  rcases h with ⟨rfl, -, h⟩ | ⟨-, h, -⟩
  · exact h len
  · exact h

theorem Far.start : Far S name (NewRandomAccessFile strerror name) none none 0 := .inl ⟨rfl, oneStat_random, fun _ => leads_random strerror⟩

/-- A step that is neither `stat` nor `mmap`. -/
theorem Far.next {cmd : Cmd} {k : cmd.Resp → Prog Fin} {F M F' : Option Nat} {len : Nat} {r : cmd.Resp} (h : Far S name (.call cmd k) F M len)
    (hn : ∀ p, cmd ≠ .stat p) (hk : ∀ l M', Conc.leads name l cmd (fun r F M => Leads false name l (k r) F M) F M' → Leads false name l (k r) F' M') :
    Far S name (k r) F' M len := by
  rcases h with ⟨rfl, h1, h2⟩ | ⟨h1, h2, h3⟩
  · refine .inl ⟨rfl, ?_, fun l => hk l _ (h2 l).2⟩
    rcases h1 with h1 | h1
    · exact h1.2 r
    · have := h1 r
      revert this
      cases k r with
      | call c k => exact fun h => .inr h.2
      | _ => exact fun _ => trivial
  · exact .inr ⟨h1.2 r, hk _ _ h2.2, h3⟩

theorem has2_own {cmd : Cmd} {k : cmd.Resp → Prog Fin} {r : cmd.Resp} {sh sh' : Shared} {w w' : World} {F M : Option Nat} {len : Nat}
    (hl : Far S name (.call cmd k) F M len) (hG : (F = none ∧ M = none) ∨ ∃ ino D, S ino = some D ∧ Has2 w.k ino len F M)
    (hc : ∀ x ∈ w.choices, Spares N S T x) (hx : cmd.exec sh w = .done (r, sh') w') (hN : N (cstr name))
    (hL : Lasts N S T w.k) (hL' : Lasts N S T w'.k) :
    ∃ F' M' len', Far S name (k r) F' M' len' ∧ ((F' = none ∧ M' = none) ∨ ∃ ino D, S ino = some D ∧ Has2 w'.k ino len' F' M') := by
  have priv : ∀ x ∈ w.choices, ∀ k, (x.other k).maps = k.maps := fun x hm k => ((hc x hm).1 k).2.2.2
  have maps : ∀ {ino len : Nat}, (∀ m, cmd ≠ .munmap m) → (∀ m, M = some m → w.k.maps[m]? = some (some (ino, len))) →
      ∀ m, M = some m → w'.k.maps[m]? = some (some (ino, len)) := fun hn hG m hm => exec_map (hn m) priv (hG m hm) hx
  cases cmd with
  | «open» m p =>
    obtain ⟨⟨rfl, rfl, rfl⟩, -⟩ := hl.leads.2
    obtain ⟨hs, -⟩ := keep_done hx
    rcases open_found hs with ⟨e, rfl⟩ | ⟨i, ino, rfl, h1, h0, hi⟩
    · refine ⟨none, M, len, hl.next nofun fun l M' h => h.2.1 e, hG.imp id ?_⟩
      rintro ⟨ino, D, hS, h⟩
      exact ⟨ino, D, hS, nofun, maps nofun h.map⟩
    · have hM : M = none := by
        rcases hl with ⟨h, -⟩ | ⟨h, -⟩
        · exact h
        · exact h.1.elim
      obtain ⟨D, hD⟩ := (hL'.names _ _ h1).1 hN
      refine ⟨some i, M, len, hl.next nofun fun l M' h => h.2.2 i h0, .inr ⟨ino, D, hD, fun j hj => ?_, by rw [hM]; nofun⟩⟩
      cases hj
      exact ⟨_, hi, rfl, rfl, rfl⟩
  | close fd =>
    refine ⟨none, M, len, hl.next nofun fun l M' h => h r, ?_⟩
    rcases hG with h | ⟨ino, D, hS, h⟩
    · exact .inl ⟨rfl, h.2⟩
    · exact .inr ⟨ino, D, hS, nofun, maps nofun h.map⟩
  | stat p =>
    obtain ⟨rfl, -⟩ := hl.leads.2
    obtain ⟨hs, -⟩ := keep_done hx
    have hst := stat_found hs hc hL hN
    rcases hl with ⟨rfl, h1, h2⟩ | ⟨h1, -⟩
    · have hfds : w'.k.fds = w.k.fds := by
        obtain ⟨x, hxm, hf, -⟩ := sys_done2 hs
        rw [← ((hc x hxm).1 w.k).2.2.1]
        cases hfail : x.fail with
        | some e => simp only [hfail] at hf; rw [← (Prod.mk.inj hf).2]
        | none =>
          simp only [hfail] at hf
          cases hlk : (x.other w.k).lookup (cstr p) with
          | none => simp only [hlk] at hf; rw [← (Prod.mk.inj hf).2]
          | some i => simp only [hlk] at hf; rw [← (Prod.mk.inj hf).2]
      have hG' : ∀ len, (F = none ∧ (none : Option Nat) = none) ∨ ∃ ino D, S ino = some D ∧ Has2 w'.k ino len F none := by
        intro len
        refine hG.imp id ?_
        rintro ⟨ino, D, hS, h⟩
        refine ⟨ino, D, hS, fun i hi => ?_, nofun⟩
        rw [keeps_ofd hfds]
        exact h.fd i hi
      have hno : ∀ r, NoStat (k r) := by
        rcases h1 with h1 | h1
        · exact (h1.1 p rfl).elim
        · exact h1
      cases r with
      | error e => 
        refine ⟨F, none, len, .inl ⟨rfl, ?_, fun l => (h2 l).2.2.1 e⟩, hG' len⟩
        have := hno (.error e)
        revert this
        cases k (.error e) with
        | call c k => exact fun h => .inr h.2
        | _ => exact fun _ => trivial
      | ok n => exact ⟨F, none, n, .inr ⟨hno _, (h2 n).2.2.2, hst n rfl⟩, hG' n⟩
    · exact h1.1.elim
  | mmap fd n =>
    rcases hl with ⟨rfl, h1, h2⟩ | ⟨h1, h2, h3⟩
    · obtain ⟨⟨_, _, _, h4⟩, -⟩ := (h2 0).2
      obtain ⟨⟨_, _, _, h5⟩, -⟩ := (h2 1).2
      omega
    · obtain ⟨⟨i, rfl, rfl, rfl⟩, he, ho⟩ := h2.2
      rcases hG with h | ⟨ino, D, hS, h⟩
      · exact nomatch h.1
      · obtain ⟨hs, -⟩ := keep_done hx
        obtain ⟨x, hxm, hf, -⟩ := sys_done2 hs
        obtain ⟨q, hq, hqi, hq2⟩ := h.fd i rfl
        have e2 := ((hc x hxm).1 w.k).2.2.1
        have hq' : (x.other w.k).ofd (i : Int) = some q := by rw [keeps_ofd e2]; exact hq
        have hio : (x.other w.k).inodeOf (i : Int) = some ino := by
          unfold Kernel.inodeOf
          rw [hq']
          exact congrArg some hqi
        have hboth : w'.k.fds = w.k.fds ∧ ∀ m, r = .ok m → w'.k.maps[m]? = some (some (ino, n)) := by
          cases hfail : x.fail with
          | some e =>
            simp only [hfail] at hf
            have := Prod.mk.inj hf
            exact ⟨by rw [← this.2]; exact e2, fun m hm => by rw [hm] at this; exact nomatch this.1⟩
          | none =>
            simp only [hfail] at hf
            by_cases h0 : n = 0
            · simp only [if_pos h0] at hf
              have := Prod.mk.inj hf
              exact ⟨by rw [← this.2]; exact e2, fun m hm => by rw [hm] at this; exact nomatch this.1⟩
            · simp only [if_neg h0, hio] at hf
              have := Prod.mk.inj hf
              refine ⟨by rw [← this.2]; exact e2, fun m hm => ?_⟩
              rw [hm] at this
              have h4 := this.1
              injection h4 with h4
              rw [← this.2, ← h4]
              simp
        have hfd : ∀ j, some i = some j → ∃ q, w'.k.ofd (j : Int) = some q ∧ q.ino = ino ∧ q.rd = true ∧ q.off = 0 := by
          intro j hj
          cases hj
          rw [keeps_ofd hboth.1]
          exact h.fd i rfl
        cases r with
        | error e => exact ⟨_, M, n, .inr ⟨h1.2 _, he e, h3⟩, .inr ⟨ino, D, hS, hfd, maps nofun h.map⟩⟩
        | ok m => exact ⟨_, _, n, .inr ⟨h1.2 _, ho m, h3⟩, .inr ⟨ino, D, hS, hfd, fun m' hm' => by cases hm'; exact hboth.2 m rfl⟩⟩
  | fetchSub l =>
    injection hx with _ hx
    subst hx
    exact ⟨F, M, len, hl.next nofun fun l M' h => h r, hG⟩
  | fetchAdd l =>
    injection hx with _ hx
    subst hx
    exact ⟨F, M, len, hl.next nofun fun l M' h => h r, hG⟩
  | _ => exact hl.leads.2.elim

end Conc
end Posix
end Lsmdb
