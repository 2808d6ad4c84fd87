import Verif.Proof.PosixCreate3

/-! The programs that open a file for reading. -/

namespace Lsmdb
namespace Posix

open MemEnv (St lit)

namespace Conc

open Prog

/-- Whoever runs the program owns the descriptor. -/
def NeedF (i : Nat) (p : Prog Fin) : Prop := ∀ g, p.wp (Done .none) g → i ∈ g.F

/-- Whoever runs the program owns the mapping. -/
def NeedM (m : Nat) (p : Prog Fin) : Prop := ∀ g, p.wp (Done .none) g → m ∈ g.M

/-- How a step of a call that opens file `name` goes on: `F` is a descriptor of the file, `M` a mapping of all its `len` bytes. -/
def leads (name : Bytes) (len : Nat) : (c : Cmd) → (c.Resp → Option Nat → Option Nat → Prop) → Option Nat → Option Nat → Prop
  | .open m p, K, F, M => (m = .rdonly ∧ p = name ∧ F = none) ∧ (∀ e, K (.error e) F M) ∧ ∀ i : Nat, cstr name ≠ [] → K (.ok (i : Int)) (some i) M
  | .close _, K, _, M => ∀ r, K r none M
  | .stat p, K, F, M => p = name ∧ (∀ e, K (.error e) F M) ∧ K (.ok len) F M
  | .mmap fd n, K, F, M => (∃ i : Nat, F = some i ∧ fd = i ∧ n = len) ∧ (∀ e, K (.error e) F M) ∧ ∀ m, K (.ok m) F (some m)
  | .fetchSub _, K, F, M => ∀ r, K r F M
  | .fetchAdd _, K, F, M => ∀ r, K r F M
  | _, _, _, _ => False

/-- The object reads the file. -/
def LeadsTo (sq : Bool) (name : Bytes) (len : Nat) (F M : Option Nat) : Obj → Prop
  | .rand f => sq = false ∧ f.filename = name ∧ cstr name ≠ [] ∧ if f.has_permanent_fd then ∃ i : Nat, F = some i ∧ f.fd = i else f.fd = -1
  | .mmap f => sq = false ∧ f.filename = name ∧ M = some f.mmap_base ∧ f.length = len
  | .seq f => sq = true ∧ ∃ i : Nat, F = some i ∧ f.fd = i
  | _ => False

/-- The program opens file `name` for reading. -/
def Leads (sq : Bool) (name : Bytes) (len : Nat) : Prog Fin → Option Nat → Option Nat → Prop
  | .ret a, F, M => ((∀ i, F = some i → NeedF i (.ret a)) ∧ ∀ m, M = some m → NeedM m (.ret a)) ∧
      match a with
      | .new o => LeadsTo sq name len F M o
      | .back _ r => ∀ s h, r ≠ .opened s (some h)
  | .call c k, F, M => ((∀ i, F = some i → NeedF i (.call c k)) ∧ ∀ m, M = some m → NeedM m (.call c k)) ∧
      leads name len c (fun r F M => Leads sq name len (k r) F M) F M
  | .fault _, _, _ => True
  | .spin, _, _ => True

theorem Leads.needF {sq : Bool} {name : Bytes} {len : Nat} {p : Prog Fin} {F M : Option Nat} (h : Leads sq name len p F M) {i : Nat} (hi : F = some i)
    {g : Ghost} (hg : p.wp (Done .none) g) (hs : p ≠ .spin) : i ∈ g.F := by
  cases p with
  | ret a => exact h.1.1 i hi g hg
  | call c k => exact h.1.1 i hi g hg
  | fault f => exact hg.elim
  | spin => exact (hs rfl).elim

theorem Leads.needM {sq : Bool} {name : Bytes} {len : Nat} {p : Prog Fin} {F M : Option Nat} (h : Leads sq name len p F M) {i : Nat} (hi : M = some i)
    {g : Ghost} (hg : p.wp (Done .none) g) (hs : p ≠ .spin) : i ∈ g.M := by
  cases p with
  | ret a => exact h.1.2 i hi g hg
  | call c k => exact h.1.2 i hi g hg
  | fault f => exact hg.elim
  | spin => exact (hs rfl).elim

variable {sq : Bool} {name : Bytes} {len : Nat} {k : Int → Prog Fin}

theorem needF_close {i : Nat} (k : Except Errno Unit → Prog Fin) : NeedF i (.call (.close (i : Int)) k) := by
  rintro g (⟨h, -⟩ | ⟨j, h, hj, -⟩)
  · omega
  · have : j = i := by omega
    exact this ▸ hj

theorem needF_add {i : Nat} {l : Lim} (h : ∀ r, NeedF i (k r)) : NeedF i (.call (.fetchAdd l) k) := by
  rintro g (⟨-, hp⟩ | ⟨-, hp⟩)
  · exact h 0 (g.delP l) (hp 0)
  · exact h 0 (g.delG l) (hp 0)

theorem needF_sub {i : Nat} {l : Lim} (h : ∃ r, r ≤ 0 ∧ NeedF i (k r)) : NeedF i (.call (.fetchSub l) k) := by
  rintro g ⟨-, -, hp⟩
  obtain ⟨r, hr, h⟩ := h
  exact h (g.addP l) (hp r hr)

theorem needM_close {m : Nat} {fd : Int} {k : Except Errno Unit → Prog Fin} (h : ∀ r, NeedM m (k r)) : NeedM m (.call (.close fd) k) := by
  rintro g (⟨-, hp⟩ | ⟨j, -, -, hp⟩)
  · exact h (.ok ()) g (hp _)
  · exact h (.ok ()) (g.delF j) (hp _)

theorem needM_mmap {f : MmapFile} : NeedM f.mmap_base (.ret (.new (.mmap f))) := by
  rintro g ⟨-, hH, -⟩
  exact (hH.M _).2 rfl

theorem leads_failed {M : Option Nat} (hM : M = none) (st : St) : Leads sq name len (.ret (.failed st)) none M := by
  subst hM
  exact ⟨⟨nofun, nofun⟩, fun s h e => nomatch e⟩

/-- `NewSequentialFile`. -/
theorem leads_seq (strerror : Strerror) : Leads true name len (NewSequentialFile strerror name) none none := by
  refine ⟨⟨nofun, nofun⟩, ⟨rfl, rfl, rfl⟩, fun e => leads_failed rfl _, fun i _ => ?_⟩
  refine ⟨⟨fun j hj => ?_, nofun⟩, rfl, i, rfl, rfl⟩
  cases hj
  rintro g ⟨-, hH, -⟩
  exact (hH.F _).2 rfl

/-- `Acquire` and what comes after it. -/
theorem acquire_bind {α : Type} (l : Lim) (f : Bool → Prog α) :
    (Acquire l).bind f = .call (.fetchSub l) fun old : Int => if old > 0 then f true else .call (.fetchAdd l) fun _ => f false := by
  show Prog.call _ _ = Prog.call _ _
  congr 1
  funext old
  revert old
  show ∀ old : Int, _
  intro old
  show Prog.bind (if (old : Int) > 0 then _ else _) f = _
  by_cases h : (old : Int) > 0
  · rw [if_pos h]
    simp only [if_pos h]
    rfl
  · rw [if_neg h]
    simp only [if_neg h]
    rfl

/-- The rest of `NewRandomAccessFile` when there is no slot for a descriptor. -/
theorem leads_temp {i : Nat} (hn : cstr name ≠ []) :
    Leads false name len (.call (.close (i : Int)) fun _ => .ret (.new (.rand ⟨false, -1, name⟩))) (some i) none :=
  ⟨⟨fun j hj => by cases hj; exact needF_close _, nofun⟩,
    fun _ => ⟨⟨nofun, nofun⟩, rfl, rfl, hn, rfl⟩⟩

/-- The rest of `NewRandomAccessFile` when there is no slot for a mapping. -/
theorem leads_rand {i : Nat} (hn : cstr name ≠ []) :
    Leads false name len ((newRandFile name (i : Int)).bind fun f => .ret (.new (.rand f))) (some i) none := by
  have key : (newRandFile name (i : Int)).bind (fun f => Prog.ret (Fin.new (.rand f))) =
      .call (.fetchSub .fd) fun old : Int => if old > 0 then .ret (.new (.rand ⟨true, i, name⟩)) else
        .call (.fetchAdd .fd) fun _ => .call (.close (i : Int)) fun _ => .ret (.new (.rand ⟨false, -1, name⟩)) := by
    unfold newRandFile
    refine (congrArg (fun p : Prog RandFile => p.bind fun f => Prog.ret (Fin.new (.rand f))) (acquire_bind .fd _)).trans ?_
    show Prog.call _ _ = Prog.call _ _
    congr 1
    funext old
    revert old
    show ∀ old : Int, _
    intro old
    by_cases h : (old : Int) > 0
    · simp only [if_pos h]
      rfl
    · simp only [if_neg h]
      rfl
  rw [key]
  refine ⟨⟨fun j hj => ?_, nofun⟩, show ∀ old : Int, _ from fun old => ?_⟩
  · cases hj
    exact needF_sub ⟨0, Int.le_refl _, by rw [if_neg (by omega)]; exact needF_add fun _ => needF_close _⟩
  · by_cases h : (old : Int) > 0
    · simp only [if_pos h]
      refine ⟨⟨fun j hj => ?_, nofun⟩, rfl, rfl, hn, i, rfl, rfl⟩
      cases hj
      rintro g ⟨-, hH, -⟩
      exact (hH.F _).2 ⟨rfl, rfl⟩
    · simp only [if_neg h]
      exact ⟨⟨fun j hj => by cases hj; exact needF_add fun _ => needF_close _, nofun⟩, fun _ => leads_temp hn⟩

/-- The rest of `NewRandomAccessFile` after the mapping. -/
def mapEnd (name : Bytes) (fd : Int) : St × Option Obj → Prog Fin
  | (_, some o) => .call (.close fd) fun _ => .ret (.new o)
  | (st, none) => .call (.close fd) fun _ => .call (.fetchAdd .mmap) fun _ => .ret (.failed st)

theorem leads_mapEnd_none {i : Nat} (st : St) : Leads sq name len (mapEnd name (i : Int) (st, none)) (some i) none := by
  refine ⟨⟨fun j hj => by cases hj; exact needF_close _, nofun⟩, fun _ => ?_⟩
  exact ⟨⟨nofun, nofun⟩, fun _ => leads_failed rfl _⟩

/-- The rest of `NewRandomAccessFile` when there is a slot for a mapping. -/
theorem leads_map (strerror : Strerror) {i : Nat} : Leads false name len ((mapFile strerror (i : Int) name).bind (mapEnd name (i : Int))) (some i) none := by
  have key : (mapFile strerror (i : Int) name).bind (mapEnd name (i : Int)) =
      .call (.stat name) fun r => match (r : Except Errno Nat) with
        | .error e => mapEnd name i (PosixError strerror name e, none)
        | .ok n => .call (.mmap i n) fun r => match (r : Except Errno Nat) with
          | .ok m => mapEnd name i (.ok, some (.mmap ⟨m, n, name⟩))
          | .error e => mapEnd name i (PosixError strerror name e, none) := by
    show Prog.call _ _ = Prog.call _ _
    congr 1
    funext r
    cases r with
    | error e =>
      show (Prog.bind (if PosixError strerror name e = .ok then _ else _) _) = _
      rw [if_neg (PosixError_ne_ok strerror name e)]
      rfl
    | ok n =>
      show Prog.call _ _ = Prog.call _ _
      congr 1
      funext r
      cases r with
      | error e => rfl
      | ok m => rfl
  rw [key]
  refine ⟨⟨fun j hj => ?_, nofun⟩, rfl, fun e => leads_mapEnd_none _, ?_⟩
  · cases hj
    intro g hg
    exact needF_close _ g (hg (.error 0))
  · refine ⟨⟨fun j hj => ?_, nofun⟩, ⟨i, rfl, rfl, rfl⟩, fun e => leads_mapEnd_none _, fun m => ?_⟩
    · cases hj
      intro g hg
      exact needF_close _ g (hg.2.1 0)
    · refine ⟨⟨fun j hj => by cases hj; exact needF_close _, fun j hj => by cases hj; exact needM_close fun _ => needM_mmap⟩, fun _ => ?_⟩
      exact ⟨⟨nofun, fun j hj => by cases hj; exact needM_mmap⟩, rfl, rfl, rfl, rfl⟩

/-- `NewRandomAccessFile`. -/
theorem leads_random (strerror : Strerror) : Leads false name len (NewRandomAccessFile strerror name) none none := by
  refine ⟨⟨nofun, nofun⟩, ⟨rfl, rfl, rfl⟩, fun e => leads_failed rfl _, fun i hn => ?_⟩
  have key : ∀ q : Prog Fin, q = (Acquire .mmap).bind (fun b => if b = true then (mapFile strerror (i : Int) name).bind (mapEnd name (i : Int)) else
      (newRandFile name (i : Int)).bind fun f => .ret (.new (.rand f))) → Leads false name len q (some i) none := by
    rintro q rfl
    rw [acquire_bind]
    refine ⟨⟨fun j hj => ?_, nofun⟩, show ∀ old : Int, _ from fun old => ?_⟩
    · cases hj
      refine needF_sub ⟨0, Int.le_refl _, ?_⟩
      rw [if_neg (by omega)]
      exact needF_add fun _ => (leads_rand (len := len) hn).1.1 i rfl
    · by_cases h : (old : Int) > 0
      · simp only [if_pos h]
        exact leads_map strerror
      · simp only [if_neg h]
        exact ⟨⟨fun j hj => by cases hj; exact needF_add fun _ => (leads_rand (len := len) hn).1.1 i rfl, nofun⟩, fun _ => leads_rand hn⟩
  refine key _ ?_
  show Prog.bind (Acquire .mmap) _ = Prog.bind (Acquire .mmap) _
  congr 1
  funext b
  cases b with
  | false => rfl
  | true =>
    show Prog.bind (mapFile strerror (i : Int) name) _ = Prog.bind (mapFile strerror (i : Int) name) _
    congr 1
    funext x
    obtain ⟨st, o⟩ := x
    cases o <;> rfl

end Conc
end Posix
end Lsmdb
