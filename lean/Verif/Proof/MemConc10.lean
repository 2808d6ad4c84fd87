import Verif.Proof.MemConc9
import Mathlib.Data.DFinsupp.WellFounded
import Mathlib.Data.List.Perm.Subperm
import Mathlib.Data.List.Nodup

/-!
# No faults, no deadlock, no endless calls; the state when no call is in progress
-/

namespace Lsmdb
namespace MemConc
open MemEnv Spec
open CacheConc (Tid Prog)

variable {w w' : World} {S S' : Sh} {H : Hist} {t : Tid} {o : Op} {p : Phase}

theorem Sim.has (s : Sim w S H) (l : Lock) : S.Has l ↔ w.Has l := by
  cases l <;> simp [Sh.Has, World.Has, s.env, s.ex]

theorem Sim.not_faulty (s : Sim w S H) (d : Disciplined H) : ¬ Faulty w := by
  intro F
  cases F with
  | @act t β f next x h eq =>
    obtain ⟨o, p, hn, k⟩ := s.run t _ h
    obtain ⟨S', b', v', p', h1, _⟩ := k S (s.pre d hn)
    rw [s.env, eq] at h1
    cases h1
  | @lock t l next h hl =>
    obtain ⟨o, p, hn, k⟩ := s.run t _ h
    exact hl ((s.has l).mp (k.2 S (s.pre d hn)).1)
  | @unlock t l next h hl =>
    obtain ⟨o, p, hn, k⟩ := s.run t _ h
    obtain ⟨h1, h2, _⟩ := k S (s.pre d hn)
    exact hl ⟨(s.has l).mp h1, by rw [← s.own]; exact h2⟩
  | @free t i next h hl =>
    obtain ⟨o, p, hn, k⟩ := s.run t _ h
    obtain ⟨h1, h2, h3, _⟩ := k S (s.pre d hn)
    refine hl ⟨by rw [← s.env]; exact h1, ?_, ?_⟩
    · rw [← s.own]; exact h2
    · rw [← s.own]; exact h3
  | @gone t next h hl =>
    obtain ⟨o, p, hn, k⟩ := s.run t _ h
    obtain ⟨h1, h2, _⟩ := k.2 S (s.pre d hn)
    exact hl ⟨by rw [← s.ex]; exact h1, by rw [← s.own]; exact h2⟩

/-- A step that is not the beginning of a call. -/
def NotCall (e : Option Ev) : Prop := ∀ t o, e ≠ some (.call t o)

/-- A thread that does not wait for a mutex can go on. -/
theorem Sim.goes (s : Sim w S H) (d : Disciplined H) {c : Code} (h : w.pc t = .run c)
    (hl : ∀ l k, c = .lock l k → w.owner l = none) : ∃ e w', Step w e w' ∧ NotCall e := by
  have nf := s.not_faulty d
  have nc : NotCall none := by intro _ _ h; cases h
  cases c with
  | ret r => exact ⟨_, _, .ret h, by intro _ _ h; cases h⟩
  | act f next =>
    cases e : f w.env with
    | error x => exact absurd (.act h e) nf
    | ok y => exact ⟨_, _, .act h e, nc⟩
  | lock l next =>
    refine ⟨_, _, .lock h ?_ (hl l next rfl), nc⟩
    exact Classical.byContradiction fun e => nf (.lock h e)
  | unlock l next =>
    have : w.Has l ∧ w.owner l = some t := Classical.byContradiction fun e => nf (.unlock h e)
    exact ⟨_, _, .unlock h this.1 this.2, nc⟩
  | free i next =>
    have : Live w.env i ∧ w.owner (.refs i) = none ∧ w.owner (.blocks i) = none := Classical.byContradiction fun e => nf (.free h e)
    exact ⟨_, _, .free h this.1 this.2.1 this.2.2, nc⟩
  | gone next =>
    have : w.exists_ = true ∧ w.owner .env = none := Classical.byContradiction fun e => nf (.gone h e)
    exact ⟨_, _, .gone h this.1 this.2, nc⟩

/-- The holder of a mutex of a file does not wait. -/
theorem Sim.holder (s : Sim w S H) (d : Disciplined H) {l : Lock} (hl : l ≠ .env) (ho : w.owner l = some t) :
    ∃ e w', Step w e w' ∧ NotCall e := by
  have hv : (S.view t).blk ≠ none ∨ (S.view t).rfs ≠ none := by
    rw [← s.own] at ho
    cases l with
    | env => exact absurd rfl hl
    | refs i =>
      obtain ⟨x, h1, _⟩ := s.inv.file.rfsOwn t i ho
      exact .inr (by show S.vRfs t ≠ none; rw [h1]; simp)
    | blocks i =>
      obtain ⟨x, h1, _⟩ := s.inv.file.blkOwn t i ho
      exact .inl (by show S.vBlk t ≠ none; rw [h1]; simp)
  cases hpc : w.pc t with
  | idle =>
    rw [(s.idle t hpc).2] at hv
    rcases hv with hv | hv <;> exact absurd rfl hv
  | run c =>
    refine s.goes d hpc ?_
    rintro l' k rfl
    obtain ⟨o, p, hn, ok⟩ := s.run t _ hpc
    have hord := ok.1
    exfalso
    cases l' with
    | env =>
      obtain ⟨_, h1, h2⟩ := hord
      rcases hv with hv | hv
      · exact hv h1
      · exact hv h2
    | refs i =>
      obtain ⟨h1, h2⟩ := hord
      rcases hv with hv | hv
      · exact hv h1
      · exact hv h2
    | blocks i =>
      obtain ⟨h1, h2⟩ := hord
      rcases hv with hv | hv
      · exact hv h1
      · exact hv h2

/-- The holder of `mutex_` waits at most for a mutex of a file. -/
theorem Sim.holderEnv (s : Sim w S H) (d : Disciplined H) (ho : w.owner .env = some t) : ∃ e w', Step w e w' ∧ NotCall e := by
  have hv : (S.view t).env ≠ none := by
    rw [← s.own] at ho
    exact s.inv.env.own t ho
  cases hpc : w.pc t with
  | idle => rw [(s.idle t hpc).2] at hv; exact absurd rfl hv
  | run c =>
    by_cases hw : ∀ l k, c = .lock l k → w.owner l = none
    · exact s.goes d hpc hw
    · simp only [Classical.not_forall] at hw
      obtain ⟨l, k, rfl, hw⟩ := hw
      cases e : w.owner l with
      | none => exact absurd e hw
      | some u =>
        refine s.holder d (l := l) ?_ e
        rintro rfl
        obtain ⟨o, p, hn, ok⟩ := s.run t _ hpc
        exact hv ok.1.1

theorem Sim.moves (s : Sim w S H) (d : Disciplined H) (h : w.pc t ≠ .idle) : ∃ e w', Step w e w' ∧ NotCall e := by
  cases hpc : w.pc t with
  | idle => exact absurd hpc h
  | run c =>
    by_cases hw : ∀ l k, c = .lock l k → w.owner l = none
    · exact s.goes d hpc hw
    · simp only [Classical.not_forall] at hw
      obtain ⟨l, k, rfl, hw⟩ := hw
      cases e : w.owner l with
      | none => exact absurd e hw
      | some u =>
        by_cases hl : l = .env
        · subst hl; exact s.holderEnv d e
        · exact s.holder d hl e

/-! ## Calls end -/

/-- Where a thread can be after one of its steps. -/
inductive PcLt : Pc → Pc → Prop
  | act {β : Type} (f : Env → M (Env × β)) (next : β → Code) (b : β) : PcLt (.run (next b)) (.run (.act f next))
  | lock (l : Lock) (k : Code) : PcLt (.run k) (.run (.lock l k))
  | unlock (l : Lock) (k : Code) : PcLt (.run k) (.run (.unlock l k))
  | free (i : Nat) (k : Code) : PcLt (.run k) (.run (.free i k))
  | gone (k : Code) : PcLt (.run k) (.run (.gone k))
  | ret (r : Res) : PcLt .idle (.run (.ret r))

theorem acc_idle : Acc PcLt .idle := ⟨_, fun p h => nomatch h⟩

theorem acc_run (c : Code) : Acc PcLt (.run c) := by
  induction c with
  | ret r => exact ⟨_, fun p h => by cases h; exact acc_idle⟩
  | act f next ih => exact ⟨_, fun p h => by cases h; exact ih _⟩
  | lock l k ih => exact ⟨_, fun p h => by cases h; exact ih⟩
  | unlock l k ih => exact ⟨_, fun p h => by cases h; exact ih⟩
  | free i k ih => exact ⟨_, fun p h => by cases h; exact ih⟩
  | gone k ih => exact ⟨_, fun p h => by cases h; exact ih⟩

theorem pcLt_wf : WellFounded PcLt := ⟨fun p => by
  cases p with
  | idle => exact acc_idle
  | run c => exact acc_run c⟩

theorem not_lt_idle {p q : Pc} (h : PcLt p q) : q ≠ .idle := by
  cases h <;> (intro h; cases h)

theorem Step.lt {e : Option Ev} (s : Step w e w') (n : NotCall e) :
    ∃ t, PcLt (w'.pc t) (w.pc t) ∧ ∀ u, u ≠ t → w'.pc u = w.pc u := by
  have fin : ∀ (w' : World) (t : Tid) (p : Pc), w'.pc = w.pc → PcLt p (w.pc t) →
      ∃ v, PcLt ((w'.at t p).pc v) (w.pc v) ∧ ∀ u, u ≠ v → (w'.at t p).pc u = w.pc u := by
    intro w' t p hw h
    exact ⟨t, by simp only [World.at, if_true]; exact h, fun u hu => by simp only [World.at, if_neg hu, hw]⟩
  cases s with
  | call c h => exact absurd rfl (n _ _)
  | act h eq => exact fin { w with env := _ } _ _ rfl (by rw [h]; exact .act _ _ _)
  | lock h hl free => exact fin (w.own _ _) _ _ rfl (by rw [h]; exact .lock _ _)
  | unlock h hl mine => exact fin (w.own _ _) _ _ rfl (by rw [h]; exact .unlock _ _)
  | free h hl hr hb => exact fin { w with env := _ } _ _ rfl (by rw [h]; exact .free _ _)
  | gone h hl hm => exact fin { w with exists_ := _ } _ _ rfl (by rw [h]; exact .gone _)
  | ret h => exact fin _ _ _ rfl (by rw [h]; exact .ret _)

theorem Step.idle {e : Option Ev} (s : Step w e w') (n : NotCall e) {t : Tid} (h : w.pc t = .idle) : w'.pc t = .idle := by
  obtain ⟨u, h1, h2⟩ := s.lt n
  by_cases e : t = u
  · subst e; exact absurd h (not_lt_idle h1)
  · rw [h2 t e]; exact h

theorem Run.finite (r : Run w H) : ∃ N, ∀ t, N ≤ t → w.pc t = .idle := by
  induction r with
  | init => exact ⟨0, fun _ _ => rfl⟩
  | internal r s ih =>
    obtain ⟨N, hN⟩ := ih
    exact ⟨N, fun t ht => s.idle (by intro _ _ h; cases h) (hN t ht)⟩
  | @call w w' H t c r s p ih =>
    obtain ⟨N, hN⟩ := ih
    refine ⟨max N (t + 1), fun u hu => ?_⟩
    cases s with
    | call c h =>
      have : u ≠ t := Nat.ne_of_gt (Nat.le_trans (Nat.le_max_right N (t + 1)) hu)
      simp only [World.at, if_neg this]
      exact hN u (Nat.le_trans (Nat.le_max_left N (t + 1)) hu)
  | ret r s ih =>
    obtain ⟨N, hN⟩ := ih
    exact ⟨N, fun t ht => s.idle (by intro _ _ h; cases h) (hN t ht)⟩

/-- From some point on there are new calls, or the steps come to an end. -/
theorem no_endless {N : Nat} {f : Nat → World} (h0 : ∀ t, N ≤ t → (f 0).pc t = .idle)
    (hs : ∀ n, ∃ e, Step (f n) e (f (n + 1)) ∧ NotCall e) : False := by
  have hid : ∀ n t, N ≤ t → (f n).pc t = .idle := by
    intro n
    induction n with
    | zero => exact h0
    | succ n ih =>
      obtain ⟨e, s, nc⟩ := hs n
      exact fun t ht => s.idle nc (ih t ht)
  have wf : WellFounded (Pi.Lex (ι := Fin N) (β := fun _ => Pc) (· < ·) (fun {_} => PcLt)) :=
    Pi.Lex.wellFounded (· < ·) (fun _ => pcLt_wf)
  let g : Nat → Fin N → Pc := fun n t => (f n).pc t
  have dec : ∀ n, Pi.Lex (ι := Fin N) (β := fun _ => Pc) (· < ·) (fun {_} => PcLt) (g (n + 1)) (g n) := by
    intro n
    obtain ⟨e, s, nc⟩ := hs n
    obtain ⟨t, h1, h2⟩ := s.lt nc
    have ht : t < N := by
      rcases Nat.lt_or_ge t N with h | h
      · exact h
      · exact absurd (hid n t h) (not_lt_idle h1)
    refine ⟨⟨t, ht⟩, fun j hj => h2 j ?_, h1⟩
    intro e
    have : j.val < t := hj
    exact absurd e (Nat.ne_of_lt this)
  have : ∀ p : Fin N → Pc, ∀ n, g n ≠ p := by
    intro p
    induction p using wf.induction with
    | _ p ih =>
      intro n e
      subst e
      exact ih _ (dec n) (n + 1) rfl
  exact this _ 0 rfl

/-! ## No call is in progress -/

/-- The references to file `i`, from the memory. -/
def refList (e : Env) (i : Nat) : List RefId :=
  ((e.map.filter fun x => decide (x.2 = some i)).map fun x => RefId.name x.1) ++
    ((List.range e.objs.length).filter fun h => decide ((e.objs[h]?.join).map Obj.file = some i)).map RefId.obj

theorem length_filter_range (i : Nat) : ∀ os : List (Option Obj),
    ((List.range os.length).filter fun h => decide ((os[h]?.join).map Obj.file = some i)).length = cntObj os i := by
  intro os
  induction os using List.reverseRecOn with
  | nil => rfl
  | append_singleton os x ih =>
    rw [List.length_append, List.length_singleton, List.range_succ, List.filter_append, List.length_append]
    have h1 : (List.range os.length).filter (fun h => decide (((os ++ [x])[h]?.join).map Obj.file = some i)) =
        (List.range os.length).filter (fun h => decide ((os[h]?.join).map Obj.file = some i)) := by
      apply List.filter_congr
      intro h hh
      rw [List.getElem?_append_left (List.mem_range.mp hh)]
    rw [h1, ih]
    unfold cntObj
    rw [List.countP_append]
    congr 1
    simp only [List.filter_cons, List.filter_nil, List.countP_cons, List.countP_nil, List.getElem?_concat_length, Option.join_some]
    split <;> simp

theorem refList_length (e : Env) (i : Nat) : (refList e i).length = cnt e i := by
  unfold refList cnt
  rw [List.length_append, List.length_map, List.length_map, length_filter_range]
  unfold cntMap
  rw [List.countP_eq_length_filter]

theorem refList_nodup {e : Env} (hs : Sorted e.map) (i : Nat) : (refList e i).Nodup := by
  unfold refList
  rw [List.nodup_append]
  refine ⟨?_, ?_, ?_⟩
  · have h1 : (e.map.map fun x => RefId.name x.1).Nodup := by
      have : (e.map.map fun x => RefId.name x.1).Pairwise (· ≠ ·) := by
        rw [List.pairwise_map]
        refine hs.imp ?_
        intro a b hab heq
        injection heq with heq
        rw [heq, strLt_irrefl] at hab
        cases hab
      exact this
    exact h1.sublist ((List.filter_sublist).map _)
  · refine (List.nodup_range.filter _).map ?_
    intro a b h
    injection h
  · intro a ha b hb e
    obtain ⟨x, _, rfl⟩ := List.mem_map.mp ha
    obtain ⟨y, _, rfl⟩ := List.mem_map.mp hb
    cases e

theorem Sim.quiet (s : Sim w S H) (q : Quiet w) : R w.env S.fs := by
  have hI := s.inv
  have hv : ∀ t, S.view t = {} := fun t => (s.idle t (q t)).2
  have hE : ∀ t, S.vEnv t = none := fun t => congrArg View.env (hv t)
  have hO : ∀ t, S.vObj t = none := fun t => congrArg View.obj (hv t)
  have hB : ∀ t, S.vBlk t = none := fun t => congrArg View.blk (hv t)
  have hSo : ∀ t, S.vSole t = none := fun t => congrArg View.sole (hv t)
  have hD : ∀ t, S.vDying t = none := fun t => congrArg View.dying (hv t)
  have hc := hI.env.free hE
  have he := s.env
  have free : ∀ h, h < S.e.objs.length → S.e.objs[h]? = some (S.fs.obj h) ∧ S.ref (.obj h) = (S.fs.obj h).map Obj.file :=
    fun h hh => hI.obj.free h hh (fun t v hv => by rw [hO t] at hv; cases hv)
  have beyond : ∀ h, S.e.objs.length ≤ h → S.fs.obj h = none ∧ S.ref (.obj h) = none := by
    intro h hh
    obtain ⟨k, rfl⟩ := Nat.exists_eq_add_of_le hh
    exact ⟨hc.fobj k, hc.robj k⟩
  have hobj : ∀ h, S.fs.obj h = (S.e.objs[h]?).join := by
    intro h
    rcases Nat.lt_or_ge h S.e.objs.length with hh | hh
    · rw [(free h hh).1]; rfl
    · rw [(beyond h hh).1, List.getElem?_eq_none hh]; rfl
  have href : ∀ h, S.ref (.obj h) = (S.fs.obj h).map Obj.file := by
    intro h
    rcases Nat.lt_or_ge h S.e.objs.length with hh | hh
    · exact (free h hh).2
    · rw [(beyond h hh).1, (beyond h hh).2]; rfl
  have hname : ∀ n, S.ref (.name n) = S.fs.name n := hc.rname
  have hsort : Sorted S.e.map := hc.sorted
  have hfind : ∀ n, mapFind S.e.map n = (S.fs.name n).map some := hc.find
  have hmem : ∀ i r, r ∈ refList S.e i ↔ S.ref r = some i := by
    intro i r
    unfold refList
    rw [List.mem_append]
    cases r with
    | name n =>
      rw [hname]
      constructor
      · rintro (h | h)
        · obtain ⟨⟨m, x⟩, hx, e⟩ := List.mem_map.mp h
          injection e with e
          have e' : m = n := e
          subst e'
          obtain ⟨h1, h2⟩ := List.mem_filter.mp hx
          have h2' : x = some i := by simpa using h2
          subst h2'
          have := mapFind_of_mem hsort h1
          rw [hfind] at this
          cases hn : S.fs.name m with
          | none => rw [hn] at this; cases this
          | some j => rw [hn] at this; injection this
        · obtain ⟨x, _, e⟩ := List.mem_map.mp h
          cases e
      · intro h
        left
        have := hfind n
        rw [h] at this
        refine List.mem_map.mpr ⟨(n, some i), List.mem_filter.mpr ⟨mapFind_mem this, by simp⟩, rfl⟩
    | obj k =>
      rw [href, hobj]
      constructor
      · rintro (h | h)
        · obtain ⟨x, _, e⟩ := List.mem_map.mp h
          cases e
        · obtain ⟨x, hx, e⟩ := List.mem_map.mp h
          injection e with e
          subst e
          simpa using (List.mem_filter.mp hx).2
      · intro h
        right
        refine List.mem_map.mpr ⟨k, List.mem_filter.mpr ⟨List.mem_range.mpr ?_, by simpa using h⟩, rfl⟩
        rcases Nat.lt_or_ge k S.e.objs.length with hh | hh
        · exact hh
        · rw [List.getElem?_eq_none hh] at h; cases h
  have hcnt : ∀ i, (S.G i).length = cnt S.e i := by
    intro i
    rw [← refList_length]
    apply List.Perm.length_eq
    rw [List.perm_ext_iff_of_nodup (hI.file.gNodup i) (refList_nodup hsort i)]
    intro r
    rw [hI.file.gRef, hmem]
  have hoB : ∀ i, S.oB i = none := by
    intro i
    cases e : S.oB i with
    | none => rfl
    | some t =>
      obtain ⟨v, h1, _⟩ := hI.file.blkOwn t i e
      rw [hB t] at h1; cases h1
  have hlive : ∀ i f, S.e.files[i]? = some (some f) → S.G i ≠ [] := by
    intro i f hf hG
    obtain ⟨t, ht⟩ := hI.file.soleEx i f hf hG
    rw [hSo t] at ht; cases ht
  have lt_of_live : ∀ i, S.G i ≠ [] → i < S.fs.made := by
    intro i hi
    obtain ⟨f, hf⟩ := hI.file.live i hi
    have := (List.getElem?_eq_some_iff.mp hf).1
    have hn : S.e.files.length = S.fs.made := hc.nfiles
    omega
  have ne_of_ref : ∀ r i, S.ref r = some i → S.G i ≠ [] := by
    intro r i h e
    have := (hI.file.gRef r i).mpr h
    rw [e] at this; cases this
  rw [← he]
  refine ⟨hsort, hfind, ?_, hc.nfiles, hc.nobjs, hobj, ?_, ?_, ⟨?_, ?_, ?_⟩, hI.small⟩
  · intro i
    unfold cntMap
    rw [List.countP_eq_length_filter]
    have hnd : ((S.e.map.filter fun x => decide (x.2 = some i)).map fun x => x.1).Nodup := by
      have h1 : (S.e.map.map fun x => x.1).Nodup := by
        have : (S.e.map.map fun x => x.1).Pairwise (· ≠ ·) := by
          rw [List.pairwise_map]
          refine hsort.imp ?_
          intro a b hab heq
          rw [heq, strLt_irrefl] at hab
          cases hab
        exact this
      exact h1.sublist ((List.filter_sublist).map _)
    have hall : ∀ m ∈ (S.e.map.filter fun x => decide (x.2 = some i)).map (fun x => x.1), S.ref (.name m) = some i := by
      intro m hm
      rw [← hmem]
      unfold refList
      obtain ⟨x, hx, rfl⟩ := List.mem_map.mp hm
      exact List.mem_append_left _ (List.mem_map.mpr ⟨x, hx, rfl⟩)
    rw [← List.length_map (f := fun x : Bytes × Option Nat => x.1)]
    generalize (S.e.map.filter fun x => decide (x.2 = some i)).map (fun x => x.1) = l at hnd hall
    match l, hnd, hall with
    | [], _, _ => simp
    | [_], _, _ => simp
    | a :: b :: l, hnd, hall =>
      exfalso
      have := hI.file.one a b i (hall a (by simp)) (hall b (by simp))
      subst this
      simp at hnd
  · intro n i h
    exact lt_of_live i (ne_of_ref (.name n) i ((hname n).trans h))
  · intro k x h
    exact lt_of_live _ (ne_of_ref (.obj k) _ (by rw [href, h]; rfl))
  · intro i hi h0
    rw [← hcnt] at h0
    have hG : S.G i = [] := List.eq_nil_of_length_eq_zero h0
    have : S.e.files[i]? = some none := by
      cases e : S.e.files[i]? with
      | none => rw [List.getElem?_eq_none_iff] at e; omega
      | some x =>
        cases x with
        | none => rfl
        | some f => exact absurd hG (hlive i f e)
    refine ⟨this, ?_⟩
    rw [hI.file.gone, if_pos this]
  · intro i hi h0
    rw [← hcnt] at h0
    have hG : S.G i ≠ [] := by intro e; rw [e] at h0; simp at h0
    obtain ⟨f, hf⟩ := hI.file.live i hG
    refine ⟨f, hf, ?_, ?_, ?_⟩
    · rw [hI.file.refs i f hf, hcnt]
    · have := hI.file.content i f hf (hoB i) (by rintro ⟨t, ht⟩; rw [hD t] at ht; cases ht)
      exact ⟨this.len, this.size, this.flat⟩
    · rw [hI.file.gone, if_neg]
      rw [hf]; simp
  · intro i hi
    rw [hI.file.gone, if_neg]
    rw [List.getElem?_eq_none hi]; simp

end MemConc
end Lsmdb
