import Verif.Proof.PosixConc1

/-! Ownership for programs of threads: the calls of the Env. -/

namespace Lsmdb
namespace Posix

open MemEnv (St lit)

namespace Conc

open Prog

variable (strerror : Strerror) (full : Bool) (fuel : Nat)

theorem mem_del {α : Type} [DecidableEq α] {l : List α} {x y : α} : y ∈ l.filter (· ≠ x) ↔ y ∈ l ∧ y ≠ x := by
  rw [List.mem_filter]; simp

theorem empty_of_mem {α : Type} {l : List α} (h : ∀ x, x ∉ l) : l = [] := List.eq_nil_iff_forall_not_mem.2 h

/-- An object that owns a descriptor and nothing else. -/
theorem has_fd {B : List Nat} {i : Nat} {o : Obj} (h1 : ∀ j, o.ownsFd j ↔ j = i) (h2 : ∀ j, ¬ o.ownsMap j)
    (h3 : ∀ n, ¬ ownsName o n) (h4 : ∀ l, slots o l = 0) : Has ((Ghost.none B).addF i) o := by
  refine ⟨fun j => ?_, fun j => ?_, fun n => ?_, fun l => (h4 l).symm, fun l => rfl⟩
  · rw [h1]; exact List.mem_singleton
  · exact ⟨fun h => (nomatch h), fun h => absurd h (h2 j)⟩
  · exact ⟨fun h => (nomatch h), fun h => absurd h (h3 n)⟩

theorem none_empty (B : List Nat) : (Ghost.none B).Empty := ⟨rfl, rfl, rfl, fun _ => rfl, fun _ => rfl⟩

theorem wp_NewSequentialFile {n : Bytes} {B : List Nat} : (NewSequentialFile strerror n).wp (Done .none) (Ghost.none B) := by
  unfold NewSequentialFile
  refine wp_then ⟨fun e => none_empty _, fun i hi => ?_⟩
  refine ⟨rfl, has_fd (fun j => ?_) (fun _ h => h) (fun _ h => h) (fun l => by cases l <;> rfl), i, rfl⟩
  show (i : Int) = j ↔ j = i
  omega

theorem wp_newWFile {m : Mode} {n : Bytes} {B : List Nat} : (newWFile strerror m n).wp (Done .none) (Ghost.none B) := by
  unfold newWFile
  refine wp_then ⟨fun e => none_empty _, fun i hi => ?_⟩
  obtain ⟨m', d, _, _, h3⟩ := new_eq n (i : Int)
  refine wp_ofM h3 ?_
  refine ⟨rfl, has_fd (fun j => ?_) (fun _ h => h) (fun _ h => h) (fun l => by cases l <;> rfl),
    .inr ⟨i, rfl⟩, [], rfl, Nat.zero_le _, fun i hi => absurd hi (by simp)⟩
  show (i : Int) = j ↔ j = i
  omega

theorem wp_NewLogger {n : Bytes} {B : List Nat} : (NewLogger strerror n).wp (Done .none) (Ghost.none B) := by
  unfold NewLogger
  refine wp_then ⟨fun e => none_empty _, fun i hi => ?_⟩
  refine wp_then ⟨ok_addF _ i, fun r => ?_⟩
  cases r with
  | error e =>
    refine wp_then (wp_close_own hi fun r => ?_)
    cases r <;> exact none_empty _
  | ok _ =>
    refine ⟨rfl, has_fd (fun j => ?_) (fun _ h => h) (fun _ h => h) (fun l => by cases l <;> rfl), i, rfl⟩
    show (i : Int) = j ↔ j = i
    omega

theorem wp_LockFile {n : Bytes} {B : List Nat} : (LockFile strerror n).wp (Done .none) (Ghost.none B) := by
  unfold LockFile
  refine wp_then ⟨fun e => none_empty _, fun i hi => ?_⟩
  refine wp_then ⟨fun hn => ?_, ?_⟩
  · simp only [↓reduceIte]
    refine wp_then ⟨ok_addF _ i, fun r => ?_⟩
    cases r with
    | error e =>
      refine wp_then (.inr ⟨i, rfl, List.mem_cons_self, fun r => ?_⟩)
      refine wp_then ⟨List.mem_cons_self, ?_⟩
      refine ⟨?_, rfl, ?_, fun _ => rfl, fun _ => rfl⟩
      · show [i].filter (· ≠ i) = []
        exact filter_cons_self (l := []) (by simp)
      · show [n].filter (· ≠ n) = []
        exact filter_cons_self (l := []) (by simp)
    | ok _ =>
      refine ⟨rfl, ⟨fun j => ?_, fun j => ?_, fun m => ?_, fun l => by cases l <;> rfl, fun l => rfl⟩, i, rfl⟩
      · show j ∈ [i] ↔ (i : Int) = j
        rw [List.mem_singleton]; omega
      · exact ⟨fun h => (nomatch h), fun h => h.elim⟩
      · show m ∈ [n] ↔ m = n
        exact List.mem_singleton
  · simp only [Bool.false_eq_true, ↓reduceIte]
    exact wp_then (wp_close_own hi fun r => none_empty _)

theorem wp_mapFile {i : Nat} {n : Bytes} {Q : St × Option Obj → Ghost → Prop} {g : Ghost} (hi : i ∈ g.F)
    (h0 : ∀ s, Q (s, none) g) (h1 : ∀ m sz, m ∉ g.M → Q (.ok, some (.mmap ⟨m, sz, n⟩)) (g.addM m)) :
    (mapFile strerror (i : Int) n).wp Q g := by
  unfold mapFile GetFileSize
  refine wp_bind (wp_then fun r => ?_)
  cases r with
  | error e =>
    refine wp_pure ?_
    simp only []
    by_cases hs : PosixError strerror n e = .ok
    · simp only [if_pos hs]
      exact wp_then ⟨.inr ⟨i, rfl, hi⟩, fun e => h0 _, fun m hm => h1 m _ hm⟩
    · simp only [if_neg hs]; exact h0 _
  | ok sz =>
    refine wp_pure ?_
    simp only [↓reduceIte]
    exact wp_then ⟨.inr ⟨i, rfl, hi⟩, fun e => h0 _, fun m hm => h1 m _ hm⟩

theorem wp_newRandFile {i : Nat} {n : Bytes} {Q : RandFile → Ghost → Prop} {g : Ghost} (hi : i ∉ g.F)
    (hg : g.grant .fd = 0) (hp : g.pend .fd = 0) (h1 : Q ⟨true, i, n⟩ ((g.addF i).addG .fd)) (h0 : Q ⟨false, -1, n⟩ g) : (newRandFile n (i : Int)).wp Q (g.addF i) := by
  unfold newRandFile
  refine wp_bind (wp_Acquire hg hp ?_ ?_)
  · simp only [↓reduceIte]; exact h1
  · simp only [Bool.false_eq_true, ↓reduceIte]
    refine wp_ofM (a := ()) rfl ?_
    exact wp_then (wp_close_own hi fun r => h0)

theorem wp_NewRandomAccessFile {n : Bytes} {B : List Nat} :
    (NewRandomAccessFile strerror n).wp (Done .none) (Ghost.none B) := by
  unfold NewRandomAccessFile
  refine wp_then ⟨fun e => none_empty _, fun i hi => ?_⟩
  refine wp_bind (wp_Acquire rfl rfl ?_ ?_)
  · simp only [↓reduceIte]
    refine wp_bind (wp_mapFile strerror List.mem_cons_self (fun s => ?_) fun m sz hm => ?_)
    · refine wp_then (.inr ⟨i, rfl, List.mem_cons_self, fun r => ?_⟩)
      refine wp_bind (wp_Release (Nat.lt_succ_self 0) ?_)
      refine wp_pure ⟨?_, rfl, rfl, fun l => ?_, fun _ => rfl⟩
      · show [i].filter (· ≠ i) = []
        exact filter_cons_self (l := []) (by simp)
      · cases l <;> rfl
    · refine wp_then (.inr ⟨i, rfl, List.mem_cons_self, fun r => ?_⟩)
      refine ⟨rfl, ⟨fun j => ?_, fun j => ?_, fun m => ?_, fun l => by cases l <;> rfl, fun l => rfl⟩, trivial⟩
      · show j ∈ [i].filter (· ≠ i) ↔ False
        rw [filter_cons_self (l := []) (by simp)]; simp
      · show j ∈ [m] ↔ m = j
        rw [List.mem_singleton]; exact eq_comm
      · exact ⟨fun h => (nomatch h), fun h => h.elim⟩
  · simp only [Bool.false_eq_true, ↓reduceIte]
    refine wp_bind (wp_newRandFile (by simp [Ghost.none]) rfl rfl ?_ ?_)
    · refine ⟨rfl, ⟨fun j => ?_, fun j => ?_, fun m => ?_, fun l => by cases l <;> rfl, fun l => rfl⟩, i, rfl⟩
      · show j ∈ [i] ↔ true = true ∧ (i : Int) = j
        rw [List.mem_singleton]
        exact ⟨fun h => ⟨rfl, by omega⟩, fun h => by have := h.2; omega⟩
      · exact ⟨fun h => (nomatch h), fun h => h.elim⟩
      · exact ⟨fun h => (nomatch h), fun h => h.elim⟩
    · refine ⟨rfl, ⟨fun j => ?_, fun j => ?_, fun m => ?_, fun l => by cases l <;> rfl, fun l => rfl⟩, rfl⟩
      · exact ⟨fun h => (nomatch h), fun h => nomatch h.1⟩
      · exact ⟨fun h => (nomatch h), fun h => h.elim⟩
      · exact ⟨fun h => (nomatch h), fun h => h.elim⟩

theorem wp_readdirLoop {fd : Int} {Q : List Bytes → Ghost → Prop} {g : Ghost} (hf : g.ok fd) (hQ : ∀ l, Q l g) :
    ∀ (fuel : Nat) (rest l : List Bytes), (readdirLoop fd fuel rest l).wp Q g := by
  intro fuel
  induction fuel with
  | zero => intro rest l; exact trivial
  | succ fuel ih =>
    intro rest l
    unfold readdirLoop
    refine wp_then ⟨hf, fun r => ?_⟩
    cases r with
    | none => exact hQ _
    | some d => exact ih _ _

theorem wp_GetChildren {d : Bytes} {Q : St × List Bytes → Ghost → Prop} {g : Ghost} (hQ : ∀ x, Q x g) :
    (GetChildren strerror fuel d).wp Q g := by
  unfold GetChildren
  refine wp_then ⟨fun e => hQ _, fun i l hi => ?_⟩
  refine wp_bind (wp_readdirLoop (ok_addF g i) (fun l => ?_) fuel l [])
  exact wp_then (wp_close_own hi fun _ => hQ _)

/-! ## Calls on objects -/

theorem Has.ok {g : Ghost} {o : Obj} (h : Has g o) {i : Nat} (hi : o.ownsFd i) : g.ok (i : Int) :=
  .inr ⟨i, rfl, ((h.F i).2 hi)⟩

/-- Closing the only descriptor. -/
theorem Has.delF {g : Ghost} {o : Obj} (h : Has g o) {i : Nat} (h1 : ∀ j, o.ownsFd j ↔ j = i) (h2 : ∀ j, ¬ o.ownsMap j)
    (h3 : ∀ n, ¬ ownsName o n) (h4 : ∀ l, slots o l = 0) : (g.delF i).Empty := by
  refine ⟨empty_of_mem fun j hj => ?_, empty_of_mem fun j hj => ?_, empty_of_mem fun j hj => ?_, fun l => ?_, fun l => ?_⟩
  · have hj := mem_del.1 hj
    exact hj.2 ((h1 j).1 ((h.F j).1 hj.1))
  · exact h2 j ((h.M j).1 hj)
  · exact h3 j ((h.N j).1 hj)
  · exact (h.grant l).trans (h4 l)
  · exact h.pend l

theorem wp_UnlockFile {fd : Int} {n : Bytes} {g : Ghost} {hd : Nat} (hg : Has g (.lock fd n)) (ho : ObjOk (.lock fd n)) :
    (UnlockFile strerror fd n).wp (Done (.own hd)) g := by
  obtain ⟨i, rfl⟩ := ho
  unfold UnlockFile
  refine wp_then ⟨hg.ok rfl, fun r => ?_⟩
  cases r with
  | error e => exact ⟨⟨hd, rfl⟩, hg, i, rfl⟩
  | ok _ =>
    refine wp_then ⟨(hg.N n).2 rfl, ?_⟩
    refine wp_then (.inr ⟨i, rfl, (hg.F i).2 rfl, fun r => ?_⟩)
    refine ⟨empty_of_mem fun j hj => ?_, empty_of_mem fun j hj => (hg.M j).1 hj, empty_of_mem fun j hj => ?_,
      fun l => (hg.grant l).trans (by cases l <;> rfl), fun l => hg.pend l⟩
    · have hj := mem_del.1 hj
      have : (i : Int) = j := (hg.F j).1 hj.1
      omega
    · have hj := mem_del.1 hj
      exact hj.2 ((hg.N j).1 hj.1)

theorem Has.fd {g : Ghost} {o : Obj} (h : Has g o) {fd : Int} (hf : fd = -1 ∨ ∃ i : Nat, fd = i) (ho : ∀ i : Nat, fd = i → o.ownsFd i) :
    g.ok fd := by
  rcases hf with e | ⟨i, e⟩
  · left; omega
  · rw [e]; exact h.ok (ho i e)

theorem wr_nothing {g g' : Ghost} {f f' : WFile} (h : Has g (.wr f)) (hM : g'.M = g.M) (hN : g'.N = g.N) (hG : g'.grant = g.grant)
    (hP : g'.pend = g.pend) (hF : ∀ i, i ∈ g'.F ↔ f'.fd = (i : Int)) : Has g' (.wr f') := by
  refine ⟨hF, fun j => ?_, fun n => ?_, fun l => ?_, fun l => ?_⟩
  · rw [hM]; exact h.M j
  · rw [hN]; exact h.N n
  · rw [hG, h.grant]; cases l <;> rfl
  · rw [hP]; exact h.pend l

theorem spec_close_wr {f : WFile} {g : Ghost} (h : Has g (.wr f)) (hf : f.fd = -1 ∨ ∃ i : Nat, f.fd = i)
    {K : Except Errno Unit → Ghost → Prop} (hK : ∀ r g', (∀ f' : WFile, f'.fd = -1 → Has g' (.wr f')) → K r g') :
    (Cmd.close f.fd).spec K g := by
  rcases hf with e | ⟨i, e⟩
  · refine .inl ⟨e, fun r => hK r g fun f' hf' => wr_nothing h rfl rfl rfl rfl fun i => ?_⟩
    rw [h.F i, hf']; show f.fd = i ↔ _; rw [e]
  · refine .inr ⟨i, e, (h.F i).2 e, fun r => hK r _ fun f' hf' => wr_nothing h rfl rfl rfl rfl fun j => ?_⟩
    rw [hf']
    refine mem_del.trans ⟨fun hj => ?_, fun hj => by omega⟩
    have : f.fd = j := (h.F j).1 hj.1
    have := hj.2
    omega

theorem wp_wstep {f : WFile} {op : WOp} (hw : ∀ d, op = .append d → d.WF) {Q : St × WFile → Ghost → Prop} {g : Ghost}
    (hg : Has g (.wr f)) (ho : ObjOk (.wr f)) (hQ : ∀ s f' g', Has g' (.wr f') → ObjOk (.wr f') → Q (s, f') g') :
    (wstep strerror full fuel f op).wp Q g := by
  obtain ⟨hf, b, hb⟩ := ho
  have hk : g.ok f.fd := hg.fd hf fun i e => e
  have same : ∀ s (f' : WFile), f'.fd = f.fd → (∃ b', BufHas f' b') → Q (s, f') g := by
    intro s f' e hb'
    refine hQ s f' g (wr_nothing hg rfl rfl rfl rfl fun i => ?_) ⟨by rw [e]; exact hf, hb'⟩
    rw [e]; exact hg.F i
  cases op with
  | append d => exact wp_Append strerror fuel hb (hw d rfl) hk same
  | flush => exact wp_FlushBuffer strerror fuel hb hk fun s => same s _ rfl ⟨_, BufHas.zero f⟩
  | sync => exact wp_Sync strerror full fuel hb hk same
  | close =>
    refine wp_Close strerror fuel hb hk (spec_close_wr hg hf fun r g' h s => ?_)
    exact hQ _ _ _ (h _ rfl) ⟨.inl rfl, [], BufHas.zero { f with fd := -1 }⟩

theorem wp_destroy {o : Obj} (hl : ∀ fd n, o ≠ .lock fd n) {Q : Unit → Ghost → Prop} {g : Ghost} (hg : Has g o) (ho : ObjOk o)
    (hQ : ∀ g', g'.Empty → Q () g') : (destroy strerror fuel o).wp Q g := by
  cases o with
  | seq f =>
    obtain ⟨i, hi⟩ := ho
    refine wp_then (.inr ⟨i, hi, (hg.F i).2 hi, fun r => hQ _ (hg.delF (fun j => ?_) (fun _ h => h) (fun _ h => h)
      (fun l => by cases l <;> rfl))⟩)
    show f.fd = j ↔ j = i
    omega
  | logger fd =>
    obtain ⟨i, hi⟩ := ho
    refine wp_then (.inr ⟨i, hi, (hg.F i).2 hi, fun r => hQ _ (hg.delF (fun j => ?_) (fun _ h => h) (fun _ h => h)
      (fun l => by cases l <;> rfl))⟩)
    show fd = j ↔ j = i
    omega
  | lock fd n => exact absurd rfl (hl fd n)
  | mmap f =>
    unfold destroy mmapDestroy
    refine wp_then ⟨(hg.M _).2 rfl, fun r => wp_Release ?_ (hQ _ ?_)⟩
    · show 0 < g.grant .mmap
      rw [hg.grant]; exact Nat.one_pos
    · refine ⟨empty_of_mem fun j hj => (hg.F j).1 hj, empty_of_mem fun j hj => ?_, empty_of_mem fun j hj => (hg.N j).1 hj,
        fun l => ?_, fun l => hg.pend l⟩
      · have hj := mem_del.1 hj
        exact hj.2 ((hg.M j).1 hj.1).symm
      · have h1 := hg.grant .mmap
        have h2 := hg.grant .fd
        cases l
        · show g.grant .mmap - 1 = 0
          rw [h1]; rfl
        · show g.grant .fd = 0
          rw [h2]; rfl
  | wr f =>
    unfold destroy wDestroy
    obtain ⟨hf, b, hb⟩ := ho
    by_cases h0 : f.fd ≥ 0
    · simp only [if_pos h0]
      refine wp_bind (wp_Close strerror fuel hb (hg.fd hf fun i e => e) (spec_close_wr hg hf fun r g' h s => ?_))
      have h := h { f with pos := 0, fd := -1 } rfl
      refine hQ _ ⟨empty_of_mem fun j hj => ?_, empty_of_mem fun j hj => (h.M j).1 hj,
        empty_of_mem fun j hj => (h.N j).1 hj, fun l => ?_, h.pend⟩
      · have : (-1 : Int) = j := (h.F j).1 hj
        omega
      · rw [h.grant]; cases l <;> rfl
    · simp only [if_neg h0]
      refine hQ _ ⟨empty_of_mem fun j hj => ?_, empty_of_mem fun j hj => (hg.M j).1 hj,
        empty_of_mem fun j hj => (hg.N j).1 hj, fun l => ?_, hg.pend⟩
      · have : f.fd = j := (hg.F j).1 hj
        omega
      · rw [hg.grant]; cases l <;> rfl
  | rand f =>
    unfold destroy randDestroy
    by_cases hp : f.has_permanent_fd = true
    · simp only [if_pos hp]
      have ho : ∃ i : Nat, f.fd = i := by
        have ho : if f.has_permanent_fd then ∃ i : Nat, f.fd = i else f.fd = -1 := ho
        simpa only [if_pos hp] using ho
      obtain ⟨i, hi⟩ := ho
      refine wp_ofM (cassert_true (by rw [hi]; exact decide_eq_true (nat_ne_neg i))) ?_
      refine wp_then (.inr ⟨i, hi, (hg.F i).2 ⟨hp, hi⟩, fun r => wp_Release ?_ (hQ _ ?_)⟩)
      · show 0 < g.grant .fd
        rw [hg.grant]
        show 0 < if f.has_permanent_fd = true then 1 else 0
        rw [if_pos hp]; omega
      · refine ⟨empty_of_mem fun j hj => ?_, empty_of_mem fun j hj => (hg.M j).1 hj, empty_of_mem fun j hj => (hg.N j).1 hj,
          fun l => ?_, fun l => hg.pend l⟩
        · have hj := mem_del.1 hj
          have : f.fd = j := ((hg.F j).1 hj.1).2
          omega
        · have h1 := hg.grant .mmap
          have h2 := hg.grant .fd
          cases l
          · show g.grant .mmap = 0
            rw [h1]; rfl
          · show g.grant .fd - 1 = 0
            rw [h2]
            show (if f.has_permanent_fd = true then 1 else 0) - 1 = 0
            rw [if_pos hp]
    · simp only [if_neg hp]
      refine hQ _ ⟨empty_of_mem fun j hj => hp ((hg.F j).1 hj).1, empty_of_mem fun j hj => (hg.M j).1 hj,
        empty_of_mem fun j hj => (hg.N j).1 hj, fun l => ?_, hg.pend⟩
      rw [hg.grant]
      cases l
      · rfl
      · show (if f.has_permanent_fd = true then 1 else 0) = 0
        rw [if_neg hp]

/-- What a call may count on when it begins. -/
def Start (op : POp) (o : Option Obj) (g : Ghost) : Prop :=
  (∀ h d, op = .write h (.append d) → d.WF) ∧
  match op with
  | .unlockFile _ => ∃ fd n, o = some (.lock fd n) ∧ Has g (.lock fd n) ∧ ObjOk (.lock fd n)
  | .seqRead _ _ => ∃ f, o = some (.seq f) ∧ Has g (.seq f) ∧ ObjOk (.seq f)
  | .seqSkip _ _ => ∃ f, o = some (.seq f) ∧ Has g (.seq f) ∧ ObjOk (.seq f)
  | .randRead _ _ _ => g.Empty ∧ ((∃ f, o = some (.rand f) ∧
      (if f.has_permanent_fd then ∃ i : Nat, f.fd = i ∧ i ∈ g.B else f.fd = -1)) ∨ ∃ f, o = some (.mmap f))
  | .write _ _ => ∃ f, o = some (.wr f) ∧ Has g (.wr f) ∧ ObjOk (.wr f)
  | .delete _ => ∃ a, o = some a ∧ (∀ fd n, a ≠ .lock fd n) ∧ Has g a ∧ ObjOk a
  | _ => ∃ B, g = Ghost.none B

theorem wp_body {op : POp} {o : Option Obj} {g : Ghost} (h : Start op o g) :
    (body strerror full fuel op o).wp (Done (homeOf op)) g := by
  obtain ⟨hw, h⟩ := h
  cases op with
  | newSequential n => obtain ⟨B, rfl⟩ := h; exact wp_NewSequentialFile strerror
  | newRandomAccess n => obtain ⟨B, rfl⟩ := h; exact wp_NewRandomAccessFile strerror
  | newWritable n => obtain ⟨B, rfl⟩ := h; exact wp_newWFile strerror
  | newAppendable n => obtain ⟨B, rfl⟩ := h; exact wp_newWFile strerror
  | newLogger n => obtain ⟨B, rfl⟩ := h; exact wp_NewLogger strerror
  | lockFile n => obtain ⟨B, rfl⟩ := h; exact wp_LockFile strerror
  | fileExists n =>
    obtain ⟨B, rfl⟩ := h
    refine wp_bind (wp_then fun r => ?_)
    cases r <;> exact none_empty _
  | getChildren d =>
    obtain ⟨B, rfl⟩ := h
    exact wp_bind (wp_GetChildren strerror fuel fun x => none_empty _)
  | removeFile n => obtain ⟨B, rfl⟩ := h; exact wp_bind (wp_then fun r => none_empty _)
  | createDir n => obtain ⟨B, rfl⟩ := h; exact wp_bind (wp_then fun r => none_empty _)
  | removeDir n => obtain ⟨B, rfl⟩ := h; exact wp_bind (wp_then fun r => none_empty _)
  | renameFile a b => obtain ⟨B, rfl⟩ := h; exact wp_bind (wp_then fun r => none_empty _)
  | getFileSize n =>
    obtain ⟨B, rfl⟩ := h
    refine wp_bind (wp_then fun r => ?_)
    cases r <;> exact none_empty _
  | unlockFile hd =>
    obtain ⟨fd, n, rfl, h1, h2⟩ := h
    exact wp_UnlockFile strerror h1 h2
  | seqRead hd n =>
    obtain ⟨f, rfl, h1, i, hi⟩ := h
    exact wp_bind (wp_seqRead strerror fuel (by rw [hi]; exact h1.ok hi) fun r => ⟨⟨hd, rfl⟩, h1, i, hi⟩)
  | seqSkip hd n =>
    obtain ⟨f, rfl, h1, i, hi⟩ := h
    exact wp_bind (wp_seqSkip strerror (by rw [hi]; exact h1.ok hi) fun r => ⟨⟨hd, rfl⟩, h1, i, hi⟩)
  | randRead hd off n =>
    obtain ⟨hg, ⟨f, rfl, hf⟩ | ⟨f, rfl⟩⟩ := h
    · exact wp_bind (wp_randRead strerror hf fun r => hg)
    · exact hg
  | write hd op =>
    obtain ⟨f, rfl, h1, h2⟩ := h
    refine wp_bind (wp_wstep strerror full fuel (fun d hd' => hw hd d (by rw [hd'])) h1 h2 fun s f' g' h1 h2 => ?_)
    exact ⟨⟨hd, rfl⟩, h1, h2⟩
  | delete hd =>
    obtain ⟨a, rfl, hl, h1, h2⟩ := h
    exact wp_bind (wp_destroy strerror fuel hl h1 h2 fun g' h => h)

end Conc
end Posix
end Lsmdb
