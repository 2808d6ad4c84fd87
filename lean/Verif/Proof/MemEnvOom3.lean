import Verif.Proof.MemEnvOom2

/-!
# A file nobody can reach stays allocated
-/

namespace Lsmdb
namespace MemEnv
open Spec Status

/-- File `i` is allocated, has no name and no file object. -/
structure Orphan (i : Nat) (e : Env) : Prop where
  map : ∀ a ∈ e.map, a.2 ≠ some i
  objs : ∀ o, some o ∈ e.objs → o.file ≠ i
  live : ∃ f, e.files[i]? = some (some f)
  freed : e.freed.count i = 0

theorem Orphan.set {i j : Nat} {e : Env} (h : Orphan i e) (hj : j ≠ i) (v : Option FileState) :
    Orphan i { e with files := e.files.set j v } :=
  ⟨h.map, h.objs, by simp only []; rw [List.getElem?_set_ne hj]; exact h.live, h.freed⟩

theorem Orphan.ref {i : Nat} {e e' : Env} (h : Orphan i e) {p : Option Nat} (hp : p ≠ some i)
    (hr : Ref e p = .ok e') : Orphan i e' ∧ e'.map = e.map ∧ e'.objs = e.objs := by
  unfold Ref at hr
  obtain ⟨⟨j, f⟩, h1, h2⟩ := bind_ok hr
  obtain ⟨rfl, _⟩ := getFile_live h1
  simp only [] at h2
  split at h2
  · cases h2
  · cases h2
    exact ⟨h.set (fun e => hp (by rw [e])) _, rfl, rfl⟩

theorem Orphan.unref {i : Nat} {e e' : Env} (h : Orphan i e) {p : Option Nat} (hp : p ≠ some i)
    (hr : Unref e p = .ok e') : Orphan i e' ∧ e'.map = e.map ∧ e'.objs = e.objs := by
  unfold Unref at hr
  obtain ⟨⟨j, f⟩, h1, h2⟩ := bind_ok hr
  obtain ⟨rfl, _⟩ := getFile_live h1
  obtain ⟨_, h3, h4⟩ := bind_ok h2
  have hj : j ≠ i := fun e => hp (by rw [e])
  simp only [] at h4
  split at h4
  · cases h4
    have := h.set hj none
    exact ⟨⟨this.map, this.objs, this.live, by simp [List.count_append, h.freed, hj]⟩, rfl, rfl⟩
  · cases h4
    exact ⟨h.set hj _, rfl, rfl⟩

theorem Orphan.newFile {i : Nat} {e : Env} (h : Orphan i e) :
    Orphan i (newFile e).2 ∧ (newFile e).1 ≠ some i := by
  obtain ⟨f, hf⟩ := h.live
  have hl := (List.getElem?_eq_some_iff.1 hf).1
  refine ⟨⟨h.map, h.objs, ⟨f, ?_⟩, h.freed⟩, ?_⟩
  · simp only [MemEnv.newFile]; rw [List.getElem?_append_left hl]; exact hf
  · simp only [MemEnv.newFile]; intro he; cases he; omega

theorem Orphan.newObjO {i : Nat} {mem : Mem} {e e' : Env} (h : Orphan i e) {p : Option Nat} (hp : p ≠ some i)
    {mk : Nat → Obj} (hmk : ∀ j, (mk j).file = j) {r : Option Res}
    (hr : newObjO mem e p mk = .ok (e', r)) : Orphan i e' := by
  unfold MemEnv.newObjO at hr
  split at hr
  · obtain ⟨⟨x, e1⟩, h1, h2⟩ := bind_ok hr
    cases h2
    unfold newObj at h1
    obtain ⟨e2, h3, h4⟩ := bind_ok h1
    obtain ⟨g, _, _⟩ := h.ref hp h3
    cases p with
    | none => cases h4
    | some j =>
      cases h4
      refine ⟨g.map, ?_, g.live, g.freed⟩
      intro o ho
      rcases List.mem_append.1 ho with ho | ho
      · exact g.objs o ho
      · simp only [List.mem_singleton, Option.some.injEq] at ho
        rw [ho, hmk]; intro he; exact hp (by rw [he])
  · cases hr; exact h

theorem Orphan.find {i : Nat} {e : Env} (h : Orphan i e) {n : Bytes} {p : Option Nat}
    (hf : mapFind e.map n = some p) : p ≠ some i := h.map _ (mapFind_mem hf)

theorem Orphan.mapSet {i : Nat} {e : Env} (h : Orphan i e) {n : Bytes} {p : Option Nat} (hp : p ≠ some i) :
    Orphan i { e with map := mapSet e.map n p } :=
  ⟨fun a ha => by
    rcases mem_mapSet ha with ha | ha
    · rw [ha]; exact hp
    · exact h.map a ha, h.objs, h.live, h.freed⟩

theorem Orphan.mapErase {i : Nat} {e : Env} (h : Orphan i e) {n : Bytes} :
    Orphan i { e with map := mapErase e.map n } :=
  ⟨fun a ha => h.map a (List.mem_filter.1 ha).1, h.objs, h.live, h.freed⟩

theorem Orphan.index {i : Nat} {e : Env} (h : Orphan i e) (n : Bytes) :
    Orphan i { e with map := (mapIndex e.map n).2 } ∧ (mapIndex e.map n).1 ≠ some i := by
  unfold mapIndex
  cases hf : mapFind e.map n with
  | none => exact ⟨h.mapSet (by simp), by simp⟩
  | some p => exact ⟨h, h.find hf⟩

theorem Orphan.getObj {i : Nat} {e : Env} (h : Orphan i e) {x : Nat} {o : Obj}
    (hx : getObj e x = .ok o) : o.file ≠ i := by
  unfold MemEnv.getObj at hx
  cases ho : e.objs[x]? with
  | none => rw [ho] at hx; cases hx
  | some v =>
    rw [ho] at hx
    cases v with
    | none => cases hx
    | some o' => cases hx; exact h.objs _ (List.mem_of_getElem? ho)

theorem Orphan.setObj {i : Nat} {e : Env} (h : Orphan i e) {x : Nat} {o : Option Obj}
    (ho : ∀ o', o = some o' → o'.file ≠ i) : Orphan i { e with objs := e.objs.set x o } :=
  ⟨h.map, fun o' h' => by
    rcases List.mem_or_eq_of_mem_set h' with h' | h'
    · exact h.objs o' h'
    · exact ho o' h'.symm, h.live, h.freed⟩

theorem Orphan.remove {i : Nat} {e e' : Env} (h : Orphan i e) {n : Bytes}
    (hr : RemoveFileInternal e n = .ok e') : Orphan i e' := by
  unfold RemoveFileInternal at hr
  cases hf : mapFind e.map n with
  | none => rw [hf] at hr; cases hr; exact h
  | some p =>
    rw [hf] at hr
    simp only [mapIndex_some hf] at hr
    obtain ⟨e1, h1, h2⟩ := bind_ok hr
    cases h2
    exact (h.unref (h.find hf) h1).1.mapErase

theorem Orphan.unrefAll {i : Nat} : ∀ (m : FileMap) {e e' : Env}, Orphan i e → (∀ a ∈ m, a.2 ≠ some i) →
    unrefAll m e = .ok e' → Orphan i e'
  | [], e, e', h, _, hr => by cases hr; exact h
  | (_, p) :: r, e, e', h, hm, hr => by
    unfold MemEnv.unrefAll at hr
    obtain ⟨e1, h1, h2⟩ := bind_ok hr
    exact Orphan.unrefAll r (h.unref (hm (_, p) List.mem_cons_self) h1).1 (fun a ha => hm a (List.mem_cons_of_mem _ ha)) h2

theorem Orphan.returnSt {i : Nat} {mem : Mem} {e e' : Env} (h : Orphan i e) {s : St} {r : Res} {q : Option Res}
    (hr : returnSt mem e s r = (e', q)) : Orphan i e' := by
  unfold MemEnv.returnSt at hr
  cases s with
  | ok => cases hr; exact h
  | err c a b =>
    simp only [] at hr
    split at hr <;> cases hr <;> exact h

/-- No call reaches it. -/
theorem Orphan.step {i : Nat} {mem : Mem} {e e' : Env} (h : Orphan i e) {o : Op} {r : Option Res}
    (hr : stepO mem e o = .ok (e', r)) : Orphan i e' := by
  cases o with
  | newSequential n =>
    simp only [stepO, NewSequentialFileO] at hr
    cases hf : mapFind e.map n with
    | none => rw [hf] at hr; simp only [Except.ok.injEq] at hr; exact h.returnSt hr
    | some p =>
      rw [hf] at hr
      exact (h.index n).1.newObjO (h.index n).2 (fun _ => rfl) hr
  | newRandomAccess n =>
    simp only [stepO, NewRandomAccessFileO] at hr
    cases hf : mapFind e.map n with
    | none => rw [hf] at hr; simp only [Except.ok.injEq] at hr; exact h.returnSt hr
    | some p =>
      rw [hf] at hr
      exact (h.index n).1.newObjO (h.index n).2 (fun _ => rfl) hr
  | newWritable n =>
    simp only [stepO, NewWritableFileO] at hr
    obtain ⟨⟨e1, p⟩, h1, h2⟩ := bind_ok hr
    have key : Orphan i e1 ∧ ∀ q, p = some q → q ≠ some i := by
      unfold targetO at h1
      cases hf : mapFind e.map n with
      | none =>
        rw [hf] at h1
        simp only [createO] at h1
        split at h1
        · obtain ⟨e2, h3, h4⟩ := bind_ok h1
          obtain ⟨g, _, _⟩ := h.newFile.1.ref h.newFile.2 h3
          split at h4
          · cases h4
            exact ⟨g.mapSet h.newFile.2, fun q hq => by cases hq; exact h.newFile.2⟩
          · cases h4
            exact ⟨g, fun q hq => by cases hq⟩
        · cases h1; exact ⟨h, fun q hq => by cases hq⟩
      | some q =>
        rw [hf] at h1
        obtain ⟨⟨j, f⟩, h3, h4⟩ := bind_ok h1
        obtain ⟨rfl, _⟩ := getFile_live h3
        have hq := h.find hf
        cases h4
        exact ⟨h.set (fun e => hq (by rw [e])) _, fun q' hq' => by cases hq'; exact hq⟩
    cases p with
    | none => cases h2; exact key.1
    | some q => exact key.1.newObjO (key.2 q rfl) (fun _ => rfl) h2
  | newAppendable n =>
    simp only [stepO, NewAppendableFileO] at hr
    split at hr
    · obtain ⟨g1, g2⟩ := h.index n
      cases hp : (mapIndex e.map n).1 with
      | none =>
        rw [hp] at hr
        simp only [] at hr
        split at hr
        · obtain ⟨e2, h3, h4⟩ := bind_ok hr
          exact (g1.newFile.1.ref g1.newFile.2 h3).1.newObjO g1.newFile.2 (fun _ => rfl) h4
        · cases hr; exact g1
      | some j =>
        rw [hp] at hr g2
        exact g1.newObjO g2 (fun _ => rfl) hr
    · cases hr; exact h
  | fileExists n => cases hr; exact h
  | getChildren d =>
    simp only [stepO, GetChildrenO] at hr
    obtain ⟨⟨s, l⟩, h1, h2⟩ := bind_ok hr
    simp only [] at h2
    split at h2 <;> cases h2 <;> exact h
  | removeFile n =>
    simp only [stepO, RemoveFileO, RemoveFile] at hr
    cases hf : mapFind e.map n with
    | none =>
      rw [hf] at hr
      simp only [bind, Except.bind, pure, Except.pure, Except.ok.injEq] at hr
      exact h.returnSt hr
    | some p =>
      rw [hf] at hr
      obtain ⟨⟨s, e1⟩, h1, h2⟩ := bind_ok hr
      obtain ⟨e2, h3, h4⟩ := bind_ok h1
      cases h4
      simp only [pure, Except.pure, Except.ok.injEq] at h2
      exact (h.remove h3).returnSt h2
  | createDir n => cases hr; exact h
  | removeDir n => cases hr; exact h
  | getFileSize n =>
    simp only [stepO, GetFileSizeO, GetFileSize] at hr
    cases hf : mapFind e.map n with
    | none =>
      rw [hf] at hr
      simp only [bind, Except.bind, pure, Except.pure, Except.ok.injEq] at hr
      exact h.returnSt hr
    | some p =>
      rw [hf] at hr
      obtain ⟨⟨s, v, e1⟩, h1, h2⟩ := bind_ok hr
      obtain ⟨⟨j, f⟩, h3, h4⟩ := bind_ok h1
      cases h4; cases h2
      exact (h.index n).1
  | renameFile a b =>
    simp only [stepO, RenameFileO] at hr
    cases hf : mapFind e.map a with
    | none => rw [hf] at hr; simp only [Except.ok.injEq] at hr; exact h.returnSt hr
    | some p =>
      rw [hf] at hr
      obtain ⟨e1, h1, h2⟩ := bind_ok hr
      obtain ⟨g1, g2⟩ := (h.remove h1).index a
      split at h2 <;> cases h2
      · exact (g1.mapSet g2).mapErase
      · exact g1
  | seqRead x n =>
    simp only [stepO, seqReadO, seqRead] at hr
    obtain ⟨⟨s, d, e1⟩, h1, h2⟩ := bind_ok hr
    obtain ⟨o, h3, h4⟩ := bind_ok h1
    have ho := h.getObj h3
    cases o with
    | rand f => cases h4
    | wr f => cases h4
    | seq file pos =>
      simp only [] at h4
      obtain ⟨⟨j, f⟩, h5, h6⟩ := bind_ok h4
      obtain ⟨⟨s', d'⟩, h7, h8⟩ := bind_ok h6
      simp only [pure, Except.pure, Except.ok.injEq] at h2
      refine Orphan.returnSt ?_ h2
      simp only [] at h8
      cases s' with
      | err c a b => cases h8; exact h
      | ok =>
        cases d' with
        | none => cases h8; exact h
        | some d' => cases h8; exact h.setObj (fun o' ho' => by cases ho'; exact ho)
  | seqSkip x n =>
    simp only [stepO, seqSkipO, seqSkip] at hr
    obtain ⟨⟨s, e1⟩, h1, h2⟩ := bind_ok hr
    obtain ⟨o, h3, h4⟩ := bind_ok h1
    have ho := h.getObj h3
    cases o with
    | rand f => cases h4
    | wr f => cases h4
    | seq file pos =>
      simp only [] at h4
      obtain ⟨⟨j, f⟩, h5, h6⟩ := bind_ok h4
      simp only [pure, Except.pure, Except.ok.injEq] at h2
      refine Orphan.returnSt ?_ h2
      simp only [] at h6
      cases hk : skipCheck pos f.Size with
      | some s' => rw [hk] at h6; cases h6; exact h
      | none =>
        rw [hk] at h6
        simp only [pure, Except.pure, Except.ok.injEq, Prod.mk.injEq] at h6
        rw [← h6.2]
        exact h.setObj (fun o' ho' => by
          simp only [Option.some.injEq] at ho'
          rw [← ho']
          have ho2 : file ≠ i := ho
          simp only [Obj.file]; exact ho2)
  | randRead x off n =>
    simp only [stepO, randReadO] at hr
    obtain ⟨⟨s, d⟩, h1, h2⟩ := bind_ok hr
    simp only [pure, Except.pure, Except.ok.injEq] at h2
    exact h.returnSt h2
  | append x d =>
    simp only [stepO, wrAppendO] at hr
    obtain ⟨o, h3, h4⟩ := bind_ok hr
    have ho := h.getObj h3
    cases o with
    | seq f p => cases h4
    | rand f => cases h4
    | wr file =>
      simp only [] at h4
      obtain ⟨⟨j, f⟩, h5, h6⟩ := bind_ok h4
      obtain ⟨⟨f', b⟩, h7, h8⟩ := bind_ok h6
      obtain ⟨hj, _⟩ := getFile_live h5
      cases hj
      cases h8
      exact h.set ho _
  | close x =>
    simp only [stepO, MemEnv.step] at hr
    obtain ⟨⟨e1, r1⟩, h1, h2⟩ := bind_ok hr
    obtain ⟨s, h3, h4⟩ := bind_ok h1
    cases h4; cases h2; exact h
  | flush x =>
    simp only [stepO, MemEnv.step] at hr
    obtain ⟨⟨e1, r1⟩, h1, h2⟩ := bind_ok hr
    obtain ⟨s, h3, h4⟩ := bind_ok h1
    cases h4; cases h2; exact h
  | sync x =>
    simp only [stepO, MemEnv.step] at hr
    obtain ⟨⟨e1, r1⟩, h1, h2⟩ := bind_ok hr
    obtain ⟨s, h3, h4⟩ := bind_ok h1
    cases h4; cases h2; exact h
  | delete x =>
    simp only [stepO, MemEnv.step, deleteObj] at hr
    obtain ⟨⟨e1, r1⟩, h1, h2⟩ := bind_ok hr
    obtain ⟨e2, h3, h4⟩ := bind_ok h1
    obtain ⟨ob, h5, h6⟩ := bind_ok h3
    obtain ⟨e3, h7, h8⟩ := bind_ok h6
    have ho := h.getObj h5
    cases h8; cases h4; cases h2
    refine (h.unref (fun he => ho ?_) h7).1.setObj (fun o' ho' => by cases ho')
    cases he; rfl
  | destroyEnv =>
    simp only [stepO, MemEnv.step, destroyEnv] at hr
    obtain ⟨⟨e1, r1⟩, h1, h2⟩ := bind_ok hr
    obtain ⟨e2, h3, h4⟩ := bind_ok h1
    obtain ⟨e3, h5, h6⟩ := bind_ok h3
    have g := Orphan.unrefAll _ h h.map h5
    cases h6; cases h4; cases h2
    exact ⟨fun a ha => (nomatch ha), g.objs, g.live, g.freed⟩

theorem Orphan.run {i : Nat} : ∀ (hist : List (Op × Mem)) {e e' : Env} {rs : List (Option Res)},
    Orphan i e → runO e hist = .ok (e', rs) → Orphan i e'
  | [], e, e', rs, h, hr => by cases hr; exact h
  | (o, m) :: os, e, e', rs, h, hr => by
    unfold runO at hr
    obtain ⟨⟨e1, r⟩, h1, h2⟩ := bind_ok hr
    obtain ⟨⟨e2, rs'⟩, h3, h4⟩ := bind_ok h2
    cases h4
    exact Orphan.run os (h.step h1) h3

end MemEnv
end Lsmdb
