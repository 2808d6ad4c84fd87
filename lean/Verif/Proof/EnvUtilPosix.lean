import Verif.Spec.EnvUtil
import Verif.Proof.PosixFrame
import Verif.Props.PosixEnv
import Verif.Props.PosixRead
import Verif.Proof.PosixNs

/-!
# WriteStringToFile and ReadFileToString on the POSIX Env
-/

namespace Lsmdb
namespace Iface

open MemEnv (St lit)
open Posix

theorem Undisturbed.alone {name : Bytes} {c : Choice} (h : Undisturbed name c) (ino : Nat) (fd : Int) : Alone ino fd c := by
  intro k
  obtain ⟨_, h2, h3⟩ := h k
  exact ⟨fun n hn => h2 ino n hn, by unfold Kernel.ofd; rw [h3]⟩

/-- What a computation leaves alone, as a postcondition. -/
theorem Pres.sat {R : Kernel → Kernel → Prop} {α : Type} {x : P α} (hx : Pres R x) {w : World} {Q : α → World → Prop} {C : World → Prop}
    (hc : ∀ c ∈ w.choices, ∀ k, R k (c.other k)) (h : (x w).Sat Q C) :
    (x w).Sat (fun a w' => Q a w' ∧ R w.k w'.k ∧ w'.choices <:+ w.choices) C := by
  cases hr : x w with
  | done a w' => rw [hr] at h; exact ⟨h, hx.out w a w' hc hr⟩
  | crash w' => rw [hr] at h; exact h
  | fault e => rw [hr] at h; exact h

theorem Undisturbed.same {name : Bytes} {cs : List Choice} (h : ∀ c ∈ cs, Undisturbed name c) :
    ∀ c ∈ cs, ∀ k, SameAt (fun k => k.lookup (cstr name)) k (c.other k) := fun c hc k => (h c hc k).1

theorem sat_bindS {α β : Type} {x : StateT PEnv P α} {f : α → StateT PEnv P β} {e : PEnv} {w : World} {Q : β × PEnv → World → Prop}
    {C : World → Prop} (h : (x.run e w).Sat (fun p w' => ((f p.1).run p.2 w').Sat Q C) C) : ((x >>= f).run e w).Sat Q C :=
  Out.Sat.bind h

theorem sat_pureS {α β : Type} {a : α} {f : α → StateT PEnv P β} {e : PEnv} {w : World} {Q : β × PEnv → World → Prop}
    {C : World → Prop} (h : ((f a).run e w).Sat Q C) : ((pure a >>= f).run e w).Sat Q C := h

section
variable (strerror : Strerror) (full : Bool)

theorem get_has {e : PEnv} {h : Nat} {o : Posix.Obj} (he : e.has h o) : e.get h = .ok o := by
  unfold PEnv.get
  rw [show e.objs[h]? = _ from he]

theorem has_set {e : PEnv} {h : Nat} {o o' : Posix.Obj} (he : e.has h o) : PEnv.has { e with objs := e.objs.set h (some o') } h o' := by
  have : h < e.objs.length := by
    have : e.objs[h]? = some (some o) := he
    rw [List.getElem?_eq_some_iff] at this
    exact this.1
  unfold PEnv.has
  simp [this]

theorem write_sat {e : PEnv} {h : Nat} {f : WFile} (he : e.has h (.wr f)) (op : WOp) {w : World} {Q : St × PEnv → World → Prop} {C : World → Prop}
    (hs : (f.step strerror full op w).Sat (fun r w' => Q (r.1, { e with objs := e.objs.set h (some (.wr r.2)) }) w') C) :
    ((posixFiles.write strerror full (.obj h) op).run e w).Sat Q C := by
  show ((do
    let h ← Posix.pureM (Ptr.obj h).deref
    match ← Posix.pureM (e.get h) with
    | .wr f => do
      let (s, f) ← f.step strerror full op
      return (s, { e with objs := e.objs.set h (some (.wr f)) })
    | _ => Posix.pureM (.error .outOfBounds) : P (St × PEnv)) w).Sat Q C
  apply Out.Sat.bind
  apply Out.Sat.pureM (a := h) rfl
  apply Out.Sat.bind
  apply Out.Sat.pureM (get_has he)
  apply Out.Sat.bind
  apply hs.mono
  · intro r w' hq; exact hq
  · intro w' hc; exact hc

theorem delete_sat {e : PEnv} {h : Nat} {f : WFile} (he : e.has h (.wr f)) {w : World} {Q : Unit × PEnv → World → Prop} {C : World → Prop}
    (hs : (f.destroy strerror w).Sat (fun _ w' => Q ((), { e with objs := e.objs.set h none }) w') C) :
    (((posixFiles strerror full).delete (.obj h)).run e w).Sat Q C := by
  show ((do
    let h ← Posix.pureM (Ptr.obj h).deref
    return ((), ← e.delete strerror h) : P (Unit × PEnv)) w).Sat Q C
  apply Out.Sat.bind
  apply Out.Sat.pureM (a := h) rfl
  apply Out.Sat.bind
  unfold PEnv.delete
  apply Out.Sat.bind
  apply Out.Sat.pureM (get_has he)
  apply Out.Sat.bind
  apply hs.mono
  · intro r w' hq; exact hq
  · intro w' hc; exact hc

theorem deleteSeq_sat {e : PEnv} {h : Nat} {f : SeqFile} (he : e.has h (.seq f)) {w : World} {Q : Unit × PEnv → World → Prop} {C : World → Prop}
    (hs : (sysClose f.fd w).Sat (fun _ w' => Q ((), { e with objs := e.objs.set h none }) w') C) :
    (((posixFiles strerror full).delete (.obj h)).run e w).Sat Q C := by
  show ((do
    let h ← Posix.pureM (Ptr.obj h).deref
    return ((), ← e.delete strerror h) : P (Unit × PEnv)) w).Sat Q C
  apply Out.Sat.bind
  apply Out.Sat.pureM (a := h) rfl
  apply Out.Sat.bind
  unfold PEnv.delete
  apply Out.Sat.bind
  apply Out.Sat.pureM (get_has he)
  apply Out.Sat.bind
  apply hs.mono
  · intro r w' hq; exact hq
  · intro w' hc; exact hc

theorem seqRead_sat {e : PEnv} {h : Nat} {f : SeqFile} (he : e.has h (.seq f)) {n : Nat} {w : World}
    {Q : (St × Option Bytes) × PEnv → World → Prop} {C : World → Prop}
    (hs : (f.Read strerror n n w).Sat (fun r w' => Q (r, e) w') C) :
    (((posixFiles strerror full).seqRead (.obj h) n).run e w).Sat Q C := by
  show ((do
    let h ← Posix.pureM (Ptr.obj h).deref
    match ← Posix.pureM (e.get h) with
    | .seq f => do
      let r ← f.Read strerror n n
      return (r, e)
    | _ => Posix.pureM (.error .outOfBounds) : P _) w).Sat Q C
  apply Out.Sat.bind
  apply Out.Sat.pureM (a := h) rfl
  apply Out.Sat.bind
  apply Out.Sat.pureM (get_has he)
  apply Out.Sat.bind
  apply hs.mono
  · intro r w' hq; exact hq
  · intro w' hc; exact hc

/-- Opening for writing. -/
theorem newWritable_sat (e : PEnv) (name : Bytes) (w : World) :
    (e.NewWritableFile strerror name w).Sat (fun r w' => ∃ c, w.choices = c :: w'.choices ∧
      ((r.1 ≠ .ok ∧ r.2.1 = none ∧ w'.k = c.other w.k) ∨
       (r.1 = .ok ∧ cstr name ≠ [] ∧ ∃ i f ino, r.2.1 = some i ∧ r.2.2.has i (.wr f) ∧ w'.k.lookup (cstr name) = some ino ∧
        ((∀ c ∈ w'.choices, Alone ino f.fd c) → Opened name f ino [] w')))) (fun _ => True) := by
  cases hr : e.NewWritableFile strerror name w with
  | crash w' => trivial
  | fault er =>
    unfold PEnv.NewWritableFile PEnv.newWFile at hr
    rw [bind_eq] at hr
    cases h1 : sysOpen .trunc name w with
    | crash w' => rw [h1] at hr; exact nomatch hr
    | fault er => unfold sysOpen sys at h1; cases hc : w.choices <;> rw [hc] at h1 <;> exact nomatch h1
    | done r w' =>
      rw [h1] at hr
      cases r with
      | error er => exact nomatch hr
      | ok fd =>
        obtain ⟨m, d, _, _, h4⟩ := new_eq name fd
        simp only [bind_eq, h4, Posix.pureM] at hr
        exact nomatch hr
  | done r w' =>
    obtain ⟨st, h, e'⟩ := r
    by_cases hst : st = .ok
    · subst hst
      obtain ⟨c, i, f, ino, base, h0, h1, h2, h3, h4, h5⟩ := C47_open strerror e e' .trunc (.inl rfl) name w w' h hr
      rw [if_pos rfl] at h4
      subst h4
      refine ⟨c, h0, .inr ⟨rfl, ?_, i, f, ino, h1, h2, h3, h5⟩⟩
      intro hnil
      unfold PEnv.NewWritableFile PEnv.newWFile at hr
      rw [bind_eq] at hr
      unfold sysOpen sys at hr
      rw [h0] at hr
      simp only [hnil, kopen, if_true] at hr
      cases hf : c.fail <;> simp only [hf] at hr <;>
        (injection hr with hr _; injection hr with hr _; exact absurd hr (PosixError_ne_ok _ _ _))
    · unfold PEnv.NewWritableFile PEnv.newWFile at hr
      rw [bind_eq] at hr
      unfold sysOpen sys at hr
      cases hc : w.choices with
      | nil => rw [hc] at hr; exact nomatch hr
      | cons c cs =>
        rw [hc] at hr
        simp only [] at hr
        have hk : ∀ er k1, kopen .trunc (cstr name) (c.other w.k) = (.error er, k1) → k1 = c.other w.k := by
          intro er k1 hk
          unfold kopen at hk
          dsimp only [] at hk
          repeat' split at hk
          all_goals first | (injection hk with _ hk; exact hk.symm) | (injection hk with hk _; exact nomatch hk)
        cases hf : c.fail with
        | some err =>
          simp only [hf] at hr
          injection hr with h1 h2
          subst h2
          injection h1 with h1 h3
          injection h3 with h3 _
          exact ⟨c, rfl, .inl ⟨hst, h3.symm, rfl⟩⟩
        | none =>
          simp only [hf] at hr
          cases hk2 : kopen .trunc (cstr name) (c.other w.k) with
          | mk r k1 =>
            rw [hk2] at hr
            cases r with
            | error er =>
              injection hr with h1 h2
              subst h2
              injection h1 with h1 h3
              injection h3 with h3 _
              exact ⟨c, rfl, .inl ⟨hst, h3.symm, hk er k1 hk2⟩⟩
            | ok fd =>
              obtain ⟨m, d, _, _, h4⟩ := new_eq name fd
              simp only [bind_eq, h4, Posix.pureM] at hr
              injection hr with h1 h2
              injection h1 with h1 h3
              exact absurd h1.symm hst

/-- The file object while WriteStringToFile works: what is in the file and what is in the buffer. -/
structure Writing (name : Bytes) (ino : Nat) (f : WFile) (D b : Bytes) (O : Bytes → Prop) (w : World) : Prop where
  file : FileAt ino f.fd D O w
  buf : BufHas f b
  named : w.k.lookup (cstr name) = some ino
  quiet : ∀ c ∈ w.choices, Undisturbed name c

/-- The file object whatever happened. -/
structure Touched (name : Bytes) (ino : Nat) (f : WFile) (w : World) : Prop where
  file : ∃ D O, Live ino f D O w
  buf : ∃ b, BufHas f b
  named : w.k.lookup (cstr name) = some ino
  quiet : ∀ c ∈ w.choices, Undisturbed name c

theorem Writing.touched {name : Bytes} {ino : Nat} {f : WFile} {D b : Bytes} {O : Bytes → Prop} {w : World} (h : Writing name ino f D b O w) :
    Touched name ino f w := by
  obtain ⟨h1, h2, h3, h4⟩ := h
  exact ⟨⟨D, O, .inl h1⟩, ⟨b, h2⟩, h3, h4⟩

/-- A call on the file. -/
theorem Writing.step {name : Bytes} {ino : Nat} {f : WFile} {D b : Bytes} {O : Bytes → Prop} {w : World} (h : Writing name ino f D b O w) (op : WOp)
    (hv : ValidOps [op]) :
    (f.step strerror full op w).Sat (fun r w' => Touched name ino r.2 w' ∧ w'.choices <:+ w.choices ∧
      (op ≠ .close → r.1 = .ok → ∃ D' b' O', D' ++ b' = D ++ b ++ opBytes op ∧ Writing name ino r.2 D' b' O' w' ∧
        (op = .sync → b' = [] ∧ ∀ c, ¬ O' c)) ∧
      (op = .close → r.2.fd = -1 ∧ (r.1 = .ok → ∃ O', InoAt ino (D ++ b) O' w' ∧ (b = [] → (∀ c, ¬ O c) → ∀ c, O' c → c = D)))) (fun _ => True) := by
  obtain ⟨h1, h2, h3, h4⟩ := h
  have := Pres.sat (wstep_frame (lookup_frame (cstr name)) strerror full f op) (Undisturbed.same h4) (step_open strerror full op hv h1 h2)
  apply this.mono
  · rintro r w' ⟨⟨p, b', a1, a2, a3, a4, a5, a6, a7, a8⟩, a9, a10⟩
    have hq : ∀ c ∈ w'.choices, Undisturbed name c := fun c hc => h4 c (a10.subset hc)
    have hn : w'.k.lookup (cstr name) = some ino := (show w'.k.lookup (cstr name) = w.k.lookup (cstr name) from a9).trans h3
    refine ⟨⟨⟨_, _, a3⟩, ⟨b', a2⟩, hn, hq⟩, a10, ?_, ?_⟩
    · intro hop hok
      have hD : D ++ p ++ b' = D ++ b ++ opBytes op := by rw [List.append_assoc, a5 hok, List.append_assoc]
      by_cases hsy : op = .sync
      · obtain ⟨_, n, x1, _, _, x4⟩ := a7 hok hsy
        obtain ⟨y0, o, n', y1, y2, y3, y4, y5, y6, y7, _⟩ := (a4 hop).1
        rw [x1] at y5; injection y5 with y5; subst y5
        exact ⟨D ++ p, b', fun _ => False, hD, ⟨⟨y0, o, n, y1, y2, y3, y4, x1, y6, y7, x4⟩, a2, hn, hq⟩,
          fun _ => ⟨a6 hok (.inr (.inl hsy)), fun _ h => h⟩⟩
      · exact ⟨D ++ p, b', _, hD, ⟨(a4 hop).1, a2, hn, hq⟩, fun h => absurd h hsy⟩
    · intro hop
      refine ⟨a8 hop, fun hok => ?_⟩
      have hb := a6 hok (.inr (.inr hop))
      have hp := a5 hok
      subst hb hop
      have hp : p = b := by simpa [opBytes] using hp
      subst hp
      refine ⟨_, a3.ino, ?_⟩
      rintro rfl hO c (hc | ⟨hc1, hc2⟩)
      · exact absurd hc (hO c)
      · rw [List.append_nil] at hc2
        exact (List.IsPrefix.eq_of_length_le hc2 hc1.length_le)
  · intro _ _; trivial

/-- The destructor. -/
theorem Touched.destroy {name : Bytes} {ino : Nat} {f : WFile} {w : World} (h : Touched name ino f w) :
    (f.destroy strerror w).Sat (fun _ w' => w'.k.lookup (cstr name) = some ino ∧ (∃ D, RegularFile w'.k ino D) ∧
      w'.choices <:+ w.choices ∧ (f.fd = -1 → w' = w)) (fun _ => True) := by
  obtain ⟨⟨D, O, h1⟩, ⟨b, h2⟩, h3, h4⟩ := h
  have key : (f.destroy strerror w).Sat (fun _ w' => (∃ D, RegularFile w'.k ino D) ∧ (f.fd = -1 → w' = w)) (fun _ => True) := by
    unfold WFile.destroy
    by_cases hf : f.fd ≥ 0
    · rw [if_pos hf]
      apply Out.Sat.bind
      apply (step_live strerror false .close (by intro d hd; simp at hd) h1 h2).mono
      · rintro r w' ⟨p, b', _, e2⟩
        obtain ⟨_, n, x1, x2, x3, _⟩ := e2.ino
        exact ⟨⟨_, n, x1, x2, x3⟩, fun h => by omega⟩
      · intro _ _; trivial
    · rw [if_neg hf]
      obtain ⟨_, n, x1, x2, x3, _⟩ := h1.ino
      exact ⟨⟨_, n, x1, x2, x3⟩, fun _ => rfl⟩
  apply (Pres.sat (wdestroy_frame (lookup_frame (cstr name)) strerror f) (Undisturbed.same h4) key).mono
  · rintro _ w' ⟨⟨a1, a2⟩, a3, a4⟩
    exact ⟨(show w'.k.lookup (cstr name) = w.k.lookup (cstr name) from a3).trans h3, a1, a4, a2⟩
  · intro _ _; trivial

/-- Removing the file. -/
theorem remove_sat {name : Bytes} {ino : Nat} {w : World} (hn : w.k.lookup (cstr name) = some ino) (hd : ∃ D, RegularFile w.k ino D)
    (hq : ∀ c ∈ w.choices, Undisturbed name c) :
    (RemoveFile strerror name w).Sat (fun _ w' => ∃ c, w.choices = c :: w'.choices ∧
      (w'.k.lookup (cstr name) = none ∨ c.fail ≠ none)) (fun _ => True) := by
  unfold RemoveFile
  apply Out.Sat.bind
  apply Out.Sat.sys
  · intro _; trivial
  · intro c cs hcs
    refine ⟨c, hcs, ?_⟩
    have hc := hq c (by rw [hcs]; exact List.mem_cons_self) w.k
    obtain ⟨D, n, x1, x2, _⟩ := hd
    cases hf : c.fail with
    | some e => exact .inr (fun h => nomatch h)
    | none =>
      refine .inl ?_
      simp only []
      rw [hc.1, hn]
      simp only []
      rw [hc.2.1 _ _ x1]
      simp [x2, lookup_setName]

/-- WriteStringToFile. -/
theorem posix_write_sat (pr : Process) (e : PEnv) (data : Slice) (hd : data.WF) (name : Bytes) (sync : Bool) (w : World)
    (hq : ∀ c ∈ w.choices, Undisturbed name c) :
    ((DoWriteStringToFile (PosixEnv strerror pr) (posixFiles strerror full) data name sync).run e w).Sat
      (fun r w' => w'.choices <:+ w.choices ∧ (r.1 = .ok → Holds w'.k name data.bytes ∧ (sync = true → Durable w'.k name data.bytes)) ∧
        (r.1 ≠ .ok → (∃ c, w.choices = c :: w'.choices ∧ w'.k = c.other w.k) ∨
          ∃ used c, w.choices = used ++ c :: w'.choices ∧ (w'.k.lookup (cstr name) = none ∨ c.fail ≠ none)))
      (fun _ => True) := by
  unfold DoWriteStringToFile
  apply sat_bindS
  show ((do
    let (s, h, e) ← e.NewWritableFile strerror name
    return ((s, Ptr.of h), e) : P ((St × Ptr) × PEnv)) w).Sat _ _
  apply Out.Sat.bind
  apply (newWritable_sat strerror e name w).mono
  · rintro ⟨st, h, e1⟩ w1 ⟨c, hcs, ⟨h1, h2, h3⟩ | ⟨h1, hnn, i, f, ino, h2, h3, h4, h5⟩⟩
    · simp only at h1 h2
      apply Out.Sat.pure
      dsimp only []
      rw [if_pos h1]
      exact ⟨by rw [hcs]; exact List.suffix_cons _ _, fun h => absurd h h1, fun _ => .inl ⟨c, hcs, h3⟩⟩
    · simp only at h1 h2 h3
      subst h1 h2
      apply Out.Sat.pure
      dsimp only []
      rw [if_neg (by simp)]
      have hsuf1 : w1.choices <:+ w.choices := by rw [hcs]; exact List.suffix_cons _ _
      have hq1 : ∀ c ∈ w1.choices, Undisturbed name c := fun c hc => hq c (hsuf1.subset hc)
      have ho := h5 (fun c hc => Undisturbed.alone (hq1 c hc) _ _)
      have hw : Writing name ino f [] [] _ w1 := ⟨ho.fileAt, ho.buf.1, h4, hq1⟩
      -- what happens once the file object is to be deleted
      have hend : ∀ (e : PEnv) (f : WFile) (w2 : World) (st : St), e.has i (.wr f) → w2.choices <:+ w.choices → Touched name ino f w2 →
          (st = .ok → f.fd = -1 ∧ RegularFile w2.k ino data.bytes ∧ (sync = true → ∀ c, CouldBe w2.k ino c ↔ c = data.bytes)) →
          ((do
            (posixFiles strerror full).delete (Ptr.obj i)
            if st ≠ .ok then do
              let _ ← (PosixEnv strerror pr).RemoveFile name
              return st
            else return st : StateT PEnv P St).run e w2).Sat
            (fun r w' => w'.choices <:+ w.choices ∧ (r.1 = .ok → Holds w'.k name data.bytes ∧ (sync = true → Durable w'.k name data.bytes)) ∧
              (r.1 ≠ .ok → (∃ c, w.choices = c :: w'.choices ∧ w'.k = c.other w.k) ∨
                ∃ used c, w.choices = used ++ c :: w'.choices ∧ (w'.k.lookup (cstr name) = none ∨ c.fail ≠ none))) (fun _ => True) := by
        intro e f w2 st he hsuf ht hok
        apply sat_bindS
        apply delete_sat strerror full he
        apply (Touched.destroy strerror ht).mono
        · rintro _ w3 ⟨a1, a2, a3, a4⟩
          dsimp only []
          by_cases hst : st = .ok
          · rw [if_neg (by simp [hst])]
            obtain ⟨b1, b2, b3⟩ := hok hst
            have := a4 b1
            subst this
            exact ⟨hsuf, fun _ => ⟨⟨hnn, ino, a1, b2⟩, fun h => ⟨ino, a1, b3 h⟩⟩, fun h => absurd hst h⟩
          · rw [if_pos hst]
            have hq3 : ∀ c ∈ w3.choices, Undisturbed name c := fun c hc => hq c ((a3.trans hsuf).subset hc)
            apply sat_bindS
            show ((do
              let a ← RemoveFile strerror name
              return (a, _) : P _) w3).Sat _ _
            apply Out.Sat.bind
            apply (remove_sat strerror a1 a2 hq3).mono
            · rintro s w4 ⟨c4, x1, x2⟩
              have hsuf4 : w4.choices <:+ w3.choices := by rw [x1]; exact List.suffix_cons _ _
              refine ⟨hsuf4.trans (a3.trans hsuf), fun h => absurd h hst, fun _ => .inr ?_⟩
              obtain ⟨used, hu⟩ := a3.trans hsuf
              exact ⟨used, c4, by rw [← x1, hu], x2⟩
            · intro _ _; trivial
        · intro _ _; trivial
      apply sat_bindS
      show ((posixFiles.write strerror full (.obj i) (.append data)).run e1 w1).Sat _ _
      apply write_sat strerror full h3
      apply (hw.step strerror full (.append data) (by intro d hd'; simp at hd'; subst hd'; exact hd)).mono
      · rintro ⟨st2, f2⟩ w2 ⟨b1, b2, b3, -⟩
        dsimp only at b1 b3 ⊢
        have he2 : PEnv.has { e1 with objs := e1.objs.set i (some (.wr f2)) } i (.wr f2) := has_set h3
        generalize { e1 with objs := e1.objs.set i (some (.wr f2)) } = e2 at he2
        -- closing
        have hclose : ∀ (e : PEnv) (f : WFile) (w3 : World), e.has i (.wr f) → w3.choices <:+ w.choices →
            (∃ D b O, D ++ b = data.bytes ∧ Writing name ino f D b O w3 ∧ (sync = true → b = [] ∧ ∀ c, ¬ O c)) →
            ((do
              let s ← (posixFiles strerror full).close (Ptr.obj i)
              (posixFiles strerror full).delete (Ptr.obj i)
              if s ≠ .ok then do
                let _ ← (PosixEnv strerror pr).RemoveFile name
                return s
              else return s : StateT PEnv P St).run e w3).Sat
              (fun r w' => w'.choices <:+ w.choices ∧ (r.1 = .ok → Holds w'.k name data.bytes ∧ (sync = true → Durable w'.k name data.bytes)) ∧
                (r.1 ≠ .ok → (∃ c, w.choices = c :: w'.choices ∧ w'.k = c.other w.k) ∨
                  ∃ used c, w.choices = used ++ c :: w'.choices ∧ (w'.k.lookup (cstr name) = none ∨ c.fail ≠ none))) (fun _ => True) := by
          rintro e f w3 he hsuf ⟨D, b, O, hD, hw, hsy⟩
          apply sat_bindS
          show ((posixFiles.write strerror full (.obj i) .close).run e w3).Sat _ _
          apply write_sat strerror full he
          apply (hw.step strerror full .close (by intro d hd'; simp at hd')).mono
          · rintro ⟨st4, f4⟩ w4 ⟨d1, d2, -, d3⟩
            obtain ⟨d3, d4⟩ := d3 rfl
            dsimp only at d1 d3 d4 ⊢
            refine hend _ f4 w4 st4 (has_set he) (d2.trans hsuf) d1 (fun hok => ⟨d3, ?_⟩)
            obtain ⟨O', x1, x2⟩ := d4 hok
            rw [hD] at x1
            obtain ⟨-, n, y1, y2, y3, y4⟩ := x1
            refine ⟨⟨n, y1, y2, y3⟩, fun hs => ?_⟩
            obtain ⟨z1, z2⟩ := hsy hs
            subst z1
            intro c
            constructor
            · rintro ⟨n', g1, g2 | g2⟩
              · rw [y1] at g1; injection g1 with g1; rw [g2, ← g1, y3]
              · rw [y1] at g1; injection g1 with g1
                rw [← hD, List.append_nil]
                exact x2 rfl z2 c (y4 c (g1 ▸ g2))
            · rintro rfl; exact ⟨n, y1, .inl y3.symm⟩
          · intro _ _; trivial
        by_cases hst : st2 = .ok
        · obtain ⟨D, b, O, hD, hw2, -⟩ := b3 (fun h => nomatch h) hst
          have hD : D ++ b = data.bytes := by simpa [opBytes] using hD
          cases sync with
          | false =>
            rw [if_neg (by simp)]
            apply sat_pureS
            rw [if_pos hst]
            exact hclose e2 f2 w2 he2 (b2.trans hsuf1) ⟨D, b, O, hD, hw2, fun h => (nomatch h)⟩
          | true =>
            rw [if_pos ⟨hst, rfl⟩]
            apply sat_bindS
            show ((posixFiles.write strerror full (.obj i) .sync).run e2 w2).Sat _ _
            apply write_sat strerror full he2
            apply (hw2.step strerror full .sync (by intro d hd'; simp at hd')).mono
            · rintro ⟨st3, f3⟩ w3 ⟨c1, c2, c3, -⟩
              dsimp only at c1 c3 ⊢
              by_cases hst3 : st3 = .ok
              · rw [if_pos hst3]
                obtain ⟨D', b', O', hD', hw3, hsy⟩ := c3 (fun h => nomatch h) hst3
                exact hclose _ f3 w3 (has_set he2) (c2.trans (b2.trans hsuf1)) ⟨D', b', O', by rw [hD', hD]; simp [opBytes], hw3, fun _ => hsy rfl⟩
              · rw [if_neg hst3]
                apply sat_pureS
                exact hend _ f3 w3 st3 (has_set he2) (c2.trans (b2.trans hsuf1)) c1 (fun h => absurd h hst3)
            · intro _ _; trivial
        · rw [if_neg (fun h => hst h.1)]
          apply sat_pureS
          rw [if_neg hst]
          apply sat_pureS
          exact hend e2 f2 w2 st2 he2 (b2.trans hsuf1) b1 (fun h => absurd h hst)
      · intro _ _; trivial
  · intro _ _; trivial

end

end Iface
end Lsmdb
