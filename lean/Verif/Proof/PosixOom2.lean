import Verif.Proof.PosixOom1

/-! What a call that throws leaves behind. -/

namespace Lsmdb
namespace Posix

open MemEnv (St lit)

variable (strerror : Strerror) (full : Bool) {ext extm : Nat → Prop} {L1 L2 : Int}

/-- The accounts are right but for at most `nf` descriptors, and `k` slots with at most as many mappings. -/
def AccL (ext extm : Nat → Prop) (L1 L2 : Int) (nf k : Nat) (e : PEnv) (w : World) : Prop :=
  ∃ F M : List Nat, F.length ≤ nf ∧ M.length ≤ k ∧ (∀ i ∈ F, ¬ ext i) ∧ (∀ m ∈ M, ¬ extm m) ∧
    Acc (fun i => ext i ∨ i ∈ F) (fun m => extm m ∨ m ∈ M) (L1 - k) L2 e w

theorem Own.reext {ext ext' extm extm' : Nat → Prop} {objs : List (Option Obj)} {S T : Nat → Prop}
    (H : Own ext extm objs S T) (h1 : ∀ i, ext' i ↔ ext i) (h2 : ∀ i, extm' i ↔ extm i) : Own ext' extm' objs S T :=
  ⟨fun i => by rw [h1 i]; exact H.fds i, H.fd_uniq, fun h o i a b => by rw [h1 i]; exact H.fd_ext h o i a b,
    fun i => by rw [h2 i]; exact H.maps i, H.map_uniq, fun h o i a b => by rw [h2 i]; exact H.map_ext h o i a b, H.ok⟩

theorem Acc.reext {ext ext' extm extm' : Nat → Prop} {L1 L1' : Int} {e : PEnv} {w : World} (h : Acc ext extm L1 L2 e w)
    (h1 : ∀ i, ext' i ↔ ext i) (h2 : ∀ i, extm' i ↔ extm i) (h3 : L1' = L1) : Acc ext' extm' L1' L2 e w := by
  obtain ⟨S, T, ⟨a, b, c⟩, d⟩ := h
  subst h3
  exact ⟨S, T, ⟨a.reext h1 h2, b, c⟩, d⟩

theorem AccL.of {e : PEnv} {w : World} (h : Acc ext extm L1 L2 e w) : AccL ext extm L1 L2 0 0 e w :=
  ⟨[], [], Nat.le_refl _, Nat.le_refl _, by simp, by simp, Acc.reext h (by simp) (by simp) (by simp)⟩

theorem AccL.mono {e : PEnv} {w : World} {n n' k : Nat} (h : AccL ext extm L1 L2 n k e w) (hn : n ≤ n') :
    AccL ext extm L1 L2 n' k e w := by
  obtain ⟨F, M, a, b, c⟩ := h
  exact ⟨F, M, by omega, b, c⟩

/-- Descriptor `i` belongs to nobody from now on. -/
theorem Own.loseFd {objs : List (Option Obj)} {S T : Nat → Prop} (H : Own ext extm objs S T) {i : Nat} (hi : ¬ S i) :
    Own (fun j => ext j ∨ j = i) extm objs (fun j => S j ∨ j = i) T := by
  refine ⟨?_, H.fd_uniq, ?_, H.maps, H.map_uniq, H.map_ext, H.ok⟩
  · intro j
    rw [H.fds j]
    constructor
    · rintro ((h | h) | h)
      · exact .inl (.inl h)
      · exact .inr h
      · exact .inl (.inr h)
    · rintro ((h | h) | h)
      · exact .inl (.inl h)
      · exact .inr h
      · exact .inl (.inr h)
  · rintro h o j ho hj (hx | rfl)
    · exact H.fd_ext h o j ho hj hx
    · exact hi ((H.fds j).2 (.inr ⟨h, o, ho, hj⟩))

theorem Own.loseMap {objs : List (Option Obj)} {S T : Nat → Prop} (H : Own ext extm objs S T) {i : Nat} (hi : ¬ T i) :
    Own ext (fun j => extm j ∨ j = i) objs S (fun j => T j ∨ j = i) := by
  refine ⟨H.fds, H.fd_uniq, H.fd_ext, ?_, H.map_uniq, ?_, H.ok⟩
  · intro j
    rw [H.maps j]
    constructor
    · rintro ((h | h) | h)
      · exact .inl (.inl h)
      · exact .inr h
      · exact .inl (.inr h)
    · rintro ((h | h) | h)
      · exact .inl (.inl h)
      · exact .inr h
      · exact .inl (.inr h)
  · rintro h o j ho hj (hx | rfl)
    · exact H.map_ext h o j ho hj hx
    · exact hi ((H.maps j).2 (.inr ⟨h, o, ho, hj⟩))

theorem EInv.loseFd {e : PEnv} {S T : Nat → Prop} {w : World} {i : Nat} (H : EInv ext extm L1 L2 e S T)
    (hi : ¬ S i) (hw : Res (fun j => S j ∨ j = i) T w) : AccL ext extm L1 L2 1 0 e w := by
  refine ⟨[i], [], Nat.le_refl _, Nat.le_refl _, ?_, by simp, ?_⟩
  · intro j hj hx
    rw [List.mem_singleton] at hj; subst hj
    exact hi ((H.own.fds j).2 (.inl hx))
  · exact Acc.reext (ext := fun j => ext j ∨ j = i) (extm := extm) (L1 := L1)
      ⟨_, _, ⟨H.own.loseFd hi, H.mm, H.fd⟩, hw⟩ (by simp) (by simp) (by simp)

/-- One slot fewer, for ever. -/
theorem Slots.lose {L : Int} {n : Nat} {v : Int} (h : Slots L (n + 1) v) : Slots (L - 1) n v := by
  obtain ⟨a, b, c⟩ := h
  unfold IsInt at a
  refine ⟨?_, ?_, ?_⟩
  · unfold IsInt; omega
  · omega
  · omega

/-- What `Post` says of an answer: a call that throws or waits for ever loses at most `nf` descriptors, `k` slots. -/
def Post (ext extm : Nat → Prop) (L1 L2 : Int) (nf k : Nat) (r : OEnv × Ans) (w : World) : Prop :=
  r.2 = .threw ∨ r.2 = .hangs → ∃ k', k' ≤ k ∧ AccL ext extm L1 L2 nf k' r.1.env w

theorem Post.res {nf k : Nat} {E : OEnv} {r : PRes} {w : World} : Post ext extm L1 L2 nf k (E, .res r) w := by
  rintro (h | h) <;> exact nomatch h

theorem Post.ended {nf k : Nat} {E : OEnv} {w : World} : Post ext extm L1 L2 nf k (E, .ended) w := by
  rintro (h | h) <;> exact nomatch h

theorem Post.of {nf k : Nat} {r : OEnv × Ans} {w : World} (h : AccL ext extm L1 L2 nf 0 r.1.env w) :
    Post ext extm L1 L2 nf k r w := fun _ => ⟨0, Nat.zero_le _, h⟩

theorem Post.acc {nf k : Nat} {r : OEnv × Ans} {w : World} (h : Acc ext extm L1 L2 r.1.env w) :
    Post ext extm L1 L2 nf k r w := Post.of ((AccL.of h).mono (Nat.zero_le _))

theorem Post.answer {nf k : Nat} {E : OEnv} {mem : PMem} {s : St} {r : PRes} {w : World}
    (h : Acc ext extm L1 L2 E.env w) : Post ext extm L1 L2 nf k (E.answer mem s r) w := by
  unfold OEnv.answer
  cases raise mem s with
  | none => exact Post.acc h
  | some _ => exact Post.res

theorem Post.hand {nf k : Nat} {E : OEnv} {mem : PMem} {o : Obj} {w : World} (h : AccL ext extm L1 L2 nf 0 E.env w) :
    Post ext extm L1 L2 nf k (E.hand mem o) w := by
  unfold OEnv.hand
  cases mem.object with
  | true => exact Post.res
  | false => exact Post.of h

theorem NewSequentialO_post {E : OEnv} {w : World} (h : Acc ext extm L1 L2 E.env w) (mem : PMem) (n : Bytes) :
    (E.NewSequentialFile strerror mem n w).Sat (Post ext extm L1 L2 1 0) (fun _ => True) := by
  obtain ⟨S, T, H, hw⟩ := h
  unfold OEnv.NewSequentialFile
  apply Out.Sat.bind
  apply true_mono (sysOpen_res hw .rdonly n)
  rintro r w1 (⟨err, rfl, h1⟩ | ⟨i, rfl, hi, h1⟩)
  · exact Post.answer ⟨S, T, H, h1⟩
  · exact Post.hand (H.loseFd hi h1)

theorem newWFileO_post {E : OEnv} {w : World} (h : Acc ext extm L1 L2 E.env w) (mem : PMem) (m : Mode) (n : Bytes) :
    (E.newWFile strerror mem m n w).Sat (Post ext extm L1 L2 1 0) (fun _ => True) := by
  obtain ⟨S, T, H, hw⟩ := h
  unfold OEnv.newWFile
  apply Out.Sat.bind
  apply true_mono (sysOpen_res hw m n)
  rintro r w1 (⟨err, rfl, h1⟩ | ⟨i, rfl, hi, h1⟩)
  · exact Post.answer ⟨S, T, H, h1⟩
  · simp only []
    apply Out.Sat.bind
    obtain ⟨m', d, _, _, h3⟩ := new_eq n (i : Int)
    apply Out.Sat.pureM h3
    exact Post.hand (H.loseFd hi h1)

theorem NewLoggerO_post {E : OEnv} {w : World} (h : Acc ext extm L1 L2 E.env w) (mem : PMem) (n : Bytes) :
    (E.NewLogger strerror mem n w).Sat (Post ext extm L1 L2 1 0) (fun _ => True) := by
  obtain ⟨S, T, H, hw⟩ := h
  unfold OEnv.NewLogger
  apply Out.Sat.bind
  apply true_mono (sysOpen_res hw .append n)
  rintro r w1 (⟨err, rfl, h1⟩ | ⟨i, rfl, hi, h1⟩)
  · exact Post.answer ⟨S, T, H, h1⟩
  · simp only []
    apply Out.Sat.bind
    apply true_mono (sysOther_res h1)
    intro r w2 h2
    cases r with
    | ok _ => exact Post.hand (H.loseFd hi h2)
    | error e =>
      simp only []
      apply Out.Sat.bind
      apply true_mono (sysClose_res h2 i (.inr rfl))
      intro r w3 h3
      have h4 : Res S T w3 := h3.congr (add_remove hi) (fun _ => Iff.rfl)
      cases r <;> exact Post.answer ⟨S, T, H, h4⟩

theorem LockFileO_post {E : OEnv} {w : World} (h : Acc ext extm L1 L2 E.env w) (mem : PMem) (n : Bytes) :
    (E.LockFile strerror mem n w).Sat (Post ext extm L1 L2 1 0) (fun _ => True) := by
  obtain ⟨S, T, H, hw⟩ := h
  unfold OEnv.LockFile
  apply Out.Sat.bind
  apply true_mono (sysOpen_res hw .rdwr n)
  rintro r w1 (⟨err, rfl, h1⟩ | ⟨i, rfl, hi, h1⟩)
  · exact Post.answer ⟨S, T, H, h1⟩
  · simp only []
    have H' : ∀ l, EInv ext extm L1 L2 { E.env with locks := l } S T := fun l => ⟨H.own, H.mm, H.fd⟩
    cases hL : E.locked with
    | true => simp only [↓reduceIte]; exact Post.of (H.loseFd hi h1)
    | false =>
      simp only [Bool.false_eq_true, ↓reduceIte]
      cases hins : (lockInsert E.env.locks n).1 with
      | true =>
        simp only [↓reduceIte]
        cases hn : mem.node with
        | false => simp only [Bool.false_eq_true, ↓reduceIte]; exact Post.of (H.loseFd hi h1)
        | true =>
          simp only [↓reduceIte]
          apply Out.Sat.bind
          apply true_mono (sysOther_res h1)
          intro r w2 h2
          cases r with
          | ok _ => exact Post.hand ((H' _).loseFd hi h2)
          | error e =>
            simp only []
            apply Out.Sat.bind
            apply true_mono (sysClose_res h2 i (.inr rfl))
            intro r w3 h3
            exact Post.answer ⟨S, T, H' _, h3.congr (add_remove hi) (fun _ => Iff.rfl)⟩
      | false =>
        simp only [Bool.false_eq_true, ↓reduceIte]
        apply Out.Sat.bind
        apply true_mono (sysClose_res h1 i (.inr rfl))
        intro r w3 h3
        exact Post.answer ⟨S, T, H, h3.congr (add_remove hi) (fun _ => Iff.rfl)⟩

theorem UnlockFileO_post {E : OEnv} {w : World} (h : Acc ext extm L1 L2 E.env w) (mem : PMem) {hd : Nat} {fd : Int}
    {n : Bytes} (ho : E.env.has hd (.lock fd n)) :
    (E.UnlockFile strerror mem hd w).Sat (Post ext extm L1 L2 0 0) (fun _ => True) := by
  obtain ⟨S, T, H, hw⟩ := h
  unfold OEnv.UnlockFile
  apply Out.Sat.bind
  apply Out.Sat.pureM (get_has ho)
  simp only []
  apply Out.Sat.bind
  apply true_mono (sysOther_res hw)
  intro r w1 h1
  cases r with
  | error err => exact Post.answer ⟨S, T, H, h1⟩
  | ok _ =>
    simp only []
    cases hL : E.locked with
    | true => simp only [↓reduceIte]; exact Post.acc ⟨S, T, H, h1⟩
    | false =>
      simp only [Bool.false_eq_true, ↓reduceIte]
      obtain ⟨i, hi⟩ := H.own.ok hd _ ho
      subst hi
      have howns : ∀ j, Obj.ownsFd (.lock (i : Int) n) j ↔ j = i := fun j => by show ((i : Int) = j) ↔ _; omega
      have hSi : S i := (H.own.fds i).2 (.inr ⟨hd, _, ho, (howns i).2 rfl⟩)
      apply Out.Sat.bind
      apply true_mono (sysClose_res h1 i hSi)
      intro r w2 h2
      exact Post.res

theorem readdirLoopO_res {S T : Nat → Prop} (mem : PMem) : ∀ (fuel : Nat) (rest l : List Bytes) (w : World),
    w.choices.length < fuel → Res S T w →
    (readdirLoopO mem fuel rest l w).Sat (fun _ w' => Res S T w') (fun _ => True) := by
  intro fuel
  induction fuel with
  | zero => intro _ _ _ h; omega
  | succ fuel ih =>
    intro rest l w hfuel h
    unfold readdirLoopO
    apply Out.Sat.bind
    apply true_mono (sysReaddir_res h rest)
    rintro r w1 ⟨h1, h2⟩
    cases r with
    | none => exact h1
    | some d =>
      simp only []
      cases mem.child l.length with
      | true => exact ih _ _ _ (by omega) h1
      | false => exact h1

theorem GetChildrenO_post {E : OEnv} {w : World} (h : Acc ext extm L1 L2 E.env w) (mem : PMem) (n : Bytes) :
    (E.GetChildren strerror mem n w).Sat (Post ext extm L1 L2 1 0) (fun _ => True) := by
  obtain ⟨S, T, H, hw⟩ := h
  unfold OEnv.GetChildren
  apply Out.Sat.bind
  apply true_mono (sysOpendir_res hw n)
  rintro r w1 (⟨e, rfl, h1⟩ | ⟨i, l, rfl, hi, h1⟩)
  · exact Post.answer ⟨S, T, H, h1⟩
  · simp only []
    apply Out.Sat.bind
    apply true_mono (readdirLoopO_res mem (w1.choices.length + 1) l [] w1 (by omega) h1)
    intro l w2 h2
    cases l with
    | none => exact Post.of (H.loseFd hi h2)
    | some l =>
      simp only []
      apply Out.Sat.bind
      apply true_mono (sysClose_res h2 i (.inr rfl))
      intro r w3 h3
      exact Post.res

theorem NewRandomO_post {E : OEnv} {w : World} (h : Acc ext extm L1 L2 E.env w) (mem : PMem) (n : Bytes) :
    (E.NewRandomAccessFile strerror mem n w).Sat (Post ext extm L1 L2 1 1) (fun _ => True) := by
  obtain ⟨S, T, H, hw⟩ := h
  unfold OEnv.NewRandomAccessFile
  apply Out.Sat.bind
  apply true_mono (sysOpen_res hw .rdonly n)
  rintro r w1 (⟨err, rfl, h1⟩ | ⟨i, rfl, hi, h1⟩)
  · exact Post.answer ⟨S, T, H, h1⟩
  · simp only []
    rcases H.mm.acquire with ⟨_, hacq, hs⟩ | ⟨_, hacq, hs⟩
    · simp only [hacq, if_true]
      generalize hv : (Limiter.Acquire E.env.mmap_limiter).2 = v at hs
      -- descriptor and slot are lost
      have lost : ∀ w2, Res (fun j => S j ∨ j = i) T w2 → Post ext extm L1 L2 1 1
          (({ E with env := { E.env with mmap_limiter := v } } : OEnv), Ans.threw) w2 := by
        intro w2 h2 _
        refine ⟨1, Nat.le_refl _, [i], [], Nat.le_refl _, Nat.zero_le _, ?_, by simp, ?_⟩
        · intro j hj hx
          rw [List.mem_singleton] at hj; subst hj
          exact hi ((H.own.fds j).2 (.inl hx))
        · exact Acc.reext (ext := fun j => ext j ∨ j = i) (extm := extm) (L1 := L1 - 1)
            ⟨_, _, ⟨H.own.loseFd hi, hs.lose, H.fd⟩, h2⟩ (by simp) (by simp) rfl
      have lostm : ∀ w2 m, ¬ T m → Res (fun j => S j ∨ j = i) (fun j => T j ∨ j = m) w2 → Post ext extm L1 L2 1 1
          (({ E with env := { E.env with mmap_limiter := v } } : OEnv), Ans.threw) w2 := by
        intro w2 m hm h2 _
        refine ⟨1, Nat.le_refl _, [i], [m], Nat.le_refl _, Nat.le_refl _, ?_, ?_, ?_⟩
        · intro j hj hx
          rw [List.mem_singleton] at hj; subst hj
          exact hi ((H.own.fds j).2 (.inl hx))
        · intro j hj hx
          rw [List.mem_singleton] at hj; subst hj
          exact hm ((H.own.maps j).2 (.inl hx))
        · exact Acc.reext (ext := fun j => ext j ∨ j = i) (extm := fun j => extm j ∨ j = m) (L1 := L1 - 1)
            ⟨_, _, ⟨(H.own.loseFd hi).loseMap hm, hs.lose, H.fd⟩, h2⟩ (by simp) (by simp) rfl
      have fin : ∀ (F : OEnv) (s : St) (r : Option Nat) (w2 : World) (T' : Nat → Prop), Res (fun j => S j ∨ j = i) T' w2 →
          ((do
            let _ ← sysClose (i : Int)
            if s ≠ .ok then
              return ({ F with env := { F.env with mmap_limiter := Limiter.Release F.env.mmap_limiter } },
                .res (.opened s r))
            else return (F, .res (.opened s r)) : P (OEnv × Ans)) w2).Sat (Post ext extm L1 L2 1 1) (fun _ => True) := by
        intro F s r w2 T' h2
        apply Out.Sat.bind
        apply true_mono (sysClose_res h2 i (.inr rfl))
        intro _ w3 _
        by_cases hs : s ≠ .ok
        · simp only [if_pos hs]; exact Post.res
        · simp only [if_neg hs]; exact Post.res
      unfold OEnv.mapFile
      simp only [bindA]
      apply Out.Sat.bind
      apply true_mono (GetFileSize_res strerror h1 n)
      rintro ⟨st, size⟩ w2 h2
      simp only []
      cases hr : raise mem st with
      | none => exact lost w2 h2
      | some t =>
        rw [raise_some hr]
        simp only []
        by_cases hst : st = .ok
        · simp only [hst, if_true, bindA]
          apply Out.Sat.bind
          apply true_mono (sysMmap_res h2 (i : Int) size)
          rintro r w3 (⟨err, rfl, h3⟩ | ⟨m, rfl, hm, h3⟩)
          · simp only []
            cases hr : raise mem (PosixError strerror n err) with
            | none => exact lost w3 h3
            | some t => exact fin _ _ none w3 T h3
          · simp only []
            cases mem.object with
            | true => exact fin _ _ (some _) w3 _ h3
            | false => exact lostm w3 m hm h3
        · simp only [if_neg hst]
          exact fin _ st none w2 T h2
    · simp only [hacq, Bool.false_eq_true, if_false]
      cases mem.object with
      | false =>
        simp only [Bool.false_eq_true, ↓reduceIte]
        exact Post.of (EInv.loseFd (e := { E.env with mmap_limiter := (Limiter.Acquire E.env.mmap_limiter).2 })
          ⟨H.own, by rw [hs]; exact H.mm, H.fd⟩ hi h1)
      | true =>
        simp only [↓reduceIte]
        unfold RandFile.new
        rcases H.fd.acquire with ⟨_, hfacq, hfs⟩ | ⟨_, hfacq, hfs⟩
        · simp only [hfacq, if_true]
          exact Post.res
        · simp only [hfacq, Bool.false_eq_true, if_false]
          apply Out.Sat.bind
          apply Out.Sat.bind
          apply Out.Sat.pureM (a := ()) (by unfold cassert; rw [if_pos]; simp)
          apply Out.Sat.bind
          apply true_mono (sysClose_res h1 i (.inr rfl))
          intro r w2 h2
          exact Post.res

end Posix
end Lsmdb
