import Verif.Proof.PosixCreate2

/-! The whole call, and what it leaves. -/

namespace Lsmdb
namespace Posix

open MemEnv (St lit)

namespace Conc

variable {name : Bytes} {ext extm : Nat → Prop} {L : Lim → Int} {c c' : Conf} {fo mo : Nat → Owner} {lo : Bytes → Owner} {gs : List Ghost}
variable {X : Nat → Prop} {A B : Owner → Prop} {s : Option (Nat × Inode)} {t0 : Nat} {m : Mode} {ino fd : Nat} {n : Inode}

theorem respects_lets (hx : ∀ x ∈ c.w.choices, Respects name ino x) (i : Nat) : ∀ x ∈ c.w.choices, Lets (fun _ _ => True) ino i x := by
  intro x hm y
  refine ⟨fun _ _ => trivial, ?_⟩
  unfold Kernel.ofd
  rw [(hx x hm y).2.1]

theorem Fresh.mono (h : Fresh name s m X A c fo ino n fd) (hAB : ∀ x, x ≠ .free → A x → B x) : Fresh name s m X B c fo ino n fd :=
  ⟨h.isOld, h.held.mono hAB, h.node, h.dir, h.data, h.old, h.ofd⟩

/-- Another thread makes a step while the call runs. -/
theorem Creating.step {strerror : Strerror} {full : Bool} {e : Option Ev} (H : Inv ext extm L c fo mo lo gs) (hm : m = .trunc ∨ m = .append)
    (hC : Creating strerror name s m t0 c fo) (hs : Step strerror full c e c') (hb : ∀ r, e ≠ some (.ret t0 r))
    (he : ∀ t op, e = some (.call t op) → Elsewhere name op) :
    ∃ fo' mo' lo' gs', Inv ext extm L c' fo' mo' lo' gs' ∧ Creating strerror name s m t0 c' fo' := by
  have busy : ∃ home p, c.th[t0]? = some (.run home p) := by
    cases hC with
    | waiting th => exact ⟨_, _, th⟩
    | opened _ _ _ _ th => exact ⟨_, _, th⟩
    | failed _ th => exact ⟨_, _, th⟩
    | stuck _ th => exact ⟨_, _, th⟩
  cases hs with
  | call t op fuel ht ha =>
    have hne : t0 ≠ t := by
      rintro rfl
      obtain ⟨home, p, h⟩ := busy
      rw [ht] at h; exact nomatch h
    have hth := begin_th_ne (c := c) (strerror := strerror) (full := full) (fuel := fuel) (op := op) hne
    obtain ⟨fo', mo', lo', gs', H', hf⟩ := H.beginF strerror full fuel ht ha
    refine ⟨fo', mo', lo', gs', H', ?_⟩
    have same : ownAfter op t (.thr t0) = .thr t0 := by
      unfold ownAfter
      split
      · rw [if_neg (by simp)]
      · rfl
    cases hC with
    | waiting th pre => exact .waiting (by rw [hth]; exact th) (pre.call hf fun _ => he t op rfl)
    | failed st th pre => exact .failed st (by rw [hth]; exact th) (pre.call hf fun _ => he t op rfl)
    | stuck e th => exact .stuck e (by rw [hth]; exact th)
    | opened f ino n fd th new own fresh =>
      refine .opened f ino n fd (by rw [hth]; exact th) new (by rw [hf, own]; exact same)
        ⟨fresh.isOld, (fresh.held.call hf fun _ => .inl (he t op rfl)).mono ?_, fresh.node, fresh.dir, fresh.data, fresh.old, fresh.ofd⟩
      rintro x - ⟨y, rfl, rfl⟩
      exact same
  | ret t home a ht =>
    have hne : t ≠ t0 := by rintro rfl; exact hb _ rfl
    obtain ⟨fo', mo', lo', gs', H', hf1, hf2⟩ := H.finishO ht
    refine ⟨fo', mo', lo', gs', H', ?_⟩
    have hth : (c.finish t home a).1.th[t0]? = c.th[t0]? := by rw [finish_th, List.getElem?_set_ne hne]
    cases hC with
    | waiting th pre => exact .waiting (by rw [hth]; exact th) (pre.ret ht hf1 hf2 fun h => (hne h).elim)
    | failed st th pre => exact .failed st (by rw [hth]; exact th) (pre.ret ht hf1 hf2 fun h => (hne h).elim)
    | stuck e th => exact .stuck e (by rw [hth]; exact th)
    | opened f ino n fd th new own fresh =>
      refine .opened f ino n fd (by rw [hth]; exact th) new ?_
        ⟨fresh.isOld, (fresh.held.ret ht hf1 hf2 fun h => (hne h).elim).mono ?_, by rw [finish_w]; exact fresh.node, fresh.dir, fresh.data, fresh.old,
          by rw [finish_w]; exact fresh.ofd⟩
      · rw [hf1 fd (by rw [own]; exact fun e => hne (Owner.thr.inj e).symm)]; exact own
      · rintro x - (⟨h, -⟩ | ⟨h, -⟩)
        · exact h
        · exact (hne (Owner.thr.inj h)).elim
  | move t home cmd k r sh w ht hx =>
    by_cases hne : t = t0
    · subst hne
      cases hC with
      | waiting th pre => exact Creating.go H hm th pre ht hx
      | failed st th pre => rw [th] at ht; exact nomatch ht
      | stuck e th => rw [th] at ht; exact nomatch ht
      | opened f ino n fd th new own fresh => rw [th] at ht; exact nomatch ht
    · obtain ⟨fo', mo', lo', gs', H', hf⟩ := H.stepF ht hx
      refine ⟨fo', mo', lo', gs', H', ?_⟩
      have hth : (c.th.set t (.run home (k r)))[t0]? = c.th[t0]? := by rw [List.getElem?_set_ne hne]
      cases hC with
      | waiting th pre => exact .waiting (by simp only; rw [hth]; exact th) (pre.move H ht hx hne hf)
      | failed st th pre => exact .failed st (by simp only; rw [hth]; exact th) (pre.move H ht hx hne hf)
      | stuck e th => exact .stuck e (by simp only; rw [hth]; exact th)
      | opened f ino n fd th new own fresh =>
        obtain ⟨h1, h2⟩ := fresh.held.move H ht hx hne hf
        have hfree : fo fd ≠ .free := by rw [own]; simp
        obtain ⟨h3, h4⟩ := H.foreign ht hx (respects_lets fresh.held.choices fd) hfree (by rw [own]; exact fun e => hne (Owner.thr.inj e).symm)
        refine .opened f ino n fd (by simp only; rw [hth]; exact th) new ((hf fd hfree).resolve_left h4 |>.trans own)
          ⟨fresh.isOld, h1, ?_, fresh.dir, fresh.data, fresh.old, by simp only; rw [h3]; exact fresh.ofd⟩
        rcases h2 with h2 | h2
        · have h2 : w.k.inodes[ino]? = c.w.k.inodes[ino]? := h2
          rw [← fresh.node]; exact h2
        · exact (hne (Owner.thr.inj h2)).elim

/-- The call, up to any moment before it returns. -/
theorem Creating.all {strerror : Strerror} {full : Bool} {c0 : Conf} {es : List Ev} (hr : Run strerror full c0 es c)
    (hm : m = .trunc ∨ m = .append) (hb : NotBack t0 es) (he : ∀ t op, Ev.call t op ∈ es → Elsewhere name op)
    (h : ∃ fo mo lo gs, Inv ext extm L c0 fo mo lo gs ∧ Creating strerror name s m t0 c0 fo) :
    ∃ fo mo lo gs, Inv ext extm L c fo mo lo gs ∧ Creating strerror name s m t0 c fo := by
  induction hr with
  | nil => exact h
  | step hr hs ih =>
    obtain ⟨fo, mo, lo, gs, H, hC⟩ := ih (fun r hm => hb r (List.mem_append_left _ hm)) (fun t op hm => he t op (List.mem_append_left _ hm))
    exact hC.step H hm hs (fun r e => hb r (List.mem_append_right _ (by rw [e]; exact List.mem_singleton_self _)))
      fun t op e => he t op (List.mem_append_right _ (by rw [e]; exact List.mem_singleton_self _))

/-- Before the call. -/
theorem Pre.all {strerror : Strerror} {full : Bool} {c0 : Conf} {es : List Ev} (hr : Run strerror full c0 es c)
    (he : ∀ t op, Ev.call t op ∈ es → Elsewhere name op) (h : ∃ fo mo lo gs, Inv ext extm L c0 fo mo lo gs ∧ Pre name Nobody c0 fo s) :
    ∃ fo mo lo gs, Inv ext extm L c fo mo lo gs ∧ Pre name Nobody c fo s := by
  induction hr with
  | nil => exact h
  | @step _ _ _ e hr hs ih =>
    obtain ⟨fo, mo, lo, gs, H, hC⟩ := ih (fun t op hm => he t op (List.mem_append_left _ hm))
    have he : ∀ t op, e = some (Ev.call t op) → Elsewhere name op := fun t op e =>
      he t op (List.mem_append_right _ (by rw [e]; exact List.mem_singleton_self _))
    cases hs with
    | call t op fuel ht ha =>
      obtain ⟨fo', mo', lo', gs', H', hf⟩ := H.beginF strerror full fuel ht ha
      exact ⟨fo', mo', lo', gs', H', hC.call hf fun _ => he t op rfl⟩
    | ret t home a ht =>
      obtain ⟨fo', mo', lo', gs', H', hf1, hf2⟩ := H.finishO ht
      exact ⟨fo', mo', lo', gs', H', hC.ret ht hf1 hf2 fun h => h.elim⟩
    | move t home cmd k r sh w ht hx =>
      obtain ⟨fo', mo', lo', gs', H', hf⟩ := H.stepF ht hx
      exact ⟨fo', mo', lo', gs', H', hC.move H ht hx (fun h => h) hf⟩

/-- The call begins. -/
theorem Creating.start {strerror : Strerror} {full : Bool} {op : POp} {e : Option Ev} (h : ∃ fo mo lo gs, Inv ext extm L c fo mo lo gs ∧ Pre name Nobody c fo s)
    (hs : Step strerror full c e c') (hse : e = some (.call t0 op)) (hop : (m = .trunc ∧ op = .newWritable name) ∨ (m = .append ∧ op = .newAppendable name)) :
    ∃ fo mo lo gs, Inv ext extm L c' fo mo lo gs ∧ Creating strerror name s m t0 c' fo := by
  obtain ⟨fo, mo, lo, gs, H, hP⟩ := h
  cases hs with
  | move => exact nomatch hse
  | ret => exact nomatch hse
  | call t op' fuel ht ha =>
    injection hse with hse
    injection hse with h1 h2
    subst h1 h2
    obtain ⟨fo', mo', lo', gs', H', hf⟩ := H.beginF strerror full fuel ht ha
    refine ⟨fo', mo', lo', gs', H', .waiting ?_ ((hP.exempt fun _ h => h.elim).call hf fun h => (h rfl).elim)⟩
    have := begin_th (strerror := strerror) (full := full) (fuel := fuel) (op := op') ht
    rcases hop with ⟨rfl, rfl⟩ | ⟨rfl, rfl⟩ <;> exact this

/-- The call returns. -/
theorem Creating.ret {strerror : Strerror} {full : Bool} {e : Option Ev} {h : Nat}
    (H : Inv ext extm L c fo mo lo gs) (hC : Creating strerror name s m t0 c fo) (hs : Step strerror full c e c')
    (hse : e = some (.ret t0 (.opened .ok (some h)))) (hd : ∀ d, Dirname name = .ok d → cstr d ≠ cstr name) :
    ∃ fo' mo' lo' gs' f ino n, Inv ext extm L c' fo' mo' lo' gs' ∧ c'.has h (.wr f) ∧ WFile.new name f.fd = .ok f ∧ 0 ≤ f.fd ∧
      Fresh name s m Nobody (OfObjs (· = h) c') c' fo' ino n f.fd.toNat := by
  cases hs with
  | move => exact nomatch hse
  | call => exact nomatch hse
  | ret t home a ht =>
    injection hse with hse
    injection hse with h1 h2
    subst h1
    cases hC with
    | waiting th pre => rw [th] at ht; exact nomatch ht
    | stuck e th => rw [th] at ht; exact nomatch ht
    | failed st th pre =>
      rw [th] at ht
      cases ht
      exact nomatch h2
    | opened f ino n fd th new own fresh =>
      have ht' := ht
      rw [th] at ht'
      cases ht'
      obtain ⟨fo', mo', lo', gs', H', hf1, hf2⟩ := H.finishO ht
      have hh : c.objs.length = h := by
        have h2 : PRes.opened .ok (some c.objs.length) = .opened .ok (some h) := h2
        injection h2 with _ h2
        injection h2
      obtain ⟨e1, e2⟩ := wfile_new_fd new
      have e3 : f.fd.toNat = fd := by omega
      refine ⟨fo', mo', lo', gs', f, ino, n, H', ?_, by rw [e1]; exact new, by omega, ?_⟩
      · subst hh
        show (c.objs ++ [some (Obj.wr f)])[c.objs.length]? = _
        simp
      · rw [e3]
        have hP : FineEnd (Cmd.elsewhere false (cstr name)) (.new (.wr f)) := .inl (hd _ e2)
        have h3 := (fresh.held.ret ht hf1 hf2 fun _ => hP).mono (B := OfObjs (· = h) (c.finish t .none (.new (.wr f))).1) (by
          rintro x - (⟨h, hx⟩ | ⟨-, rfl⟩)
          · exact (hx h).elim
          · exact ⟨h, rfl, .inl (by rw [← hh]; rfl)⟩)
        refine ⟨fresh.isOld, ⟨h3.names, h3.node, h3.fds, h3.objs, fun u home p _ hu => ?_, h3.choices⟩, fresh.node, fresh.dir, fresh.data, fresh.old,
          fresh.ofd⟩
        refine h3.progs u home p ?_ hu
        rintro rfl
        rw [finish_th, List.getElem?_set_self (List.getElem?_eq_some_iff.1 ht).1] at hu
        exact nomatch hu

/-- The call fails. -/
theorem Creating.fail {strerror : Strerror} {full : Bool} {e : Option Ev} {st : St}
    (H : Inv ext extm L c fo mo lo gs) (hC : Creating strerror name s m t0 c fo) (hs : Step strerror full c e c')
    (hse : e = some (.ret t0 (.opened st none))) :
    ∃ fo' mo' lo' gs', Inv ext extm L c' fo' mo' lo' gs' ∧ Pre name Nobody c' fo' s := by
  cases hs with
  | move => exact nomatch hse
  | call => exact nomatch hse
  | ret t home a ht =>
    injection hse with hse
    injection hse with h1 h2
    subst h1
    cases hC with
    | waiting th pre => rw [th] at ht; exact nomatch ht
    | stuck e th => rw [th] at ht; exact nomatch ht
    | opened f ino n fd th new own fresh =>
      rw [th] at ht
      cases ht
      exact nomatch h2
    | failed st' th pre =>
      obtain ⟨fo', mo', lo', gs', H', hf1, hf2⟩ := H.finishO ht
      have hth : ∀ (u : Nat) home' p, (c.finish t home a).1.th[u]? = some (.run home' p) → u ≠ t := by
        rintro u home' p hu rfl
        rw [finish_th, List.getElem?_set_self (List.getElem?_eq_some_iff.1 ht).1] at hu
        exact nomatch hu
      have hP : FineEnd (Cmd.elsewhere false (cstr name)) a := by
        rw [th] at ht
        cases ht
        trivial
      refine ⟨fo', mo', lo', gs', H', ?_⟩
      have := pre.ret ht hf1 hf2 fun _ => hP
      cases this with
      | present held node dir =>
        exact .present ⟨held.names, held.node, held.fds, held.objs, fun u home p _ hu => held.progs u home p (hth u home p hu) hu, held.choices⟩ node dir
      | absent gone => exact .absent ⟨gone.absent, gone.objs, fun u home p _ hu => gone.progs u home p (hth u home p hu) hu, gone.choices⟩

end Conc
end Posix
end Lsmdb
