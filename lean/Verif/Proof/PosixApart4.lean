import Verif.Proof.PosixApart3

/-! Runs of threads none of which names a file. -/

namespace Lsmdb
namespace Posix

open MemEnv (St lit)

namespace Conc

theorem lax (ro : Bool) (n : Bytes) : Lax (Cmd.elsewhere ro n) :=
  ⟨fun _ => trivial, fun _ _ => trivial, fun _ _ _ => trivial, fun _ _ => trivial, fun _ _ => trivial, fun _ => trivial, fun _ => trivial,
    fun _ => trivial, fun _ _ => trivial, fun _ => trivial, fun _ => trivial, fun _ _ => trivial, fun _ => trivial, fun _ => trivial,
    fun _ => trivial, fun _ => trivial⟩

theorem naming {ro : Bool} {name : Bytes} {op : POp} (h : Elsewhere name op ∨ (ro = true ∧ LooksOnly op)) :
    Naming (Cmd.elsewhere ro (cstr name)) op := by
  rcases h with h | ⟨hr, h⟩
  · cases op with
    | newSequential n => exact .inl (h n List.mem_cons_self).1
    | newRandomAccess n => exact .inl (h n List.mem_cons_self).1
    | newWritable n => exact ⟨.inl (h n List.mem_cons_self).1, fun d hd => .inl ((h n List.mem_cons_self).2 d hd)⟩
    | newAppendable n => exact ⟨.inl (h n List.mem_cons_self).1, fun d hd => .inl ((h n List.mem_cons_self).2 d hd)⟩
    | newLogger n => exact .inl (h n List.mem_cons_self).1
    | getChildren n => exact .inl (h n List.mem_cons_self).1
    | removeFile n => exact (h n List.mem_cons_self).1
    | createDir n => exact (h n List.mem_cons_self).1
    | removeDir n => exact (h n List.mem_cons_self).1
    | renameFile a b => exact ⟨(h a List.mem_cons_self).1, (h b (List.mem_cons_of_mem _ List.mem_cons_self)).1⟩
    | lockFile n => exact .inl (h n List.mem_cons_self).1
    | _ => trivial
  · cases op with
    | newSequential n => exact .inr ⟨hr, rfl⟩
    | newRandomAccess n => exact .inr ⟨hr, rfl⟩
    | getChildren n => exact .inr hr
    | fileExists n => trivial
    | getFileSize n => trivial
    | _ => exact h.elim

theorem fine {ro : Bool} {name : Bytes} {o : Obj} (h : ro = true ∨ ObjElsewhere name o) : Fine (Cmd.elsewhere ro (cstr name)) o := by
  rcases h with h | h
  · cases o with
    | rand f => exact fun _ => .inr ⟨h, rfl⟩
    | wr f => exact .inr ⟨h, rfl⟩
    | _ => trivial
  · cases o with
    | rand f => exact fun hf => .inl (h hf)
    | wr f => exact .inl h
    | _ => trivial

/-- The file is in nobody's hands but those of the owners `A`; `X` are threads about whose calls nothing is said. -/
structure Held (ro : Bool) (name : Bytes) (ino : Nat) (X : Nat → Prop) (A : Owner → Prop) (c : Conf) (fo : Nat → Owner) : Prop where
  names : OnlyName c.w.k name ino
  node : ∃ a, c.w.k.inodes[ino]? = some a
  fds : ∀ (i : Nat) q, c.w.k.ofd (i : Int) = some q → Grasp ro ino q → fo i ≠ .free ∧ A (fo i)
  objs : ∀ (h : Nat) o, c.objs[h]? = some (some o) → Fine (Cmd.elsewhere ro (cstr name)) o
  progs : ∀ (t : Nat) home p, ¬ X t → c.th[t]? = some (.run home p) →
    Only (Cmd.elsewhere ro (cstr name)) (FineEnd (Cmd.elsewhere ro (cstr name))) p
  choices : ∀ x ∈ c.w.choices, Respects name ino x

/-- The owners of the descriptors of the objects `S`. -/
def OfObjs (S : Nat → Prop) (c : Conf) (x : Owner) : Prop :=
  ∃ h, S h ∧ (x = .obj h ∨ ∃ (t : Nat) (p : Prog Fin), x = .thr t ∧ c.th[t]? = some (.run (.own h) p))

variable {ext extm : Nat → Prop} {L : Lim → Int} {c : Conf} {fo mo : Nat → Owner} {lo : Bytes → Owner} {gs : List Ghost}
variable {ro : Bool} {name : Bytes} {ino : Nat} {S X : Nat → Prop} {A B : Owner → Prop}

/-- A closed descriptor is not open. -/
theorem closed_ofd {i : Nat} {sh sh' : Shared} {w w' : World} {r : Except Errno Unit} (he : (Cmd.close (i : Int)).exec sh w = .done (r, sh') w') :
    w'.k.ofd (i : Int) = none := by
  obtain ⟨he, -⟩ := keep_done he
  obtain ⟨x, hm, hk⟩ := sys_done he
  rw [hk]
  cases ho : (x.other w.k).ofd (i : Int) with
  | none => exact ho
  | some o =>
    have : ∀ k' : Kernel, k'.fds = (x.other w.k).fds.set (i : Int).toNat none → k'.ofd (i : Int) = none := by
      intro k' hk'
      cases hq : k'.ofd (i : Int) with
      | none => rfl
      | some q =>
        unfold Kernel.ofd at hq
        split at hq
        · exact nomatch hq
        · rw [hk', List.getElem?_set] at hq
          split at hq
          · split at hq
            · exact nomatch hq
            · exact nomatch hq
          · rename_i h; exact absurd rfl h
    cases hf : x.fail with
    | some e => exact this _ rfl
    | none => exact this _ rfl

/-- Only the owner of a descriptor changes a file through it. -/
theorem Inv.alters (H : Inv ext extm L c fo mo lo gs) {t : Nat} {home : Home} {cmd : Cmd} {k : cmd.Resp → Prog Fin}
    (ht : c.th[t]? = some (.run home (.call cmd k))) {fd : Int} (hm : Cmd.alters cmd = some fd) {q : Ofd} (hq : c.w.k.ofd fd = some q) :
    ∃ i : Nat, fd = i ∧ fo i = .thr t := by
  obtain ⟨g, hg⟩ := H.ghost ht
  have hp : cmd.spec (fun r g => (k r).wp (Done home) g) g := H.run t home _ g ht hg
  have ok : g.ok fd → ∃ i : Nat, fd = i ∧ fo i = .thr t := by
    rintro (h | ⟨j, h, hj⟩)
    · unfold Kernel.ofd at hq
      rw [if_pos h] at hq
      exact nomatch hq
    · exact ⟨j, h, (H.F.thr t j).2 ⟨g, hg, hj⟩⟩
  cases cmd with
  | write fd n => injection hm with hm; subst hm; exact ok hp.1
  | sync fd => injection hm with hm; subst hm; exact ok hp.1
  | _ => exact nomatch hm

theorem Held.mono (h : Held ro name ino X A c fo) (hAB : ∀ x, x ≠ .free → A x → B x) : Held ro name ino X B c fo :=
  ⟨h.names, h.node, fun i q h1 h2 => ⟨(h.fds i q h1 h2).1, hAB _ (h.fds i q h1 h2).1 (h.fds i q h1 h2).2⟩, h.objs, h.progs, h.choices⟩

theorem Held.exempt (h : Held ro name ino X A c fo) {Y : Nat → Prop} (hXY : ∀ t, X t → Y t) : Held ro name ino Y A c fo :=
  ⟨h.names, h.node, h.fds, h.objs, fun t home p hY => h.progs t home p fun hX => hY (hXY t hX), h.choices⟩

theorem begin_th {strerror : Strerror} {full : Bool} {fuel t : Nat} {op : POp} (ht : c.th[t]? = some .idle) :
    (c.begin strerror full fuel t op).th[t]? = some (.run (homeOf op) (body strerror full fuel op (c.objOf op))) := by
  unfold Conf.begin
  simp only
  rw [List.getElem?_set_self (List.getElem?_eq_some_iff.1 ht).1]

theorem begin_th_ne {strerror : Strerror} {full : Bool} {fuel t u : Nat} {op : POp} (h : u ≠ t) :
    (c.begin strerror full fuel t op).th[u]? = c.th[u]? := by
  unfold Conf.begin
  simp only
  rw [List.getElem?_set_ne (Ne.symm h)]

theorem finish_th (t : Nat) (home : Home) (a : Fin) : (c.finish t home a).1.th = c.th.set t .idle := by
  unfold Conf.finish
  cases a <;> rfl

theorem finish_w (t : Nat) (home : Home) (a : Fin) : (c.finish t home a).1.w = c.w := by
  unfold Conf.finish
  cases a <;> rfl

/-- A call begins. -/
theorem Held.call {strerror : Strerror} {full : Bool} {fuel t : Nat} {op : POp} (hH : Held ro name ino X A c fo)
    {fo' : Nat → Owner} (hf : ∀ i, fo' i = ownAfter op t (fo i))
    (he : ¬ X t → Elsewhere name op ∨ (ro = true ∧ LooksOnly op)) :
    Held ro name ino X (fun x => ∃ y, A y ∧ x = ownAfter op t y) (c.begin strerror full fuel t op) fo' := by
  refine ⟨hH.names, hH.node, ?_, ?_, ?_, hH.choices⟩
  · intro i q hq hg
    obtain ⟨h1, h2⟩ := hH.fds i q hq hg
    refine ⟨?_, fo i, h2, hf i⟩
    rw [hf]
    unfold ownAfter
    split
    · split
      · simp
      · exact h1
    · exact h1
  · intro h o ho
    unfold Conf.begin at ho
    simp only at ho
    split at ho
    · rcases get_set ho with ⟨_, ho⟩ | ⟨_, ho⟩
      · exact hH.objs h o ho
      · exact nomatch ho
    · exact hH.objs h o ho
  · intro u home p hX hu
    rcases get_set hu with ⟨_, hu⟩ | ⟨rfl, e⟩
    · exact hH.progs u home p hX hu
    · cases e
      refine only_body (lax ro _) strerror full fuel (naming (he hX)) fun x hx => ?_
      unfold Conf.objOf at hx
      cases hh : handle op with
      | none => rw [hh] at hx; exact nomatch hx
      | some a =>
        rw [hh] at hx
        simp only [Option.bind_some] at hx
        cases h1 : c.objs[a]? with
        | none => rw [h1] at hx; exact nomatch hx
        | some y =>
          rw [h1] at hx
          simp only [Option.join_some] at hx
          subst hx
          exact hH.objs a x h1

/-- A step inside of a call. -/
theorem Held.move (H : Inv ext extm L c fo mo lo gs) (hH : Held ro name ino X A c fo) {t : Nat} {home : Home} {cmd : Cmd}
    {k : cmd.Resp → Prog Fin} {r : cmd.Resp} {sh : Shared} {w : World} (ht : c.th[t]? = some (.run home (.call cmd k)))
    (hx : cmd.exec c.sh c.w = .done (r, sh) w) (hX : ¬ X t) {fo' : Nat → Owner} (hf : ∀ i, fo i ≠ .free → cmd = .close (i : Int) ∨ fo' i = fo i) :
    Held ro name ino X A { c with w := w, sh := sh, th := c.th.set t (.run home (k r)) } fo' ∧
      (Unmoved ro (c.w.k.inodes[ino]?) (w.k.inodes[ino]?) ∨ A (.thr t)) := by
  have hP := hH.progs t home _ hX ht
  have hA := exec_apart hx hP.1 hH.choices hH.names hH.node
  refine ⟨⟨hA.names, hA.node, ?_, hH.objs, ?_, fun x hm => hH.choices x (exec_choices hx x hm)⟩, ?_⟩
  · intro i q hq hg
    obtain ⟨q', hq', hg'⟩ := hA.fds i q hq hg
    obtain ⟨hne, ho⟩ := hH.fds i q' hq' hg'
    have hk : fo' i = fo i := by
      rcases hf i hne with rfl | h
      · rw [closed_ofd hx] at hq; exact nomatch hq
      · exact h
    rw [hk]
    exact ⟨hne, ho⟩
  · intro u home' p hX hu
    rcases get_set hu with ⟨_, hu⟩ | ⟨_, e⟩
    · exact hH.progs u home' p hX hu
    · cases e; exact hP.2 r
  · by_cases hyp : ∀ fd q, Cmd.alters cmd = some fd → c.w.k.ofd fd = some q → ¬ Grasp ro ino q
    · exact .inl (hA.same hyp)
    · right
      have : ∃ fd q, Cmd.alters cmd = some fd ∧ c.w.k.ofd fd = some q ∧ Grasp ro ino q := by
        refine Classical.byContradiction fun hno => hyp fun fd q h1 h2 h3 => hno ⟨fd, q, h1, h2, h3⟩
      obtain ⟨fd, q, h1, h2, h3⟩ := this
      obtain ⟨i, rfl, hi'⟩ := H.alters ht h1 h2
      rw [← hi']
      exact (hH.fds i q h2 h3).2

/-- A call returns. -/
theorem Held.ret (hH : Held ro name ino X A c fo) {t : Nat} {home : Home} {a : Fin}
    (ht : c.th[t]? = some (.run home (.ret a))) {fo' : Nat → Owner} (hf1 : ∀ i, fo i ≠ .thr t → fo' i = fo i)
    (hf2 : ∀ i, fo i = .thr t → fo' i = .obj (place c home)) (hP : X t → FineEnd (Cmd.elsewhere ro (cstr name)) a) :
    Held ro name ino X (fun x => (A x ∧ x ≠ .thr t) ∨ (A (.thr t) ∧ x = .obj (place c home))) (c.finish t home a).1 fo' := by
  have hP : FineEnd (Cmd.elsewhere ro (cstr name)) a := by
    by_cases hX : X t
    · exact hP hX
    · exact hH.progs t home _ hX ht
  refine ⟨by rw [finish_w]; exact hH.names, by rw [finish_w]; exact hH.node, ?_, ?_, ?_, by rw [finish_w]; exact hH.choices⟩
  · intro i q hq hg
    rw [finish_w] at hq
    obtain ⟨h1, h2⟩ := hH.fds i q hq hg
    by_cases hi : fo i = .thr t
    · rw [hf2 i hi]
      rw [hi] at h2
      exact ⟨by simp, .inr ⟨h2, rfl⟩⟩
    · rw [hf1 i hi]
      exact ⟨h1, .inl ⟨h2, hi⟩⟩
  · intro h o ho
    cases a with
    | new y =>
      have ho : (c.objs ++ [some y])[h]? = some (some o) := ho
      rcases get_push ho with ho | ⟨_, e⟩
      · exact hH.objs h o ho
      · cases e; exact hP
    | back y r =>
      cases home with
      | own a =>
        have ho : (c.objs.set a y)[h]? = some (some o) := ho
        rcases get_set ho with ⟨_, ho⟩ | ⟨_, e⟩
        · exact hH.objs h o ho
        · subst e; exact hP
      | reads a => exact hH.objs h o ho
      | none => exact hH.objs h o ho
  · intro u home' p hX hu
    rw [finish_th] at hu
    rcases get_set hu with ⟨_, hu⟩ | ⟨_, e⟩
    · exact hH.progs u home' p hX hu
    · exact nomatch e

/-- No thread is exempt. -/
abbrev Nobody : Nat → Prop := fun _ => False

/-- Every step keeps the file in the hands of the objects, and changes it only if it is one of theirs. -/
theorem Held.step {strerror : Strerror} {full : Bool} {c' : Conf} {e : Option Ev} (H : Inv ext extm L c fo mo lo gs)
    (hH : Held ro name ino Nobody (OfObjs S c) c fo) (hs : Step strerror full c e c')
    (he : ∀ t op, e = some (.call t op) → Elsewhere name op ∨ (ro = true ∧ LooksOnly op)) :
    ∃ fo' mo' lo' gs', Inv ext extm L c' fo' mo' lo' gs' ∧ Held ro name ino Nobody (OfObjs S c') c' fo' ∧
      (Unmoved ro (c.w.k.inodes[ino]?) (c'.w.k.inodes[ino]?) ∨
        ∃ h, S h ∧ ∃ (t : Nat) (p : Prog Fin), c.th[t]? = some (.run (.own h) p) ∧ c'.th[t]? ≠ c.th[t]?) := by
  cases hs with
  | call t op fuel ht ha =>
    obtain ⟨fo', mo', lo', gs', H', hf⟩ := H.beginF strerror full fuel ht ha
    refine ⟨fo', mo', lo', gs', H', (hH.call hf fun _ => he t op rfl).mono ?_, .inl (Unmoved.refl _)⟩
    rintro x - ⟨y, ⟨h, hS, hy⟩, rfl⟩
    refine ⟨h, hS, ?_⟩
    have hnew := begin_th (strerror := strerror) (full := full) (fuel := fuel) (op := op) ht
    rcases hy with rfl | ⟨u, p, rfl, hu⟩
    · unfold ownAfter
      cases hh : homeOf op with
      | own a =>
        simp only
        by_cases hah : a = h
        · subst hah
          rw [if_pos rfl]
          rw [hh] at hnew
          exact .inr ⟨t, _, rfl, hnew⟩
        · rw [if_neg (fun e => hah (Owner.obj.inj e).symm)]; exact .inl rfl
      | reads a => exact .inl rfl
      | none => exact .inl rfl
    · refine .inr ⟨u, p, ?_, ?_⟩
      · unfold ownAfter
        split
        · rw [if_neg (by simp)]
        · rfl
      · have hne : u ≠ t := by rintro rfl; rw [ht] at hu; exact nomatch hu
        rw [begin_th_ne hne]; exact hu
  | move t home cmd k r sh w ht hx =>
    obtain ⟨fo', mo', lo', gs', H', hf⟩ := H.stepF ht hx
    obtain ⟨h1, h2⟩ := hH.move H ht hx (fun h => h) hf
    have hi : t < c.th.length := (List.getElem?_eq_some_iff.1 ht).1
    refine ⟨fo', mo', lo', gs', H', h1.mono ?_, ?_⟩
    · rintro x - ⟨h, hS, hy⟩
      refine ⟨h, hS, ?_⟩
      rcases hy with rfl | ⟨u, p, rfl, hu⟩
      · exact .inl rfl
      · by_cases hut : t = u
        · subst hut
          rw [ht] at hu
          cases hu
          exact .inr ⟨t, k r, rfl, by simp only; rw [List.getElem?_set_self hi]⟩
        · exact .inr ⟨u, p, rfl, by simp only; rw [List.getElem?_set_ne hut]; exact hu⟩
    · rcases h2 with h2 | ⟨h, hS, ho | ⟨u, p, ho, hu⟩⟩
      · exact .inl h2
      · exact nomatch ho
      · cases ho
        refine .inr ⟨h, hS, t, p, hu, ?_⟩
        simp only
        rw [List.getElem?_set_self hi, ht]
        intro e
        injection e with e
        injection e with _ e
        exact prog_ne cmd k r rfl e
  | ret t home a ht =>
    obtain ⟨fo', mo', lo', gs', H', hf1, hf2⟩ := H.finishO ht
    refine ⟨fo', mo', lo', gs', H', (hH.ret ht hf1 hf2 fun h => h.elim).mono ?_, .inl (by rw [finish_w]; exact Unmoved.refl _)⟩
    rintro x - (⟨⟨h, hS, hy⟩, hne⟩ | ⟨⟨h, hS, hy⟩, rfl⟩)
    · refine ⟨h, hS, ?_⟩
      rcases hy with rfl | ⟨u, p, rfl, hu⟩
      · exact .inl rfl
      · have hut : t ≠ u := by rintro rfl; exact hne rfl
        exact .inr ⟨u, p, rfl, by rw [finish_th, List.getElem?_set_ne hut]; exact hu⟩
    · rcases hy with hy | ⟨u, p, hy, hu⟩
      · exact nomatch hy
      · cases hy
        rw [ht] at hu
        cases hu
        exact ⟨h, hS, .inl rfl⟩

end Conc
end Posix
end Lsmdb
