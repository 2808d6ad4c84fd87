import Verif.Proof.PosixTerm
import Verif.Props.PosixConc

/-!
# C104: calls of the POSIX Env return after a bounded number of their own steps, whatever the other threads do
-/

namespace Lsmdb
namespace Posix
namespace Conc

open MemEnv (St lit)

variable {strerror : Strerror} {full : Bool} {t : Nat} {c c' : Conf} {as : List Took}

theorem During.trans {c'' : Conf} {bs : List Took} (h : During strerror full t c as c') (h' : During strerror full t c' bs c'') :
    During strerror full t c (as ++ bs) c'' := by
  induction h' with
  | nil => rw [List.append_nil]; exact h
  | mine _ home cmd k r sh w ht he ih => rw [← List.append_assoc]; exact .mine ih home cmd k r sh w ht he
  | others _ h' ht ih => exact .others ih h' ht

/-- It is part of a run. -/
theorem During.run {c0 : Conf} {es : List Ev} (h : During strerror full t c as c') (hr : Run strerror full c0 es c) :
    ∃ es', Run strerror full c0 es' c' := by
  induction h with
  | nil => exact ⟨_, hr⟩
  | mine _ home cmd k r sh w ht he ih =>
    obtain ⟨es', h⟩ := ih
    exact ⟨_, .step h (.move _ t home cmd k r sh w ht he)⟩
  | others _ h' _ ih =>
    obtain ⟨es', h⟩ := ih
    exact ⟨_, .step h h'⟩

theorem sys_out {α : Type} {call : α → List Call} {f : Choice → Kernel → α × Kernel} {w w' : World} {r : α}
    (h : sys call f w = .done r w') : ∃ x k, r = (f x k).1 := by
  unfold sys at h
  cases hc : w.choices with
  | nil => rw [hc] at h; exact nomatch h
  | cons x xs => rw [hc] at h; injection h with h _; exact ⟨_, _, h.symm⟩

theorem exec_gives {s sh : Shared} {cmd : Cmd} {w w' : World} {r : cmd.Resp} (h : cmd.exec s w = .done (r, sh) w') : Cmd.gives cmd r := by
  cases cmd with
  | readdir fd rest =>
    obtain ⟨w1, h1⟩ : ∃ w1, sysReaddir rest w = .done r w1 := by
      unfold Cmd.exec keep at h
      cases hx : sysReaddir rest w with
      | done a w2 =>
        simp only [hx] at h
        injection h with h h2
        injection h with h h3
        exact ⟨w2, by rw [h]⟩
      | crash w2 => simp only [hx] at h; exact nomatch h
      | fault f => simp only [hx] at h; exact nomatch h
    obtain ⟨x, k, e⟩ := sys_out h1
    show r = none ∨ r = rest.head?
    rw [e]
    cases x.fail with
    | none => exact .inr rfl
    | some e => exact .inl rfl
  | _ => exact trivial

theorem inVain_snoc (as : List Took) (a : Took) : inVain (as ++ [a]) = inVain as + if a.inVain then 1 else 0 := by
  unfold inVain
  rw [List.filter_append, List.length_append]
  cases h : a.inVain <;> simp [h]

theorem entriesOf_snoc (as : List Took) (a : Took) : entriesOf (as ++ [a]) = entriesOf as + a.entries := by
  unfold entriesOf
  rw [List.map_append, List.sum_append]
  simp

theorem During.endsBy {home : Home} {p0 : Prog Fin} {b g : Nat} (h : During strerror full t c as c')
    (h0 : c.th[t]? = some (.run home p0)) (hp : EndsBy p0 b g Any) (hg : inVain as + entriesOf as ≤ g) :
    ∃ p x y, c'.th[t]? = some (.run home p) ∧ EndsBy p x y Any ∧ x + as.length = b + (inVain as + entriesOf as) ∧
      y + (inVain as + entriesOf as) = g := by
  induction h with
  | nil => exact ⟨p0, b, g, h0, hp, rfl, rfl⟩
  | others _ h' ht ih =>
    obtain ⟨p, x, y, h1, h2⟩ := ih hg
    exact ⟨p, x, y, by rw [ht]; exact h1, h2⟩
  | mine _ home' cmd k r sh w ht he ih =>
    rw [inVain_snoc, entriesOf_snoc] at hg
    obtain ⟨p, x, y, h1, h2, h3, h4⟩ := ih (by omega)
    rw [ht] at h1
    injection h1 with h1
    injection h1 with e1 e2
    subst e1 e2
    have hcost : cost cmd r = (if Took.inVain ⟨cmd, r⟩ then 1 else 0) + Took.entries ⟨cmd, r⟩ := rfl
    refine ⟨k r, x - 1 + cost cmd r, y - cost cmd r, List.getElem?_set_self (List.getElem?_eq_some_iff.1 ht).1,
      h2.2 r (exec_gives he) (by omega), ?_, ?_⟩
    · have := h2.1
      rw [inVain_snoc, entriesOf_snoc, List.length_append]
      show _ + (_ + 1) = _
      omega
    · rw [inVain_snoc, entriesOf_snoc]
      omega

/-- How many steps a call takes at most: six, one for each byte there is to write, one for each entry there is to list, one for each time a
system call was made in vain. -/
def most (op : POp) (o : Option Obj) (as : List Took) : Nat := 6 + toWrite op o + inVain as + entriesOf as

/-- C104: a thread makes a call at any moment of any run; the others do what they like.  The thread never takes more steps than `most`
says.  As long as it has not taken all the steps it needs it has a next one, and nothing keeps it from taking it; then it returns.
(`fuel`: the model has to look at loops for long enough.) -/
theorem C104_returns {w : World} {L1 L2 : Int} {n : Nat} (h : Setting w L1 L2 n) {es : List Ev} {c c' : Conf}
    (hr : Run strerror full (Conf.init w L1 L2 n) es c) {t : Nat} (ht : c.th[t]? = some .idle) {op : POp} (ha : c.Allowed op) {fuel : Nat}
    {as : List Took} (hd : During strerror full t (c.begin strerror full fuel t op) as c')
    (hf : toWrite op (c.objOf op) + inVain as + entriesOf as < fuel) :
    ((∃ home a, c'.th[t]? = some (.run home (.ret a))) ∧ as.length ≤ most op (c.objOf op) as) ∨
    ((∃ cmd, c'.next t cmd ∧ (c'.w.choices ≠ [] → ∃ r sh w', cmd.exec c'.sh c'.w = .done (r, sh) w')) ∧
      as.length < most op (c.objOf op) as) := by
  have hb := endsBy_body strerror full fuel op (c.objOf op) (g := fuel - 1 - toWrite op (c.objOf op)) (by omega)
  have h0 : (c.begin strerror full fuel t op).th[t]? = some (.run (homeOf op) (body strerror full fuel op (c.objOf op))) :=
    List.getElem?_set_self (List.getElem?_eq_some_iff.1 ht).1
  obtain ⟨p, x, y, h1, h2, h3, h4⟩ := hd.endsBy h0 hb (by omega)
  obtain ⟨es', hr'⟩ := hd.run (.step hr (.call c t op fuel ht ha))
  unfold most
  cases p with
  | spin => exact h2.elim
  | fault f => exact ((C92_no_interference h hr').no_fault t _ f h1).elim
  | ret a => exact .inl ⟨⟨_, a, h1⟩, by omega⟩
  | call cmd k =>
    refine .inr ⟨⟨cmd, ⟨_, k, h1⟩, fun hw => ?_⟩, by have := h2.1; omega⟩
    rcases exec_ok c'.sh cmd c'.w with h | ⟨h, _⟩
    · exact h
    · exact (hw h).elim

/-- How many bytes a call appends. -/
def appended : POp → Nat
  | .write _ (.append d) => d.len
  | _ => 0

/-- C104: in terms of the call alone: besides what it appends there are at most 65536 bytes to write. -/
theorem C104_buffer {w : World} {L1 L2 : Int} {n : Nat} (h : Setting w L1 L2 n) {es : List Ev} {c c' : Conf}
    (hr : Run strerror full (Conf.init w L1 L2 n) es c) {t : Nat} (ht : c.th[t]? = some .idle) {op : POp} (ha : c.Allowed op) {fuel : Nat}
    {as : List Took} (hd : During strerror full t (c.begin strerror full fuel t op) as c')
    (hf : 65536 + appended op + inVain as + entriesOf as < fuel) :
    as.length ≤ 65542 + appended op + inVain as + entriesOf as := by
  have hw : toWrite op (c.objOf op) ≤ 65536 + appended op := by
    obtain ⟨fo, mo, lo, gs, H⟩ := h.inv hr
    have hpos : ∀ i f, handle op = some i → c.objOf op = some (.wr f) → f.pos ≤ 65536 := by
      intro i f hi ho
      unfold Conf.objOf at ho
      rw [hi] at ho
      replace ho : (c.objs[i]?).join = some (.wr f) := ho
      have := (H.ok i (.wr f) (by
        cases hx : c.objs[i]? with
        | none => rw [hx] at ho; exact nomatch ho
        | some y => rw [hx] at ho; exact congrArg some ho)).2
      obtain ⟨b, hb⟩ := this
      exact hb.le
    unfold toWrite
    split
    · rename_i i wop f ho
      have := hpos i f rfl (by assumption)
      cases wop with
      | append d => show _ + d.len ≤ _ + d.len; omega
      | _ => show _ + 0 ≤ _ + 0; omega
    · rename_i i f ho
      have := hpos i f rfl (by assumption)
      show _ ≤ _ + 0
      omega
    · omega
  have := C104_returns h hr ht ha hd (by omega)
  unfold most at this
  rcases this with ⟨_, h⟩ | ⟨_, h⟩ <;> omega

/-! ## Interruptions have to be counted -/

theorem interrupted_along (strerror : Strerror) (full : Bool) (f : SeqFile) (m cap : Nat) (home : Home) (K : St × Option Bytes → Prog Fin) (t : Nat) :
    ∀ (N fuel : Nat) (c : Conf), N < fuel → c.th[t]? = some (.run home (seqReadLoop strerror f m cap fuel >>= K)) →
      c.w.choices = List.replicate N { fail := some EINTR } →
      ∃ as c', During strerror full t c as c' ∧ as.length = N ∧ entriesOf as = 0 ∧ inVain as = N ∧ ∃ cmd, c'.next t cmd := by
  intro N
  induction N with
  | zero =>
    intro fuel c hf ht _
    refine ⟨[], c, .nil c, rfl, rfl, rfl, ?_⟩
    cases fuel with
    | zero => omega
    | succ fuel => exact ⟨.read f.fd m, home, _, ht⟩
  | succ N ih =>
    intro fuel c hf ht hc
    cases fuel with
    | zero => omega
    | succ fuel =>
      have he : Cmd.exec c.sh (.read f.fd m) c.w =
          .done (.error EINTR, c.sh) ⟨c.w.k, List.replicate N { fail := some EINTR }, c.w.calls ++ []⟩ := by
        show keep c.sh (sysRead f.fd m) c.w = _
        unfold keep sysRead sys
        rw [hc]
        rfl
      obtain ⟨as, c', h1, h2, h3, h4, h5⟩ := ih fuel
        { c with w := ⟨c.w.k, List.replicate N { fail := some EINTR }, c.w.calls ++ []⟩, sh := c.sh,
                 th := c.th.set t (.run home (seqReadLoop strerror f m cap fuel >>= K)) } (by omega)
        (List.getElem?_set_self (List.getElem?_eq_some_iff.1 ht).1) rfl
      have h0 := During.mine (strerror := strerror) (full := full) (.nil c) home (.read f.fd m) _ (.error EINTR) c.sh _ ht he
      refine ⟨_, c', h0.trans h1, by simp [h2], ?_, ?_, h5⟩
      · show Took.entries _ + entriesOf as = 0
        rw [h3]; rfl
      · show (List.filter Took.inVain (⟨.read f.fd m, .error EINTR⟩ :: as)).length = _
        rw [List.filter_cons, if_pos (by rfl), List.length_cons]
        unfold inVain at h4
        rw [h4]

/-- C104: a read that the system interrupts again and again goes on for as long as that: no bound holds that does not count interruptions. -/
theorem C104_interrupted (N : Nat) : ∃ w L1 L2 n, Setting w L1 L2 n ∧ ∃ es c, Run strerror full (Conf.init w L1 L2 n) es c ∧
    ∃ t op, c.th[t]? = some .idle ∧ c.Allowed op ∧ ∃ fuel as c', During strerror full t (c.begin strerror full fuel t op) as c' ∧
      as.length = N ∧ toWrite op (c.objOf op) = 0 ∧ entriesOf as = 0 ∧ inVain as < fuel ∧ ∃ cmd, c'.next t cmd := by
  let w : World := ⟨tableKernel, calm :: List.replicate N { fail := some EINTR }, []⟩
  have hx : ∃ c es, play strerror full 9 [.call 0 (.newSequential (lit "/db/t")), .move 0, .ret 0] (Conf.init w 1 1 1) = some (es, c) ∧
      c.th[0]? = some .idle ∧ c.objs[0]? = some (some (.seq ⟨1, lit "/db/t"⟩)) ∧
      c.w.choices = List.replicate N { fail := some EINTR } := ⟨_, _, rfl, rfl, rfl, rfl⟩
  obtain ⟨c, es, hp, ht, ho, hc⟩ := hx
  refine ⟨w, 1, 1, 1, ⟨rfl, ?_, by decide, by decide⟩, es, c, play_run _ _ _ _ hp, 0, .seqRead 0 1, ht,
    ⟨fun _ _ e => (nomatch e), _, ho⟩, N + 1, ?_⟩
  · intro x hx
    rcases List.mem_cons.1 hx with h | h
    · subst h; exact fun k => ⟨fun _ => Iff.rfl, fun _ => Iff.rfl⟩
    · rw [List.eq_of_mem_replicate h]; exact fun k => ⟨fun _ => Iff.rfl, fun _ => Iff.rfl⟩
  · have hob : c.objOf (.seqRead 0 1) = some (.seq ⟨1, lit "/db/t"⟩) := by
      show (c.objs[0]?).join = _
      rw [ho]; rfl
    obtain ⟨as, c', h1, h2, h3, h4, h5⟩ := interrupted_along strerror full ⟨1, lit "/db/t"⟩ 1 1 (.own 0)
      (fun x => .ret (.back (some (.seq ⟨1, lit "/db/t"⟩)) (.data x.1 x.2))) 0 N (N + 1)
      (c.begin strerror full (N + 1) 0 (.seqRead 0 1)) (by omega)
      (by
        have := List.getElem?_set_self (l := c.th) (a := Thread.run (homeOf (.seqRead 0 1)) (body strerror full (N + 1) (.seqRead 0 1) (c.objOf (.seqRead 0 1))))
          (List.getElem?_eq_some_iff.1 ht).1
        refine this.trans ?_
        rw [hob]; rfl) hc
    exact ⟨as, c', h1, h2, rfl, h3, by omega, h5⟩

/-! ## Concrete runs -/

/-- What a thread does in a schedule in which it neither makes a call nor returns. -/
def watch (strerror : Strerror) (full : Bool) (fuel t : Nat) : List Act → Conf → Option (List Took × Conf)
  | [], c => some ([], c)
  | .move u :: as, c =>
    match c.th[u]? with
    | some (.run home (.call cmd k)) =>
      match cmd.exec c.sh c.w with
      | .done (r, sh) w =>
        match watch strerror full fuel t as { c with w := w, sh := sh, th := c.th.set u (.run home (k r)) } with
        | some (ts, c') => some (if u = t then (⟨cmd, r⟩ :: ts, c') else (ts, c'))
        | none => none
      | _ => none
    | _ => none
  | .call u op :: as, c =>
    if u = t then none
    else match c.th[u]? with
      | some .idle => if allowedB c op then watch strerror full fuel t as (c.begin strerror full fuel u op) else none
      | _ => none
  | .ret u :: as, c =>
    if u = t then none
    else match c.th[u]? with
      | some (.run home (.ret a)) => watch strerror full fuel t as (c.finish u home a).1
      | _ => none

theorem watch_during {fuel : Nat} : ∀ (acts : List Act) (c c' : Conf) (as : List Took),
    watch strerror full fuel t acts c = some (as, c') → During strerror full t c as c' := by
  intro acts
  induction acts with
  | nil => intro c c' as h; injection h with h; injection h with h1 h2; subst h1 h2; exact .nil _
  | cons a acts ih =>
    intro c c' as h
    cases a with
    | call u op =>
      unfold watch at h
      split at h
      · exact nomatch h
      · rename_i hu
        split at h
        · rename_i ht
          split at h
          · rename_i ha
            have h0 : During strerror full t c [] (c.begin strerror full fuel u op) :=
              .others (.nil c) (.call c u op fuel ht (allowed_of_B ha)) (List.getElem?_set_ne hu)
            exact h0.trans (ih _ _ _ h)
          · exact nomatch h
        · exact nomatch h
    | move u =>
      unfold watch at h
      split at h
      · rename_i home cmd k hu
        split at h
        · rename_i r sh w he
          split at h
          · rename_i ts c1 h1
            by_cases e : u = t
            · subst e
              rw [if_pos rfl] at h
              injection h with h; injection h with h2 h3; subst h2 h3
              exact (During.mine (.nil c) home cmd k r sh w hu he).trans (ih _ _ _ h1)
            · rw [if_neg e] at h
              injection h with h; injection h with h2 h3; subst h2 h3
              have h0 : During strerror full t c [] { c with w := w, sh := sh, th := c.th.set u (.run home (k r)) } :=
                .others (.nil c) (.move c u home cmd k r sh w hu he) (List.getElem?_set_ne e)
              exact h0.trans (ih _ _ _ h1)
          · exact nomatch h
        · exact nomatch h
      · exact nomatch h
    | ret u =>
      unfold watch at h
      split at h
      · exact nomatch h
      · rename_i hu
        split at h
        · rename_i home a ht
          have h0 : During strerror full t c [] (c.finish u home a).1 :=
            .others (.nil c) (.ret c u home a ht) (by cases a <;> exact List.getElem?_set_ne hu)
          exact h0.trans (ih _ _ _ h)
        · exact nomatch h

/-- An interruption, nothing written, one byte, everything. -/
def slowChoices : List Choice := [calm, calm, { fail := some EINTR }, { count := 0 }, { count := 1 }, calm, calm, calm, calm]

/-- The process of the examples. -/
def slowStart (cs : List Choice) : Conf := Conf.init ⟨tableKernel, cs, []⟩ 1 1 2

/-- Thread 0 opens a file and appends three bytes. -/
def slowOpen (n : Bytes) (d : Bytes) : List Act :=
  [.call 0 (.newWritable n), .move 0, .ret 0, .call 0 (.write 0 (.append ⟨d, 0, d.length⟩)), .ret 0]

/-- The steps of a call of thread 0 and what they cost: steps, in vain, entries, bytes to write. -/
def watched (full : Bool) (cs : List Choice) (before : List Act) (op : POp) (acts : List Act) : Option (List Nat × Bool) :=
  match play (fun _ => []) full 20 before (slowStart cs) with
  | some (_, c) =>
    match watch (fun _ => []) full 20 0 acts (c.begin (fun _ => []) full 20 0 op) with
    | some (as, c') => some ([as.length, inVain as, entriesOf as, toWrite op (c.objOf op)],
        match c'.th[0]? with | some (Thread.run _ (Prog.ret _)) => true | _ => false)
    | none => none
  | none => none

/-- `Flush` of three bytes while the other thread opens the file: four `write`s. -/
example : watched false slowChoices (slowOpen (lit "/db/x") [7, 8, 9]) (.write 0 .flush)
    [.call 1 (.newSequential (lit "/db/x")), .move 1, .move 0, .ret 1, .move 0, .move 0, .move 0] = some ([4, 2, 0, 3], true) := by
  decide +kernel

/-- The bound is met: `Sync` of a manifest with nothing to write where `F_FULLFSYNC` does not work takes six steps. -/
example : watched true [calm, calm, { fail := some EIO }, calm, calm, { fail := some EIO }, calm] (slowOpen (lit "/db/MANIFEST-1") []) (.write 0 .sync)
    [.move 0, .move 0, .move 0, .move 0, .move 0, .move 0] = some ([6, 0, 0, 0], true) := by
  decide +kernel

/-- A directory with three entries ("." and ".." too) is listed. -/
example : watched false [calm, calm, calm, calm, calm, calm, calm, calm, calm] [] (.getChildren (lit "/db"))
    [.move 0, .call 1 (.removeFile (lit "/db/t")), .move 1, .move 0, .move 0, .move 0, .move 0, .move 0] = some ([6, 0, 3, 0], true) := by
  decide +kernel

/-- The hypotheses of C104 hold in these runs. -/
example : ∃ es c c' as, Setting (slowStart slowChoices).w 1 1 2 ∧ Run (fun _ => []) false (slowStart slowChoices) es c ∧ c.th[0]? = some .idle ∧
    c.Allowed (.write 0 .flush) ∧ During (fun _ => []) false 0 (c.begin (fun _ => []) false 20 0 (.write 0 .flush)) as c' ∧
    toWrite (.write 0 .flush) (c.objOf (.write 0 .flush)) + inVain as + entriesOf as < 20 ∧ as.length = 4 ∧ inVain as = 2 := by
  have hx : watched false slowChoices (slowOpen (lit "/db/x") [7, 8, 9]) (.write 0 .flush)
    [.call 1 (.newSequential (lit "/db/x")), .move 1, .move 0, .ret 1, .move 0, .move 0, .move 0] = some ([4, 2, 0, 3], true) := by
    decide +kernel
  have hy : (play (fun _ => []) false 20 (slowOpen (lit "/db/x") [7, 8, 9]) (slowStart slowChoices)).map
      (fun x => (allowedB x.2 (.write 0 .flush), match x.2.th[0]? with | some .idle => true | _ => false)) = some (true, true) := by
    decide +kernel
  unfold watched at hx
  cases hp : play (fun _ => []) false 20 (slowOpen (lit "/db/x") [7, 8, 9]) (slowStart slowChoices) with
  | none => rw [hp] at hx; exact nomatch hx
  | some y =>
    obtain ⟨es, c⟩ := y
    rw [hp] at hx hy
    dsimp only at hx
    split at hx
    · rename_i as c' hw
      injection hx with hx
      injection hx with h1 _
      injection h1 with h1 h2
      injection h2 with h2 h3
      injection h3 with h3 h4
      injection h4 with h4 _
      injection hy with hy
      injection hy with hy1 hy2
      refine ⟨es, c, c', as, ⟨rfl, ?_, by decide, by decide⟩, play_run _ _ _ _ hp, ?_, allowed_of_B hy1, watch_during _ _ _ _ hw, ?_, h1, h2⟩
      · intro x hm
        have : ∀ x ∈ slowChoices, x.other = id := by
          intro x hm
          simp only [slowChoices, List.mem_cons, List.not_mem_nil, or_false] at hm
          rcases hm with h | h | h | h | h | h | h | h | h <;> rw [h] <;> rfl
        intro k
        rw [this x hm]
        exact ⟨fun _ => Iff.rfl, fun _ => Iff.rfl⟩
      · split at hy2
        · assumption
        · exact nomatch hy2
      · omega
    · exact nomatch hx

end Conc
end Posix
end Lsmdb
