import Verif.Proof.PosixPool1

/-! Runs of threads that rename files among each other. -/

namespace Lsmdb
namespace Posix

open MemEnv (St lit)

namespace Conc

variable {N : Bytes → Prop} {S : Nat → Option Bytes} {T : Bytes → Prop} {c c' : Conf} {strerror : Strerror} {full : Bool}

theorem pooled_lax : Lax (Cmd.pooled N T) :=
  ⟨fun _ => trivial, fun _ _ => trivial, fun _ _ _ => trivial, fun _ _ => trivial, fun _ _ => trivial, fun _ => trivial, fun _ => trivial,
    fun _ => trivial, fun _ _ => trivial, fun _ => trivial, fun _ => trivial, fun _ _ => trivial, fun _ => trivial, fun _ => trivial,
    fun _ => trivial, fun _ => trivial⟩

/-- What is asked of the calls. -/
def Obeys (N T : Bytes → Prop) (op : POp) : Prop := KeepsTo N op ∧ ∀ name, T (cstr name) → NotAway name op

theorem pooled_naming {op : POp} (h : Obeys N T op) : Naming (Cmd.pooled N T) op := by
  obtain ⟨h, h'⟩ := h
  cases op with
  | newSequential n => exact .inr rfl
  | newRandomAccess n => exact .inr rfl
  | newWritable n => exact ⟨.inl h, fun _ _ => .inr rfl⟩
  | newAppendable n => exact ⟨.inl h, fun _ _ => .inr rfl⟩
  | newLogger n => exact .inl h
  | removeFile n => exact fun hT => h' n hT rfl
  | createDir n => exact h
  | renameFile a b => exact ⟨h, fun hT => h' a hT rfl⟩
  | lockFile n => exact .inl h
  | _ => trivial

theorem pooled_fine (o : Obj) : Fine (Cmd.pooled N T) o := by
  cases o with
  | rand f => exact fun _ => .inr rfl
  | wr f => exact .inr rfl
  | _ => trivial

/-- The files are left alone, now and later. -/
structure Peace (N : Bytes → Prop) (S : Nat → Option Bytes) (T : Bytes → Prop) (c : Conf) : Prop where
  lasts : Lasts N S T c.w.k
  progs : ∀ (t : Nat) home p, c.th[t]? = some (.run home p) → Only (Cmd.pooled N T) (FineEnd (Cmd.pooled N T)) p
  choices : ∀ x ∈ c.w.choices, Spares N S T x

theorem Peace.step {e : Option Ev} (h : Peace N S T c) (hs : Step strerror full c e c')
    (he : ∀ t op, e = some (.call t op) → Obeys N T op) : Peace N S T c' := by
  cases hs with
  | call t op fuel ht ha =>
    refine ⟨h.lasts, fun u home p hu => ?_, h.choices⟩
    rcases get_set hu with ⟨_, hu⟩ | ⟨_, e⟩
    · exact h.progs u home p hu
    · cases e
      exact only_body pooled_lax strerror full fuel (pooled_naming (he t op rfl)) fun x _ => pooled_fine x
  | move t home cmd k r sh w ht hx =>
    have hP := h.progs t home _ ht
    refine ⟨exec_lasts hx hP.1 h.choices h.lasts, fun u home' p hu => ?_, fun x hm => h.choices x (exec_choices hx x hm)⟩
    rcases get_set hu with ⟨_, hu⟩ | ⟨_, e⟩
    · exact h.progs u home' p hu
    · cases e; exact hP.2 r
  | ret t home a ht =>
    refine ⟨by rw [finish_w]; exact h.lasts, fun u home' p hu => ?_, by rw [finish_w]; exact h.choices⟩
    rw [finish_th] at hu
    rcases get_set hu with ⟨_, hu⟩ | ⟨_, e⟩
    · exact h.progs u home' p hu
    · exact nomatch e

theorem Peace.all {es : List Ev} (hr : Run strerror full c es c') (he : ∀ t op, Ev.call t op ∈ es → Obeys N T op) (h : Peace N S T c) :
    Peace N S T c' := by
  induction hr with
  | nil => exact h
  | step hr hs ih =>
    exact (ih fun t op hm => he t op (List.mem_append_left _ hm)).step hs
      fun t op e => he t op (List.mem_append_right _ (by rw [e]; exact List.mem_singleton_self _))

theorem FilesOf.growth {k k' : Kernel} (h : FilesOf S k) (h' : FilesOf S k') {i : Nat} {D : Bytes} (hi : S i = some D) :
    Growth (k.inodes[i]?) (k'.inodes[i]?) := by
  intro n hn
  obtain ⟨a, ha, h1, h2⟩ := h i D hi
  obtain ⟨b, hb, h3, h4⟩ := h' i D hi
  rw [ha] at hn
  injection hn with hn
  subst hn
  exact ⟨b, hb, h3.trans h1.symm, by rw [h2, h4]; exact List.prefix_refl _⟩

/-- A reader that has the file open is not disturbed. -/
theorem Peace.still {es : List Ev} {o : Obj} {name D : Bytes} {i : Nat} (hr : Run strerror full c es c')
    (he : ∀ t op, Ev.call t op ∈ es → Obeys N T op) (h : Peace N S T c) (hi : S i = some D) (ho : byName o = false) :
    StillRun strerror full o name i c es c' := by
  induction hr with
  | nil => exact .nil _
  | step hr hs ih =>
    have h1 := Peace.all hr (fun t op hm => he t op (List.mem_append_left _ hm)) h
    have h2 := h1.step hs fun t op e => he t op (List.mem_append_right _ (by rw [e]; exact List.mem_singleton_self _))
    exact .step (ih fun t op hm => he t op (List.mem_append_left _ hm)) hs (h1.lasts.files.growth h2.lasts.files hi)
      fun e => nomatch ho.symm.trans e

/-! ## A call while others go on -/

/-- What is so of a call, by its program: while others make steps, and when it makes a step. -/
structure Along (strerror : Strerror) (full : Bool) (I : Conf → Prop) (t : Nat) (home : Home) (Ph : Prog Fin → Conf → Prop) : Prop where
  other : ∀ {c c' : Conf} {e : Option Ev} {p : Prog Fin}, I c → Ph p c → c.th[t]? = some (.run home p) → Step strerror full c e c' →
    c'.th[t]? = c.th[t]? → Ph p c'
  own : ∀ {c : Conf} {cmd : Cmd} {k : cmd.Resp → Prog Fin} {r : cmd.Resp} {sh : Shared} {w : World}, I c → Ph (.call cmd k) c →
    c.th[t]? = some (.run home (.call cmd k)) → cmd.exec c.sh c.w = .done (r, sh) w →
    Ph (k r) { c with w := w, sh := sh, th := c.th.set t (.run home (k r)) }

theorem Along.step {I : Conf → Prop} {t : Nat} {home : Home} {Ph : Prog Fin → Conf → Prop} (hA : Along strerror full I t home Ph) {e : Option Ev}
    (hI : I c) (hs : Step strerror full c e c') (hb : ∀ r, e ≠ some (.ret t r)) (hp : ∃ p, c.th[t]? = some (.run home p) ∧ Ph p c) :
    ∃ p, c'.th[t]? = some (.run home p) ∧ Ph p c' := by
  obtain ⟨p, hp, hP⟩ := hp
  have key : c'.th[t]? = c.th[t]? → ∃ p, c'.th[t]? = some (.run home p) ∧ Ph p c' := fun e => ⟨p, e.trans hp, hA.other hI hP hp hs e⟩
  cases hs with
  | call u op fuel ht ha =>
    have hne : t ≠ u := by rintro rfl; rw [ht] at hp; exact nomatch hp
    exact key (begin_th_ne hne)
  | ret u home' a ht =>
    have hne : u ≠ t := by rintro rfl; exact hb _ rfl
    exact key (by rw [finish_th, List.getElem?_set_ne hne])
  | move u home' cmd k r sh w ht hx =>
    by_cases hne : u = t
    · subst hne
      have e := get_some_eq ht hp
      injection e with e1 e2
      subst e1 e2
      exact ⟨k r, by simp only; rw [List.getElem?_set_self (List.getElem?_eq_some_iff.1 ht).1], hA.own hI hP ht hx⟩
    · exact key (by simp only; rw [List.getElem?_set_ne hne])

/-- From the call to its return. -/
theorem Along.call {I : Conf → Prop} {t : Nat} {op : POp} {r : PRes} {Ph : Prog Fin → Conf → Prop} {R : POp → Prop} {c0 c1 : Conf} {ds : List Ev}
    (hA : Along strerror full I t (homeOf op) Ph) (hc : CallIn strerror full t op r c0 ds c1)
    (hI : ∀ {c c' : Conf} {e : Option Ev}, I c → Step strerror full c e c' → (∀ t op, e = some (.call t op) → R op) → I c') (h0 : I c0)
    (he : ∀ t op, Ev.call t op ∈ ds → R op) (hop : R op)
    (hb : ∀ {c : Conf} (fuel : Nat), I c → c.Allowed op → Ph (body strerror full fuel op (c.objOf op)) (c.begin strerror full fuel t op)) :
    ∃ c3 a, I c3 ∧ c3.th[t]? = some (.run (homeOf op) (.ret a)) ∧ Ph (.ret a) c3 ∧ I c1 ∧ c1 = (c3.finish t (homeOf op) a).1 ∧
      r = (c3.finish t (homeOf op) a).2 := by
  have all : ∀ {c c' : Conf} {b : List Ev}, Run strerror full c b c' → (∀ t op, Ev.call t op ∈ b → R op) → I c → I c' := by
    intro c c' b hr he h
    induction hr with
    | nil => exact h
    | step hr hs ih =>
      exact hI (ih fun t op hm => he t op (List.mem_append_left _ hm)) hs fun t op e =>
        he t op (List.mem_append_right _ (by rw [e]; exact List.mem_singleton_self _))
  cases hc with
  | @mk _ ca cb cc a b before call meanwhile busy ret =>
    have hIa := all before (fun t op hm => he t op (List.mem_append_left _ hm)) h0
    have hIb := hI hIa call fun t op e => by cases e; exact hop
    have h1 : ∀ {c c' : Conf} {b : List Ev}, Run strerror full c b c' → NotBack t b → (∀ t op, Ev.call t op ∈ b → R op) → I c →
        (∃ p, c.th[t]? = some (.run (homeOf op) p) ∧ Ph p c) → ∃ p, c'.th[t]? = some (.run (homeOf op) p) ∧ Ph p c' := by
      intro c c' b hr hnb he hIc hp
      induction hr with
      | nil => exact hp
      | step hr hs ih =>
        have he' := fun t op hm => he t op (List.mem_append_left _ hm)
        exact hA.step (all hr he' hIc) hs (fun r e => hnb r (List.mem_append_right _ (by rw [e]; exact List.mem_singleton_self _)))
          (ih (fun r hm => hnb r (List.mem_append_left _ hm)) he')
    have he2 : ∀ t op, Ev.call t op ∈ b → R op := fun t op hm => he t op (List.mem_append_right _ hm)
    have hIc := all meanwhile he2 hIb
    obtain ⟨p, h2, h3⟩ := h1 meanwhile busy he2 hIb (by
      cases call with
      | call _ _ fuel ht ha => exact ⟨_, begin_th ht, hb fuel hIa ha⟩)
    have hId := hI hIc ret fun t op e => nomatch e
    cases ret with
    | ret _ home a ht =>
      have e := get_some_eq ht h2
      injection e with e1 e2
      subst e1 e2
      exact ⟨_, a, hIc, ht, h3, hId, rfl, rfl⟩

/-! ## System calls that name a file -/

/-- `open` for reading: what the name means at that moment. -/
theorem open_found {name : Bytes} {w w' : World} {r : Except Errno Int} (hx : sysOpen .rdonly name w = .done r w') :
    (∃ e, r = .error e) ∨ ∃ i ino : Nat, r = .ok (i : Int) ∧ w'.k.lookup (cstr name) = some ino ∧ cstr name ≠ [] ∧
      w'.k.ofd (i : Int) = some (Mode.rdonly.ofd ino) := by
  cases hl : w'.k.lookup (cstr name) with
  | some ino =>
    rcases open_start hx hl with h | ⟨i, h1, h2, h3⟩
    · exact .inl h
    · exact .inr ⟨i, ino, h1, rfl, h2, h3⟩
  | none =>
    left
    obtain ⟨x, -, hf, -⟩ := sys_done2 hx
    cases hfail : x.fail with
    | some e => simp only [hfail] at hf; exact ⟨e, (Prod.mk.inj hf).1.symm⟩
    | none =>
      simp only [hfail, kopen] at hf
      by_cases h0 : cstr name = []
      · rw [if_pos h0] at hf; exact ⟨_, (Prod.mk.inj hf).1.symm⟩
      · rw [if_neg h0] at hf
        cases hl' : (x.other w.k).lookup (cstr name) with
        | none =>
          simp only [hl', Mode.creat, Bool.false_eq_true, if_false] at hf
          exact ⟨_, (Prod.mk.inj hf).1.symm⟩
        | some i =>
          simp only [hl'] at hf
          cases hq : (x.other w.k).inodes[i]? with
          | none => simp only [hq] at hf; exact ⟨_, (Prod.mk.inj hf).1.symm⟩
          | some q =>
            simp only [hq, ne_eq, not_true_eq_false, and_false, if_false, reduceCtorEq] at hf
            have := (Prod.mk.inj hf).2
            rw [← this] at hl
            exact nomatch hl'.symm.trans hl

/-- If nothing fails then a name that exists can be opened. -/
theorem open_succeeds {name : Bytes} {w w' : World} {r : Except Errno Int} (hx : sysOpen .rdonly name w = .done r w')
    (hc : ∀ x ∈ w.choices, Spares N S T x) (h : Lasts N S T w.k) (hT : T (cstr name)) (h0 : cstr name ≠ []) (hno : ∀ x ∈ w.choices, x.fail = none) :
    ∃ i : Nat, r = .ok (i : Int) := by
  obtain ⟨x, hxm, hf, -⟩ := sys_done2 hx
  have h' := h.others (hc x hxm)
  simp only [hno x hxm, kopen, if_neg h0] at hf
  obtain ⟨hN, hl⟩ := h'.found _ hT
  cases hl' : (x.other w.k).lookup (cstr name) with
  | none => exact (hl hl').elim
  | some i =>
    obtain ⟨D, hD⟩ := (h'.names _ _ hl').1 hN
    obtain ⟨n, hn, -⟩ := h'.files i D hD
    simp only [hl', hn, ne_eq, not_true_eq_false, and_false, if_false, reduceCtorEq] at hf
    exact ⟨_, (Prod.mk.inj hf).1.symm⟩

/-- `stat`: the size of what the name means at that moment. -/
theorem stat_found {name : Bytes} {w w' : World} {r : Except Errno Nat} (hx : sysStat name w = .done r w')
    (hc : ∀ x ∈ w.choices, Spares N S T x) (h : Lasts N S T w.k) (hN : N (cstr name)) :
    ∀ n, r = .ok n → ∃ i D, S i = some D ∧ n = D.length := by
  intro n hr
  obtain ⟨x, hxm, hf, -⟩ := sys_done2 hx
  have h' := h.others (hc x hxm)
  cases hfail : x.fail with
  | some e => simp only [hfail] at hf; rw [hr] at hf; exact nomatch (Prod.mk.inj hf).1
  | none =>
    simp only [hfail] at hf
    cases hl : (x.other w.k).lookup (cstr name) with
    | none => simp only [hl] at hf; rw [hr] at hf; exact nomatch (Prod.mk.inj hf).1
    | some i =>
      simp only [hl] at hf
      rw [hr] at hf
      have := (Prod.mk.inj hf).1
      injection this with this
      obtain ⟨D, hD⟩ := (h'.names _ _ hl).1 hN
      obtain ⟨a, ha, -, h2⟩ := h'.files i D hD
      refine ⟨i, D, hD, ?_⟩
      rw [← this]
      unfold Kernel.data
      rw [ha]
      exact congrArg List.length h2

/-- If nothing fails then a name that exists has a size. -/
theorem stat_succeeds {name : Bytes} {w w' : World} {r : Except Errno Nat} (hx : sysStat name w = .done r w')
    (hc : ∀ x ∈ w.choices, Spares N S T x) (h : Lasts N S T w.k) (hT : T (cstr name)) (hno : ∀ x ∈ w.choices, x.fail = none) : ∃ n, r = .ok n := by
  obtain ⟨x, hxm, hf, -⟩ := sys_done2 hx
  have h' := h.others (hc x hxm)
  obtain ⟨hN, hl⟩ := h'.found _ hT
  simp only [hno x hxm] at hf
  cases hl' : (x.other w.k).lookup (cstr name) with
  | none => exact (hl hl').elim
  | some i => simp only [hl'] at hf; exact ⟨_, (Prod.mk.inj hf).1.symm⟩

/-- If nothing fails then a name that exists is there. -/
theorem access_succeeds {name : Bytes} {w w' : World} {r : Except Errno Unit} (hx : sysAccess name w = .done r w')
    (hc : ∀ x ∈ w.choices, Spares N S T x) (h : Lasts N S T w.k) (hT : T (cstr name)) (hno : ∀ x ∈ w.choices, x.fail = none) : r = .ok () := by
  obtain ⟨x, hxm, hf, -⟩ := sys_done2 hx
  have h' := h.others (hc x hxm)
  obtain ⟨hN, hl⟩ := h'.found _ hT
  simp only [hno x hxm] at hf
  cases hl' : (x.other w.k).lookup (cstr name) with
  | none => exact (hl hl').elim
  | some i => simp only [hl'] at hf; exact (Prod.mk.inj hf).1.symm

end Conc
end Posix
end Lsmdb
