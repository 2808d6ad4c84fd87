import Verif.Proof.PosixPool3
import Verif.Props.PosixPool

/-!
# Random-access files opened while files are renamed over each other (C100)
-/

namespace Lsmdb
namespace Posix
namespace Conc

open MemEnv (St lit)

/-- C100: random-access files opened under one of the names read one file.  Of every object `o` (of kind `P`) that a thread gets from
`NewRandomAccessFile`, while others rename the files over each other or remove them, all reads up to any later moment return bytes of one
and the same file of `S`. -/
def ReadsOneFile (P : Obj → Prop) (N : Bytes → Prop) (S : Nat → Option Bytes) : Prop :=
  ∀ (strerror : Strerror) (full : Bool) (w : World) (L1 L2 : Int) (m : Nat) (es0 : List Ev) (c0 : Conf) (t h : Nat) (name : Bytes) (ds : List Ev)
    (c1 : Conf) (es : List Ev) (c : Conf) (o : Obj),
    Setting w L1 L2 m → Run strerror full (Conf.init w L1 L2 m) es0 c0 → Pool N S c0 → N (cstr name) →
    CallIn strerror full t (.newRandomAccess name) (.opened .ok (some h)) c0 ds c1 → Run strerror full c1 es c → Orderly N (ds ++ es) →
    c1.has h o → P o →
    ∃ i D, S i = some D ∧ ∀ u offset n r, offset + n < 2 ^ 64 → (POp.randRead h offset n, r) ∈ exchanges u es →
      ReadOf c.w.k (∃ o, c.has h o) D offset n r

variable {strerror : Strerror} {full : Bool} {t h : Nat} {name : Bytes}
variable {N : Bytes → Prop} {S : Nat → Option Bytes} {T : Bytes → Prop}

theorem rand_along {w : World} {L1 L2 : Int} {m : Nat} (hs : Setting w L1 L2 m) (hN : N (cstr name)) :
    Along strerror full (Reached strerror full N S T w L1 L2 m) t .none (RandOpen S name) := by
  refine ⟨?_, ?_⟩
  · rintro c c' e p ⟨hP, es, hr⟩ hp ht hstep hsame hsp
    obtain ⟨F, M, len, hL, hG⟩ := hp hsp
    refine ⟨F, M, len, hL, hG.imp id ?_⟩
    rintro ⟨ino, D, hS, hG⟩
    refine ⟨ino, D, hS, ?_⟩
    cases hstep with
    | call => exact hG
    | ret => rw [finish_w]; exact hG
    | move u home cmd k r sh w' hu hx =>
      obtain ⟨fo, mo, lo, gs, H⟩ := hs.inv hr
      obtain ⟨g, hg⟩ := H.ghost ht
      have hrun := H.run t .none p g ht hg
      have hL := hL.leads
      by_cases hne : u = t
      · subst hne
        have hsame : (c.th.set u (.run home (k r)))[u]? = c.th[u]? := hsame
        rw [List.getElem?_set_self (List.getElem?_eq_some_iff.1 ht).1, hu] at hsame
        injection hsame with hsame
        injection hsame with _ hsame
        exact (prog_ne _ _ _ rfl hsame).elim
      · refine ⟨fun i hi => ?_, fun m hm => ?_⟩
        · have hown : fo i = .thr t := (H.F.thr t i).2 ⟨g, hg, hL.needF hi hrun hsp⟩
          have := H.stays hu hx (i := i) (fun x hxm k => ((hP.choices x hxm).1 k).2.2) (by rw [hown]; simp)
            (by rw [hown]; exact fun e => hne (Owner.thr.inj e).symm)
          simp only
          rw [this]
          exact hG.fd i hi
        · refine exec_map ?_ (fun x hxm k => ((hP.choices x hxm).1 k).2.2.2) (hG.map m hm) hx
          rintro rfl
          have hown : mo m = .thr t := (H.M.thr t m).2 ⟨g, hg, hL.needM hm hrun hsp⟩
          rw [H.unmaps hu] at hown
          exact hne (Owner.thr.inj hown)
  · rintro c cmd k r sh w' ⟨hP, es, hr⟩ hp ht hx -
    obtain ⟨F, M, len, hL, hG⟩ := hp nofun
    have hL' := exec_lasts hx (hP.progs t .none _ ht).1 hP.choices hP.lasts
    exact has2_own hL hG hP.choices hx hN hP.lasts hL'

/-- What a thread gets that opens a random-access file. -/
theorem rand_opened {w : World} {L1 L2 : Int} {m : Nat} (hs : Setting w L1 L2 m) {es0 : List Ev} {c0 : Conf}
    (h0 : Run strerror full (Conf.init w L1 L2 m) es0 c0) (hx : Pool N S c0) (hN : N (cstr name)) {ds : List Ev} {c1 : Conf}
    (hc : CallIn strerror full t (.newRandomAccess name) (.opened .ok (some h)) c0 ds c1) (he : Orderly N ds) :
    Reached strerror full N S (fun _ => False) w L1 L2 m c1 ∧ ∃ o F M len, c1.has h o ∧ LeadsTo false name len F M o ∧
      ((F = none ∧ M = none) ∨ ∃ ino D, S ino = some D ∧ Has2 c1.w.k ino len F M) ∧ (isMapped o → ∃ j E, S j = some E ∧ len = E.length) := by
  obtain ⟨c3, a, -, -, hP, hR, e1, e2⟩ := (rand_along hs hN).call (op := .newRandomAccess name) hc (fun hI hs he => Reached.step hI hs he)
    ⟨hx.peaceful, _, h0⟩ (fun t op hm => he.obeys t op hm) ⟨trivial, fun _ h => h.elim⟩
    (fun fuel _ _ _ => ⟨none, none, 0, Far.start, .inl ⟨rfl, rfl⟩⟩)
  refine ⟨hR, ?_⟩
  obtain ⟨F, M, len, hL, hG⟩ := hP nofun
  have hw3 : c1.w = c3.w := by rw [e1]; exact finish_w _ _ _
  have hl := hL.leads.2
  cases a with
  | back o r =>
    exact (hl .ok h e2.symm).elim
  | new o =>
    have e2 : PRes.opened .ok (some h) = .opened .ok (some c3.objs.length) := e2
    injection e2 with _ e2
    injection e2 with e2
    subst e2
    have ho : c1.has c3.objs.length o := by
      rw [e1]
      show (c3.objs ++ [_])[c3.objs.length]? = _
      simp
    rw [hw3]
    refine ⟨o, F, M, len, ho, hl, hG, fun hm => ?_⟩
    cases o with
    | mmap f =>
      rcases hL with ⟨rfl, -⟩ | ⟨-, -, h3⟩
      · exact nomatch hl.2.2.1
      · exact h3
    | _ => exact hm.elim

/-- C100, the part that holds: an object that has a descriptor, or a mapping if all the files have the same length, reads one file. -/
theorem serves_one {w : World} {L1 L2 : Int} {m : Nat} (hs : Setting w L1 L2 m) {c1 : Conf}
    (hR : Reached strerror full N S (fun _ => False) w L1 L2 m c1) {o : Obj} {ino : Nat} {D : Bytes} (hS : S ino = some D)
    (ho : c1.has h o) (hv : Serves c1.w.k name ino D o) (hb : byName o = false) {es : List Ev} {c : Conf}
    (hr : Run strerror full c1 es c) (he : Orderly N es) {u offset n : Nat} {r : PRes} (hoff : offset + n < 2 ^ 64)
    (hm : (POp.randRead h offset n, r) ∈ exchanges u es) : ReadOf c.w.k (∃ o, c.has h o) D offset n r := by
  obtain ⟨hp, es1, r1⟩ := hR
  have hst := hp.still (o := o) (name := name) hr he.obeys hS hb
  have hp' := Peace.all hr he.obeys hp
  exact serves_reads hs r1 ho hv (fun x hxm k => ((hp.choices x hxm).1 k).2.2) hst (hp'.lasts.files ino D hS) hoff hm

/-- C100, proved part: objects with a descriptor of their own read one file. -/
theorem C100_descriptor_partial (N : Bytes → Prop) (S : Nat → Option Bytes) : ReadsOneFile hasFd N S := by
  intro strerror full w L1 L2 m es0 c0 t h name ds c1 es c o hs h0 hx hN hc hr he ho hP
  obtain ⟨hR, o', F, M, len, ho', hL, hG, -⟩ := rand_opened hs h0 hx hN hc fun t op hm => he t op (List.mem_append_left _ hm)
  have e := get_some_eq ho ho'
  injection e with e
  subst e
  cases o with
  | rand f =>
    have hp : f.has_permanent_fd = true := hP
    obtain ⟨-, h1, h2, h3⟩ := hL
    rw [if_pos hp] at h3
    obtain ⟨i, hF, hfd⟩ := h3
    rcases hG with h | ⟨ino, D, hS, hG⟩
    · rw [h.1] at hF; exact nomatch hF
    · refine ⟨ino, D, hS, fun u offset n r hoff hm => ?_⟩
      refine serves_one hs hR hS ho ?_ (by simp [byName, hp]) hr (fun t op hm => he t op (List.mem_append_right _ hm)) hoff hm (name := name)
      refine ⟨hR.1.lasts.files ino D hS, h1, ?_⟩
      rw [if_pos hp]
      obtain ⟨q, hq, hi, hrd, -⟩ := hG.fd i hF
      exact ⟨by omega, q, by rw [hfd]; exact hq, hi, hrd⟩
  | _ => exact hP.elim

/-- C100, proved part: if all the files have the same length, objects with a mapping read one file. -/
theorem C100_mapped_partial (N : Bytes → Prop) (S : Nat → Option Bytes) (hlen : ∀ i j D E, S i = some D → S j = some E → D.length = E.length) :
    ReadsOneFile isMapped N S := by
  intro strerror full w L1 L2 m es0 c0 t h name ds c1 es c o hs h0 hx hN hc hr he ho hP
  obtain ⟨hR, o', F, M, len, ho', hL, hG, hE⟩ := rand_opened hs h0 hx hN hc fun t op hm => he t op (List.mem_append_left _ hm)
  have e := get_some_eq ho ho'
  injection e with e
  subst e
  obtain ⟨j, E, hj, hl⟩ := hE hP
  cases o with
  | mmap f =>
    obtain ⟨-, h1, h2, h3⟩ := hL
    rcases hG with h | ⟨ino, D, hS, hG⟩
    · rw [h.2] at h2; exact nomatch h2
    · refine ⟨ino, D, hS, fun u offset n r hoff hm => ?_⟩
      refine serves_one hs hR hS ho ?_ rfl hr (fun t op hm => he t op (List.mem_append_right _ hm)) hoff hm (name := name)
      exact ⟨hR.1.lasts.files ino D hS, h1, by rw [h3]; exact hG.map _ h2, by rw [h3, hl]; exact hlen _ _ _ _ hj hS⟩
  | _ => exact hP.elim

/-! ## Objects that open the file for each read -/

/-- The object is there, or it is gone for good. -/
def Lives (h : Nat) (o : Obj) (c : Conf) : Prop :=
  c.objs[h]? = some (some o) ∨
    (c.objs[h]? = some none ∧ ∀ (t : Nat) p, c.th[t]? = some (.run (.own h) p) → Returns (fun a => ∃ r, a = Fin.back none r) p)

/-- A random-access file object is never replaced by another one. -/
theorem Lives.step {ext extm : Nat → Prop} {L : Lim → Int} {c c' : Conf} {fo mo : Nat → Owner} {lo : Bytes → Owner} {gs : List Ghost}
    {f : RandFile} {e : Option Ev} (H : Inv ext extm L c fo mo lo gs) (J : Lives h (.rand f) c) (hs : Step strerror full c e c') :
    Lives h (.rand f) c' := by
  cases hs with
  | call t op fuel ht ha =>
    by_cases hh : handle op = some h
    · obtain ⟨o', ho'⟩ := there_of_allowed ha hh
      rcases J with h1 | ⟨h1, -⟩
      · obtain ⟨_, ha'⟩ := ha
        cases op with
        | unlockFile a =>
          injection hh with hh; subst hh
          obtain ⟨fd, n, h3⟩ := ha'
          cases get_some_eq h3 h1
        | seqRead a n =>
          injection hh with hh; subst hh
          obtain ⟨f, h3⟩ := ha'
          cases get_some_eq h3 h1
        | seqSkip a n =>
          injection hh with hh; subst hh
          obtain ⟨f, h3⟩ := ha'
          cases get_some_eq h3 h1
        | write a n =>
          injection hh with hh; subst hh
          obtain ⟨f, h3⟩ := ha'
          cases get_some_eq h3 h1
        | delete a =>
          injection hh with hh; subst hh
          right
          refine ⟨set_get_self h1, fun u p hu => ?_⟩
          have hu : (c.th.set t (.run (.own a) (body strerror full fuel (.delete a) (c.objOf (.delete a)))))[u]? = some (.run (.own a) p) := hu
          rcases get_set hu with ⟨_, hu⟩ | ⟨rfl, e⟩
          · have := H.own _ _ _ hu
            rw [h1] at this; cases this
          · injection e with _ e
            rw [e, objOf_eq rfl h1]
            exact returns_delete fuel a _
        | randRead a b n =>
          injection hh with hh; subst hh
          exact .inl h1
        | _ => exact nomatch hh
      · rw [ho'] at h1; cases h1
    · rcases J with h1 | ⟨h1, h2⟩
      · exact .inl ((begin_objs hh).trans h1)
      · refine .inr ⟨(begin_objs hh).trans h1, fun u p hu => ?_⟩
        have hu : (c.th.set t (.run (homeOf op) (body strerror full fuel op (c.objOf op))))[u]? = some (.run (.own h) p) := hu
        rcases get_set hu with ⟨_, hu⟩ | ⟨rfl, e⟩
        · exact h2 u p hu
        · injection e with e _
          exact (hh (homeOf_own e.symm)).elim
  | ret t home a ht =>
    have hobj : ∀ {z : Option Obj}, home ≠ .own h → c.objs[h]? = some z → (c.finish t home a).1.objs[h]? = some z := by
      intro z hn hz
      cases a with
      | new o => exact push_get hz
      | back o r =>
        cases home with
        | own a =>
          show (c.objs.set a o)[h]? = _
          rw [List.getElem?_set_ne]
          · exact hz
          · rintro rfl; exact hn rfl
        | none => exact hz
        | reads a => exact hz
    rcases J with h1 | ⟨h1, h2⟩
    · refine .inl (hobj ?_ h1)
      rintro rfl
      have := H.own t h _ ht
      rw [h1] at this; cases this
    · refine .inr ⟨?_, fun u p hu => ?_⟩
      · by_cases hn : home = .own h
        · subst hn
          obtain ⟨r, rfl⟩ := h2 t _ ht
          exact set_get_self h1
        · exact hobj hn h1
      · rw [finish_th] at hu
        rcases get_set hu with ⟨_, hu⟩ | ⟨rfl, e⟩
        · exact h2 u p hu
        · exact nomatch e
  | move t home cmd k r sh w ht hx =>
    rcases J with h1 | ⟨h1, h2⟩
    · exact .inl h1
    · refine .inr ⟨h1, fun u p hu => ?_⟩
      rcases get_set hu with ⟨_, hu⟩ | ⟨rfl, e⟩
      · exact h2 u p hu
      · injection e with e1 e2
        subst e1 e2
        exact h2 u _ ht r

/-- What one read may return: bytes of one of the files. -/
def OneOf (S : Nat → Option Bytes) (offset n : Nat) (st : St) (d : Option Bytes) : Prop :=
  (st = .ok → ∃ i D, S i = some D ∧ d.getD [] <+: D.drop offset ∧ (d.getD []).length ≤ n ∧ (d.getD [] = [] ↔ n = 0 ∨ D.length ≤ offset)) ∧
    (st ≠ .ok → d.getD [] = [])

/-- A read that opens the file. -/
def TempRead (strerror : Strerror) (S : Nat → Option Bytes) (f : RandFile) (offset n : Nat) (p : Prog Fin) (c : Conf) : Prop :=
  p = tempProg strerror f offset n ∨
    (∃ (i ino : Nat) (D : Bytes) (q : Ofd), p = tempRead strerror f offset n (i : Int) ∧ S ino = some D ∧ c.w.k.ofd (i : Int) = some q ∧ q.ino = ino ∧
      q.rd = true) ∨
    (∃ fd st d, p = tempClose fd st d ∧ OneOf S offset n st d) ∨ ∃ st d, p = .ret (.ans (.data st d)) ∧ OneOf S offset n st d

theorem oneOf_failed {offset n : Nat} {s : Bytes} {e : Errno} {d : Option Bytes} (hd : d.getD [] = []) :
    OneOf S offset n (PosixError strerror s e) d :=
  ⟨fun h => (PosixError_ne_ok strerror s e h).elim, fun _ => hd⟩

theorem temp_along {w : World} {L1 L2 : Int} {m : Nat} (hs : Setting w L1 L2 m) {f : RandFile} {offset n : Nat} (hoff : offset < 2 ^ 64)
    (hN : N (cstr f.filename)) {I : Conf → Prop} (hI : ∀ c, I c → Reached strerror full N S T w L1 L2 m c) :
    Along strerror full I t (.reads h) (TempRead strerror S f offset n) := by
  refine ⟨?_, ?_⟩
  · intro c c' e p hIc hp ht hstep hsame
    obtain ⟨hP, es, hr⟩ := hI c hIc
    rcases hp with h | ⟨i, ino, D, q, h1, h2, h3, h4⟩ | h | h
    · exact .inl h
    · refine .inr (.inl ⟨i, ino, D, q, h1, h2, ?_, h4⟩)
      cases hstep with
      | call => exact h3
      | ret => rw [finish_w]; exact h3
      | move u home cmd k r sh w' hu hx =>
        obtain ⟨fo, mo, lo, gs, H⟩ := hs.inv hr
        have hne : u ≠ t := by
          rintro rfl
          have hsame : (c.th.set u (.run home (k r)))[u]? = c.th[u]? := hsame
          rw [List.getElem?_set_self (List.getElem?_eq_some_iff.1 ht).1, hu] at hsame
          injection hsame with hsame
          injection hsame with _ hsame
          exact prog_ne _ _ _ rfl hsame
        rw [h1] at ht
        have hown : fo i = .thr t := H.temp ht
        have := H.stays hu hx (i := i) (fun x hxm k => ((hP.choices x hxm).1 k).2.2) (by rw [hown]; simp)
          (by rw [hown]; exact fun e => hne (Owner.thr.inj e).symm)
        simp only
        rw [this]
        exact h3
    · exact .inr (.inr (.inl h))
    · exact .inr (.inr (.inr h))
  · intro c cmd k r sh w' hIc hp ht hx
    obtain ⟨hP, es, hr⟩ := hI c hIc
    have hL := exec_lasts hx (hP.progs t _ _ ht).1 hP.choices hP.lasts
    rcases hp with h | ⟨i, ino, D, q, h1, h2, h3, h4, h5⟩ | ⟨fd, st, d, h1, h2⟩ | ⟨st, d, h1, -⟩
    · unfold tempProg at h
      injection h with h1 h2
      subst h1
      cases h2
      obtain ⟨hsy, -⟩ := keep_done hx
      rcases open_found hsy with ⟨e, rfl⟩ | ⟨i, ino, rfl, h3, -, h4⟩
      · exact .inr (.inr (.inr ⟨_, _, rfl, oneOf_failed rfl⟩))
      · obtain ⟨D, hD⟩ := (hL.names _ _ h3).1 hN
        refine .inr (.inl ⟨i, ino, D, _, ?_, hD, h4, rfl, rfl⟩)
        simp only [tempOpened]
        exact if_neg (by omega)
    · unfold tempRead at h1
      injection h1 with e1 e2
      subst e1
      cases e2
      obtain ⟨hsy, -⟩ := keep_done hx
      rcases pread_good (fun x hm => ((hP.choices x hm).1 _).2.2.1) h3 h4 h5 hoff hsy (hL.files ino D h2) with ⟨e, rfl⟩ | ⟨d, rfl, hd⟩
      · exact .inr (.inr (.inl ⟨_, _, _, rfl, oneOf_failed rfl⟩))
      · refine .inr (.inr (.inl ⟨i, .ok, some d, if_pos hd.2.1, fun _ => ⟨ino, D, h2, ?_⟩, fun e => (e rfl).elim⟩))
        exact hd
    · unfold tempClose at h1
      injection h1 with e1 e2
      subst e1
      cases e2
      exact .inr (.inr (.inr ⟨st, d, rfl, h2⟩))
    · exact nomatch h1

/-- C100, proved part: each read from an object that opens the file whenever it reads returns bytes of one of the files (not always the
same one). -/
theorem C100_each_read_partial {w : World} {L1 L2 : Int} {m : Nat} (hs : Setting w L1 L2 m) {es0 : List Ev} {c0 : Conf}
    (h0 : Run strerror full (Conf.init w L1 L2 m) es0 c0) (hx : Pool N S c0) (hN : N (cstr name)) {ds : List Ev} {c1 : Conf}
    (hc : CallIn strerror full t (.newRandomAccess name) (.opened .ok (some h)) c0 ds c1) {o : Obj} (ho : c1.has h o) (hb : byName o = true)
    {u offset n : Nat} {r : PRes} {es : List Ev} {c : Conf} (hr : CallIn strerror full u (.randRead h offset n) r c1 es c)
    (he : Orderly N (ds ++ es)) (hoff : offset < 2 ^ 64) :
    ∃ st d, r = .data st d ∧ (st = .ok → ∃ i D, S i = some D ∧ ReadOf c.w.k (∃ o, c.has h o) D offset n r) ∧ (st ≠ .ok → d.getD [] = []) := by
  obtain ⟨hR, o', F, M, len, ho', hL, hG, -⟩ := rand_opened hs h0 hx hN hc fun t op hm => he t op (List.mem_append_left _ hm)
  have e := get_some_eq ho ho'
  injection e with e
  subst e
  cases o with
  | rand f =>
    obtain ⟨-, rfl, -, h3⟩ := hL
    have hp : f.has_permanent_fd = false := by simpa [byName] using hb
    have h3 : f.fd = -1 := by simpa [hp] using h3
    have hA := temp_along (t := u) (h := h) (n := n) hs hoff hN (I := fun c => Reached strerror full N S (fun _ => False) w L1 L2 m c ∧ Lives h (.rand f) c)
      (fun c h => h.1)
    obtain ⟨c3, a, -, -, hP, -, -, e2⟩ := hA.call (op := .randRead h offset n) (R := Obeys N fun _ => False) hr
      (fun hI hst he' => ⟨Reached.step hI.1 hst he', by
        obtain ⟨⟨-, _, hrun⟩, hl⟩ := hI
        obtain ⟨fo, mo, lo, gs, H⟩ := hs.inv hrun
        exact hl.step H hst⟩) ⟨hR, .inl ho⟩
      (fun t op hm => Orderly.obeys (fun t op hm => he t op (List.mem_append_right _ hm)) t op hm) ⟨trivial, fun _ h => h.elim⟩
      (fun {c} fuel hI ha => by
        left
        obtain ⟨o', ho'⟩ := there_of_allowed (h := h) ha rfl
        rcases hI.2 with h1 | ⟨h1, -⟩
        · rw [objOf_eq rfl h1]
          exact body_temp hp h3 _ _ _ _
        · rw [ho'] at h1; cases h1)
    rcases hP with h | ⟨i, ino, D, q, h1, -⟩ | ⟨fd, st, d, h1, -⟩ | ⟨st, d, h1, h2⟩
    · exact nomatch h
    · exact nomatch h1
    · exact nomatch h1
    · cases h1
      have e2 : r = .data st d := e2
      subst e2
      refine ⟨st, d, rfl, fun e => ?_, h2.2⟩
      obtain ⟨i, D, hS, h4⟩ := h2.1 e
      exact ⟨i, D, hS, .data st d (fun _ => h4) h2.2⟩
  | _ => exact nomatch hb

/-! ## What does not hold -/

/-- As `poolStart`, without slots for descriptors and mappings. -/
def poolZero : Conf := Conf.init ⟨poolKernel, List.replicate 40 calm, []⟩ 0 0 3

theorem zeroPool : Pool (fun p => poolNames p = true) poolFiles poolZero :=
  pool_of_B (by decide +kernel) (by decide +kernel) fun x hx => List.eq_of_mem_replicate hx

theorem zeroSetting : Setting poolZero.w 0 0 3 :=
  ⟨rfl, fun x hx => by
    rw [List.eq_of_mem_replicate hx]
    exact fun k => ⟨fun _ => Iff.rfl, fun _ => Iff.rfl⟩, by decide, by decide⟩

/-- Thread 0 opens "/db/C" (there is no slot left), thread 2 reads from the object, thread 1 renames "/db/n" to "/db/C", thread 2 reads again. -/
def zeroOpen : Option (List Ev × PRes × Conf) :=
  playCallIn (fun _ => []) false 9 [] 0 (.newRandomAccess (lit "/db/C")) [.move 0, .move 0, .move 0, .move 0, .move 0, .move 0] poolZero

def zeroReads (c : Conf) : Option (List Ev × Conf) :=
  play (fun _ => []) false 9 [.call 2 (.randRead 0 0 2), .move 2, .move 2, .move 2, .ret 2, .call 1 (.renameFile (lit "/db/n") (lit "/db/C")), .move 1,
    .ret 1, .call 2 (.randRead 0 0 2), .move 2, .move 2, .move 2, .ret 2] c

/-- C100 is not true of objects that open the file whenever they read (as they do if there are no slots for descriptors and mappings): after
a rename they read another file. -/
theorem C100_violated_by_name : ¬ ReadsOneFile (fun o => byName o = true) (fun p => poolNames p = true) poolFiles := by
  intro hall
  have hex : (zeroOpen.bind fun x => (zeroReads x.2.2).map fun y => (x.2.1, orderlyB poolNames (x.1 ++ y.1), x.2.2.objs[0]?, exchanges 2 y.1)) =
      some (.opened .ok (some 0), true, some (some (.rand ⟨false, -1, lit "/db/C"⟩)),
        [(.randRead 0 0 2, .data .ok (some [1, 2])), (.randRead 0 0 2, .data .ok (some [7, 8]))]) := by rfl
  cases hp : zeroOpen with
  | none => rw [hp] at hex; exact nomatch hex
  | some x =>
    obtain ⟨ds, r, c1⟩ := x
    rw [hp] at hex
    simp only [Option.bind_some] at hex
    cases hp' : zeroReads c1 with
    | none => rw [hp'] at hex; exact nomatch hex
    | some z =>
      obtain ⟨es, c⟩ := z
      rw [hp'] at hex
      injection hex with hex
      injection hex with hr hex
      injection hex with hB hex
      injection hex with ho hm
      dsimp only at hr hB ho hm
      subst hr
      obtain ⟨i, D, hS, h1⟩ := hall _ _ _ _ _ _ _ _ _ _ _ _ _ _ _ _ zeroSetting (.nil _) zeroPool (by rfl) (playCallIn_call hp) (play_run _ _ _ _ hp')
        (orderly_of_B hB) ho rfl
      have h2 := h1 2 0 2 (.data .ok (some [1, 2])) (by decide) (by rw [hm]; simp)
      have h3 := h1 2 0 2 (.data .ok (some [7, 8])) (by decide) (by rw [hm]; simp)
      cases h2 with
      | data _ _ h2 _ =>
        cases h3 with
        | data _ _ h3 _ =>
          have e2 := (h2 rfl).1
          have e3 := (h3 rfl).1
          simp only [Option.getD_some, List.drop_zero] at e2 e3
          match D, e2, e3 with
          | [], e2, _ => exact absurd e2 (by simp)
          | a :: D, e2, e3 =>
            rw [List.cons_prefix_cons] at e2 e3
            have := e2.1.trans e3.1.symm
            exact absurd this (by decide)

/-- Thread 0 opens "/db/n"; before it asks for the size thread 1 renames "/db/C" to it. -/
def raceOpen : Option (List Ev × PRes × Conf) :=
  playCallIn (fun _ => []) false 9 [] 0 (.newRandomAccess (lit "/db/n"))
    [.move 0, .move 0, .call 1 (.renameFile (lit "/db/C") (lit "/db/n")), .move 1, .ret 1, .move 0, .move 0, .move 0] poolStart

def raceRead (c : Conf) : Option (List Ev × Conf) := play (fun _ => []) false 9 [.call 2 (.randRead 0 0 3), .ret 2] c

/-- C100 is not true of mapped files: the size is asked for by name, after the file was opened; if another one has been renamed to the name
in between, the object has a mapping of one file with the length of the other.  Reading beyond the end of the file mapped returns OK, and a
slice whose bytes do not exist. -/
theorem C100_violated_mapped : ¬ ReadsOneFile isMapped (fun p => poolNames p = true) poolFiles := by
  intro hall
  have hex : (raceOpen.bind fun x => (raceRead x.2.2).map fun y =>
      (x.2.1, orderlyB poolNames (x.1 ++ y.1), x.2.2.objs[0]?, exchanges 2 y.1, y.2.objs[0]?, viewBytes y.2.w.k (.view 0 0 3))) =
      some (.opened .ok (some 0), true, some (some (.mmap ⟨0, 3, lit "/db/n"⟩)), [(.randRead 0 0 3, .view .ok (.view 0 0 3))],
        some (some (.mmap ⟨0, 3, lit "/db/n"⟩)), none) := by rfl
  cases hp : raceOpen with
  | none => rw [hp] at hex; exact nomatch hex
  | some x =>
    obtain ⟨ds, r, c1⟩ := x
    rw [hp] at hex
    simp only [Option.bind_some] at hex
    cases hp' : raceRead c1 with
    | none => rw [hp'] at hex; exact nomatch hex
    | some z =>
      obtain ⟨es, c⟩ := z
      rw [hp'] at hex
      injection hex with hex
      injection hex with hr hex
      injection hex with hB hex
      injection hex with ho hex
      injection hex with hm hex
      injection hex with hco hv
      dsimp only at hr hB ho hm hco hv
      subst hr
      obtain ⟨i, D, hS, h1⟩ := hall _ _ _ _ _ _ _ _ _ _ _ _ _ _ _ _ poolSetting (.nil _) poolPool (by rfl) (playCallIn_call hp) (play_run _ _ _ _ hp')
        (orderly_of_B hB) ho trivial
      have h2 := h1 2 0 3 (.view .ok (.view 0 0 3)) (by decide) (by rw [hm]; simp)
      cases h2 with
      | view _ _ _ h2 =>
        rw [hv] at h2
        exact nomatch h2 ⟨_, hco⟩

/-! ## Concrete runs of the parts that hold -/

/-- Both reads of the object that opens the file by name: the second one is of the other file. -/
example : ∃ ds c1 es c, CallIn (fun _ => []) false 0 (.newRandomAccess (lit "/db/C")) (.opened .ok (some 0)) poolZero ds c1 ∧
    CallIn (fun _ => []) false 2 (.randRead 0 0 2) (.data .ok (some [7, 8])) c1 es c ∧
    ∃ i D, poolFiles i = some D ∧ ReadOf c.w.k (∃ o, c.has 0 o) D 0 2 (.data .ok (some [7, 8])) := by
  have hex : (zeroOpen.bind fun x => (playCallIn (fun _ => []) false 9 [.call 1 (.renameFile (lit "/db/n") (lit "/db/C"))] 2 (.randRead 0 0 2)
      [.move 1, .move 2, .ret 1, .move 2, .call 0 (.removeFile (lit "/db/C")), .move 2] x.2.2).map fun y =>
        (x.2.1, orderlyB poolNames (x.1 ++ y.1), x.2.2.objs[0]?, y.2.1)) =
      some (.opened .ok (some 0), true, some (some (.rand ⟨false, -1, lit "/db/C"⟩)), .data .ok (some [7, 8])) := by rfl
  cases hp : zeroOpen with
  | none => rw [hp] at hex; exact nomatch hex
  | some x =>
    obtain ⟨ds, r, c1⟩ := x
    rw [hp] at hex
    simp only [Option.bind_some] at hex
    generalize hp' : playCallIn (fun _ => []) false 9 _ _ _ _ c1 = y at hex
    cases y with
    | none => exact nomatch hex
    | some z =>
      obtain ⟨es, r', c⟩ := z
      injection hex with hex
      injection hex with hr hex
      injection hex with hB hex
      injection hex with ho hm
      dsimp only at hr hB ho hm
      subst hr hm
      obtain ⟨st, d, e, h1, -⟩ := C100_each_read_partial zeroSetting (.nil _) zeroPool (by rfl) (playCallIn_call hp) ho rfl (playCallIn_call hp')
        (orderly_of_B hB) (by decide)
      cases e
      exact ⟨ds, c1, es, c, playCallIn_call hp, playCallIn_call hp', h1 rfl⟩

/-- As `poolStart`, with a slot for a descriptor but none for a mapping. -/
def poolFd : Conf := Conf.init ⟨poolKernel, List.replicate 40 calm, []⟩ 0 1 3

theorem fdPool : Pool (fun p => poolNames p = true) poolFiles poolFd :=
  pool_of_B (by decide +kernel) (by decide +kernel) fun x hx => List.eq_of_mem_replicate hx

theorem fdSetting : Setting poolFd.w 0 1 3 :=
  ⟨rfl, fun x hx => by
    rw [List.eq_of_mem_replicate hx]
    exact fun k => ⟨fun _ => Iff.rfl, fun _ => Iff.rfl⟩, by decide, by decide⟩

/-- Thread 0 opens "/db/C" while thread 1 renames "/db/n" to it; the object has a descriptor of the old file, and reads it, also when the
new one has been removed. -/
example : ∃ ds c1 es c, CallIn (fun _ => []) false 0 (.newRandomAccess (lit "/db/C")) (.opened .ok (some 0)) poolFd ds c1 ∧
    Run (fun _ => []) false c1 es c ∧ (POp.randRead 0 1 2, PRes.data .ok (some [2, 3])) ∈ exchanges 2 es ∧
    ∃ i D, poolFiles i = some D ∧ ReadOf c.w.k (∃ o, c.has 0 o) D 1 2 (.data .ok (some [2, 3])) := by
  have hex : ((playCallIn (fun _ => []) false 9 [] 0 (.newRandomAccess (lit "/db/C")) [.move 0, .move 0,
      .call 1 (.renameFile (lit "/db/n") (lit "/db/C")), .move 1, .move 0, .move 0] poolFd).bind fun x =>
      (play (fun _ => []) false 9 [.ret 1, .call 1 (.removeFile (lit "/db/C")), .call 2 (.randRead 0 1 2), .move 1, .move 2, .ret 2] x.2.2).map fun y =>
        (x.2.1, orderlyB poolNames (x.1 ++ y.1), x.2.2.objs[0]?, (exchanges 2 y.1).head?)) =
      some (.opened .ok (some 0), true, some (some (.rand ⟨true, 0, lit "/db/C"⟩)), some (.randRead 0 1 2, .data .ok (some [2, 3]))) := by rfl
  generalize hp : playCallIn (fun _ => []) false 9 _ _ _ _ poolFd = y at hex
  cases y with
  | none => exact nomatch hex
  | some x =>
    obtain ⟨ds, r, c1⟩ := x
    simp only [Option.bind_some] at hex
    generalize hp' : play (fun _ => []) false 9 _ c1 = y at hex
    cases y with
    | none => exact nomatch hex
    | some z =>
      obtain ⟨es, c⟩ := z
      injection hex with hex
      injection hex with hr hex
      injection hex with hB hex
      injection hex with ho hm
      dsimp only at hr hB ho hm
      subst hr
      have hm := List.mem_of_mem_head? hm
      have hc := playCallIn_call hp
      have hrun := play_run _ _ _ _ hp'
      obtain ⟨i, D, hS, h1⟩ := C100_descriptor_partial (fun p => poolNames p = true) poolFiles _ _ _ 0 1 3 _ _ _ _ _ _ _ _ _ _
        fdSetting (.nil _) fdPool (by rfl) hc hrun (orderly_of_B hB) ho rfl
      exact ⟨ds, c1, es, c, hc, hrun, hm, i, D, hS, h1 2 1 2 _ (by decide) hm⟩

/-- Two files of the same length. -/
def evenKernel : Kernel :=
  { demoKernel with names := (lit "/db/C", 2) :: (lit "/db/n", 3) :: demoKernel.names
                    inodes := demoKernel.inodes ++ [⟨false, [1, 2, 3], []⟩, ⟨false, [7, 8, 9], []⟩] }

def evenStart : Conf := Conf.init ⟨evenKernel, List.replicate 40 calm, []⟩ 1 1 3

def evenFiles : Nat → Option Bytes
  | 2 => some [1, 2, 3]
  | 3 => some [7, 8, 9]
  | _ => none

theorem evenFiles_cases {i : Nat} {D : Bytes} (h : evenFiles i = some D) : (i = 2 ∧ D = [1, 2, 3]) ∨ (i = 3 ∧ D = [7, 8, 9]) := by
  match i with
  | 2 => cases h; exact .inl ⟨rfl, rfl⟩
  | 3 => cases h; exact .inr ⟨rfl, rfl⟩
  | 0 => exact nomatch h
  | 1 => exact nomatch h
  | i + 4 => exact nomatch h

theorem evenPool : Pool (fun p => poolNames p = true) evenFiles evenStart := by
  refine ⟨quiet_of (by decide +kernel), ?_, ?_, ?_, fun x hm => by rw [List.eq_of_mem_replicate hm]; exact calm_leaves⟩
  · intro p i hp
    have h1 : evenKernel.names.all (fun e => poolNames e.1 == (evenFiles e.2).isSome) = true := by decide +kernel
    have := (List.all_eq_true.1 h1) (p, i) (aFind_get _ _ _ hp)
    rw [← Option.isSome_iff_exists]
    have this : poolNames p = (evenFiles i).isSome := by simpa using this
    show poolNames p = true ↔ _
    rw [this]
  · intro i D hi
    rcases evenFiles_cases hi with ⟨rfl, rfl⟩ | ⟨rfl, rfl⟩
    · exact ⟨_, rfl, rfl, rfl⟩
    · exact ⟨_, rfl, rfl, rfl⟩
  · intro i q hq hS
    have h4 : evenKernel.fds.all (fun | some q => !(evenFiles q.ino).isSome || !q.wr | none => true) = true := by decide +kernel
    have h5 := (toNat_lt_of_ofd hq).2
    have := (List.all_eq_true.1 h4) (some q) (List.mem_of_getElem? h5)
    rw [← Option.isSome_iff_exists] at hS
    simpa [hS] using this

/-- The race of `C100_violated_mapped` with files of the same length: the mapping is one of the file that was opened. -/
example : ∃ ds c1 es c, CallIn (fun _ => []) false 0 (.newRandomAccess (lit "/db/n")) (.opened .ok (some 0)) evenStart ds c1 ∧
    Run (fun _ => []) false c1 es c ∧ (POp.randRead 0 0 3, PRes.view .ok (.view 0 0 3)) ∈ exchanges 2 es ∧
    ∃ i D, evenFiles i = some D ∧ ReadOf c.w.k (∃ o, c.has 0 o) D 0 3 (.view .ok (.view 0 0 3)) := by
  have hex : ((playCallIn (fun _ => []) false 9 [] 0 (.newRandomAccess (lit "/db/n"))
      [.move 0, .move 0, .call 1 (.renameFile (lit "/db/C") (lit "/db/n")), .move 1, .ret 1, .move 0, .move 0, .move 0] evenStart).bind fun x =>
      (raceRead x.2.2).map fun y => (x.2.1, orderlyB poolNames (x.1 ++ y.1), x.2.2.objs[0]?, (exchanges 2 y.1).head?)) =
      some (.opened .ok (some 0), true, some (some (.mmap ⟨0, 3, lit "/db/n"⟩)), some (.randRead 0 0 3, .view .ok (.view 0 0 3))) := by rfl
  generalize hp : playCallIn (fun _ => []) false 9 _ _ _ _ evenStart = y at hex
  cases y with
  | none => exact nomatch hex
  | some x =>
    obtain ⟨ds, r, c1⟩ := x
    simp only [Option.bind_some] at hex
    cases hp' : raceRead c1 with
    | none => rw [hp'] at hex; exact nomatch hex
    | some z =>
      obtain ⟨es, c⟩ := z
      rw [hp'] at hex
      injection hex with hex
      injection hex with hr hex
      injection hex with hB hex
      injection hex with ho hm
      dsimp only at hr hB ho hm
      subst hr
      have hm := List.mem_of_mem_head? hm
      have hc := playCallIn_call hp
      have hrun := play_run _ _ _ _ hp'
      obtain ⟨i, D, hS, h1⟩ := C100_mapped_partial (fun p => poolNames p = true) evenFiles (fun i j D E h1 h2 => by
          rcases evenFiles_cases h1 with ⟨-, rfl⟩ | ⟨-, rfl⟩ <;> rcases evenFiles_cases h2 with ⟨-, rfl⟩ | ⟨-, rfl⟩ <;> rfl) _ _ _ 1 1 3 _ _ _ _ _ _ _ _ _ _
        ⟨rfl, fun x hx => by
          rw [List.eq_of_mem_replicate hx]
          exact fun k => ⟨fun _ => Iff.rfl, fun _ => Iff.rfl⟩, by decide, by decide⟩ (.nil _)
        evenPool (by rfl) hc hrun (orderly_of_B hB) ho trivial
      exact ⟨ds, c1, es, c, hc, hrun, hm, i, D, hS, h1 2 0 3 _ (by decide) hm⟩

end Conc
end Posix
end Lsmdb
