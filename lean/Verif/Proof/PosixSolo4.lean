import Verif.Proof.PosixSolo3

/-! The main induction. -/

namespace Lsmdb
namespace Posix

open MemEnv (St lit)

namespace Conc

open Prog

variable {strerror : Strerror} {full : Bool}

theorem callsOn_snoc (h : Nat) (es : List Ev) (e : Option Ev) : callsOn h (es ++ e.toList) = callsOn h es ++ callsOn h e.toList := by
  unfold callsOn; exact List.filterMap_append

theorem callsOn_none (h : Nat) : callsOn h (none : Option Ev).toList = [] := rfl

theorem callsOn_ret (h t : Nat) (r : PRes) : callsOn h (some (Ev.ret t r)).toList = [] := rfl

theorem callsOn_call {h t : Nat} {op : POp} (hh : handle op = some h) : callsOn h (some (Ev.call t op)).toList = [op] := by
  show List.filterMap _ [Ev.call t op] = [op]
  simp [hh]

theorem callsOn_other {h t : Nat} {op : POp} (hh : handle op ≠ some h) : callsOn h (some (Ev.call t op)).toList = [] := by
  show List.filterMap _ [Ev.call t op] = []
  simp [hh]

/-- A call on a plain file fits it. -/
theorem fits_of_allowed {c : Conf} {op : POp} {h : Nat} {o : Obj} (ha : c.Allowed op) (hh : handle op = some h)
    (ho : c.objs[h]? = some (some o)) (hp : Plain o) : Fits op o ∧ homeOf op = .own h := by
  obtain ⟨_, ha⟩ := ha
  cases op with
  | unlockFile a =>
    injection hh with hh; subst hh
    obtain ⟨fd, n, h1⟩ := ha
    cases get_some_eq h1 ho
    exact hp.elim
  | seqRead a n =>
    injection hh with hh; subst hh
    obtain ⟨f, h1⟩ := ha
    cases get_some_eq h1 ho
    exact ⟨trivial, rfl⟩
  | seqSkip a n =>
    injection hh with hh; subst hh
    obtain ⟨f, h1⟩ := ha
    cases get_some_eq h1 ho
    exact ⟨trivial, rfl⟩
  | write a n =>
    injection hh with hh; subst hh
    obtain ⟨f, h1⟩ := ha
    cases get_some_eq h1 ho
    exact ⟨trivial, rfl⟩
  | delete a =>
    injection hh with hh; subst hh
    exact ⟨hp, rfl⟩
  | randRead a b n =>
    injection hh with hh; subst hh
    rcases ha with ⟨f, h1⟩ | ⟨f, h1⟩
    · cases get_some_eq h1 ho; exact hp.elim
    · cases get_some_eq h1 ho; exact hp.elim
  | _ => exact nomatch hh

/-- A call is made on an object that is there. -/
theorem there_of_allowed {c : Conf} {op : POp} {h : Nat} (ha : c.Allowed op) (hh : handle op = some h) :
    ∃ o, c.objs[h]? = some (some o) := by
  obtain ⟨_, ha⟩ := ha
  cases op with
  | unlockFile a => injection hh with hh; subst hh; obtain ⟨fd, n, h1⟩ := ha; exact ⟨_, h1⟩
  | seqRead a n => injection hh with hh; subst hh; obtain ⟨f, h1⟩ := ha; exact ⟨_, h1⟩
  | seqSkip a n => injection hh with hh; subst hh; obtain ⟨f, h1⟩ := ha; exact ⟨_, h1⟩
  | write a n => injection hh with hh; subst hh; obtain ⟨f, h1⟩ := ha; exact ⟨_, h1⟩
  | delete a => injection hh with hh; subst hh; obtain ⟨⟨o, h1, _⟩, _⟩ := ha; exact ⟨_, h1⟩
  | randRead a b n => injection hh with hh; subst hh; rcases ha with ⟨f, h1⟩ | ⟨f, h1⟩ <;> exact ⟨_, h1⟩
  | _ => exact nomatch hh

theorem homeOf_own {op : POp} {h : Nat} (hh : homeOf op = .own h) : handle op = some h := by
  unfold homeOf at hh
  cases hx : handle op with
  | none => rw [hx] at hh; exact nomatch hh
  | some a =>
    rw [hx] at hh
    simp only at hh
    split at hh
    · exact nomatch hh
    · injection hh with hh; rw [hh]

/-- A call on something else does not change the object. -/
theorem begin_objs {c : Conf} {fuel t h : Nat} {op : POp} (hh : handle op ≠ some h) :
    (c.begin strerror full fuel t op).objs[h]? = c.objs[h]? := by
  unfold Conf.begin
  simp only
  split
  · rename_i a ha
    rw [List.getElem?_set_ne]
    rintro rfl
    exact hh (homeOf_own ha)
  · rfl

/-- Nor who owns its descriptor. -/
theorem ownAfter_eq {op : POp} {t h : Nat} {x : Owner} (hh : handle op ≠ some h) (hx : x = .obj h ∨ ∃ u, x = .thr u) : ownAfter op t x = x := by
  unfold ownAfter
  split
  · rename_i a ha
    rw [if_neg]
    rintro rfl
    rcases hx with hx | ⟨u, hx⟩
    · injection hx with hx; subst hx; exact hh (homeOf_own ha)
    · exact nomatch hx
  · rfl

variable {R : Option Inode → Option Inode → Prop} (hrefl : ∀ a, R a a) (htrans : ∀ a b c, R a b → R b c → R a c)
  {ino h i : Nat} {o0 : Obj} {k0 : Kernel}
  {ext extm : Nat → Prop} {L : Lim → Int} {c : Conf} {fo mo : Nat → Owner} {lo : Bytes → Owner} {gs : List Ghost}

/-- Calls. -/
theorem Track.call (H : Inv ext extm L c fo mo lo gs) {fo' : Nat → Owner} {ops : List POp} {x : Option Nat × List PRes}
    (T : Track strerror full R ino h i o0 k0 c fo ops x) {t : Nat} {op : POp} {fuel : Nat} (ht : c.th[t]? = some .idle)
    (ha : c.Allowed op) (hfo : ∀ i, fo' i = ownAfter op t (fo i)) :
    Track strerror full R ino h i o0 k0 (c.begin strerror full fuel t op) fo' (ops ++ callsOn h (some (Ev.call t op)).toList)
      (follow h x (.call t op)) := by
  have hlt : t < c.th.length := (List.getElem?_eq_some_iff.mp ht).1
  by_cases hh : handle op = some h
  · rw [callsOn_call hh]
    have hx : follow h x (.call t op) = (some t, x.2) := if_pos hh
    rw [hx]
    cases T with
    | idle hs ho hp hi hR hfd =>
      obtain ⟨hf, hom⟩ := fits_of_allowed ha hh ho hp
      rename_i rs o k all
      have hown : fo i = .obj h := (H.F.obj h i).2 ⟨o, ho, hi⟩
      refine .busy (t := t) (fuel := fuel) (p := body strerror full fuel op (some o)) hs hf ?_ (cs := []) (fun x hx => nomatch hx)
        (Trail.start _ _) (body_keeps strerror full fuel hf hi) ?_ hR hfd
      · show (c.th.set t _)[t]? = _
        rw [List.getElem?_set_self hlt, hom, objOf_eq hh ho]
      · rw [hfo, hown]
        unfold ownAfter
        rw [hom]
        simp
    | busy hs hf hth hc htr hk hfo' hR hfd =>
      obtain ⟨o, ho⟩ := there_of_allowed ha hh
      have := H.own _ h _ hth
      rw [ho] at this; cases this
    | closing hs hf hth hc htr hcl hR =>
      obtain ⟨o, ho⟩ := there_of_allowed ha hh
      have := H.own _ h _ hth
      rw [ho] at this; cases this
    | closed hs hcl ho hno hR =>
      rename_i ops rs o k all op'
      have : ops ++ [op'] ++ [op] = ops ++ op' :: [op] := by simp
      rw [this]
      exact .over hcl (by simp)
    | over hcl hb =>
      rename_i a b op'
      have : a ++ op' :: b ++ [op] = a ++ op' :: (b ++ [op]) := by simp
      rw [this]
      exact .over hcl (by simp)
  · rw [callsOn_other hh, List.append_nil]
    have hx : follow h x (.call t op) = x := if_neg hh
    rw [hx]
    have keepth : ∀ {u : Nat} {y : Thread}, y ≠ .idle → c.th[u]? = some y → (c.begin strerror full fuel t op).th[u]? = some y := by
      intro u y hy hu
      show (c.th.set t _)[u]? = _
      rw [List.getElem?_set_ne]
      · exact hu
      · rintro rfl
        rw [ht] at hu; injection hu with hu; exact hy hu.symm
    cases T with
    | idle hs ho hp hi hR hfd => exact .idle hs ((begin_objs hh).trans ho) hp hi hR hfd
    | busy hs hf hth hc htr hk hfo' hR hfd =>
      exact .busy hs hf (keepth nofun hth) hc htr hk (by rw [hfo, hfo']; exact ownAfter_eq hh (.inr ⟨_, rfl⟩)) hR hfd
    | closing hs hf hth hc htr hcl hR => exact .closing hs hf (keepth nofun hth) hc htr hcl hR
    | closed hs hcl ho hno hR =>
      refine .closed hs hcl ((begin_objs hh).trans ho) (fun u p hu => ?_) hR
      have hu : (c.th.set t (.run (homeOf op) (body strerror full fuel op (c.objOf op))))[u]? = some (.run (.own h) p) := hu
      rcases get_set hu with ⟨_, hu⟩ | ⟨rfl, e⟩
      · exact hno u p hu
      · injection e with e _
        exact hh (homeOf_own e.symm)
    | over hcl hb => exact .over hcl hb

/-- Returns. -/
theorem Track.ret (H : Inv ext extm L c fo mo lo gs) {fo' : Nat → Owner} {ops : List POp} {x : Option Nat × List PRes}
    (T : Track strerror full R ino h i o0 k0 c fo ops x) {t : Nat} {home : Home} {a : Fin} (ht : c.th[t]? = some (.run home (.ret a)))
    (hfo : ∀ i, fo i ≠ .thr t → fo' i = fo i) :
    Track strerror full R ino h i o0 k0 (c.finish t home a).1 fo'
      (ops ++ callsOn h (some (Ev.ret t (c.finish t home a).2)).toList) (follow h x (.ret t (c.finish t home a).2)) := by
  have hlt : t < c.th.length := (List.getElem?_eq_some_iff.mp ht).1
  rw [callsOn_ret, List.append_nil]
  have hw : (c.finish t home a).1.w = c.w := by cases a <;> rfl
  have hthr : (c.finish t home a).1.th = c.th.set t .idle := by cases a <;> rfl
  -- somebody else's return does not change the object
  have hobj : ∀ {z : Option Obj}, home ≠ .own h → c.objs[h]? = some z → (c.finish t home a).1.objs[h]? = some z := by
    intro z hn hz
    cases a with
    | new o => exact push_get hz
    | back o r =>
      cases home with
      | own a =>
        show (c.objs.set a o)[h]? = _
        rw [List.getElem?_set_ne]
        · exact hz
        · rintro rfl; exact hn rfl
      | none => exact hz
      | reads a => exact hz
  have other : ∀ {u : Nat} {p : Prog Fin}, u ≠ t → c.th[u]? = some (.run (.own h) p) → home ≠ .own h ∧
      (c.finish t home a).1.th[u]? = some (.run (.own h) p) := by
    intro u p hu hp
    refine ⟨?_, ?_⟩
    · rintro rfl
      exact hu (H.own_one u t h _ _ hp ht)
    · rw [hthr, List.getElem?_set_ne (Ne.symm hu)]; exact hp
  cases T with
  | idle hs ho hp hi hR hfd =>
    rename_i rs o k all
    have hx : follow h (none, rs) (.ret t (c.finish t home a).2) = (none, rs) := by simp [follow]
    rw [hx]
    have hn : home ≠ .own h := by
      rintro rfl
      have := H.own t h _ ht
      rw [ho] at this; cases this
    exact .idle hs (hobj hn ho) hp hi (by rw [hw]; exact hR) (by rw [hw]; exact hfd)
  | busy hs hf hth hc htr hk hfo' hR hfd =>
    rename_i ops rs o k k2 all cs u fuel op p
    by_cases hu : u = t
    · subst hu
      have e := get_some_eq hth ht
      injection e with e1 e2
      subst e1 e2
      obtain ⟨o', r, rfl, hp, hi⟩ := hk
      have hx : follow h (some u, rs) (.ret u (c.finish u (.own h) (.back (some o') r)).2) = (none, rs ++ [r]) := if_pos rfl
      rw [hx]
      exact .idle (.snoc hs op fuel cs (some o') r hf hc htr) (set_get_self (H.own u h _ ht)) hp hi hR hfd
    · have hx : follow h (some u, rs) (.ret t (c.finish t home a).2) = (some u, rs) := if_neg (by simpa using hu)
      rw [hx]
      obtain ⟨h1, h2⟩ := other hu hth
      refine .busy hs hf h2 hc htr hk ?_ (by rw [hw]; exact hR) (by rw [hw]; exact hfd)
      rw [hfo i (by rw [hfo']; simpa using hu), hfo']
  | closing hs hf hth hc htr hcl hR =>
    rename_i ops rs o k k2 all cs u fuel op o' r
    by_cases hu : u = t
    · subst hu
      have e := get_some_eq hth ht
      injection e with e1 e2
      injection e2 with e2
      subst e1 e2
      have hx : follow h (some u, rs) (.ret u (c.finish u (.own h) (.back o' r)).2) = (none, rs ++ [r]) := if_pos rfl
      rw [hx]
      refine .closed (.snoc hs op fuel cs o' r hf hc htr) hcl (set_get_self (H.own u h _ ht)) (fun v q hv => ?_) hR
      have hv : (c.th.set u .idle)[v]? = some (.run (.own h) q) := hv
      rcases get_set hv with ⟨hne, hv⟩ | ⟨rfl, e⟩
      · exact hne (H.own_one v u h _ _ hv ht)
      · exact nomatch e
    · have hx : follow h (some u, rs) (.ret t (c.finish t home a).2) = (some u, rs) := if_neg (by simpa using hu)
      rw [hx]
      obtain ⟨h1, h2⟩ := other hu hth
      exact .closing hs hf h2 hc htr hcl (by rw [hw]; exact hR)
  | closed hs hcl ho hno hR =>
    rename_i ops rs o k all op
    have hx : follow h (none, rs) (.ret t (c.finish t home a).2) = (none, rs) := by simp [follow]
    rw [hx]
    refine .closed hs hcl (hobj (fun e => hno t _ (e ▸ ht)) ho) (fun v q hv => ?_) (by rw [hw]; exact hR)
    rw [hthr] at hv
    rcases get_set hv with ⟨hne, hv⟩ | ⟨rfl, e⟩
    · exact hno v q hv
    · exact nomatch e
  | over hcl hb => exact .over hcl hb

variable (hlive : ∀ n b, R (some n) b → ∃ n', b = some n')
include hrefl htrans hlive

/-- Steps inside a call. -/
theorem Track.move (H : Inv ext extm L c fo mo lo gs) {fo' : Nat → Owner} {ops : List POp} {x : Option Nat × List PRes}
    (T : Track strerror full R ino h i o0 k0 c fo ops x) (hC : ∀ x ∈ c.w.choices, Lets R ino i x) {t : Nat} {home : Home} {cmd : Cmd}
    {kont : cmd.Resp → Prog Fin} {r : cmd.Resp} {sh : Shared} {w : World} (ht : c.th[t]? = some (.run home (.call cmd kont)))
    (he : cmd.exec c.sh c.w = .done (r, sh) w) (hfo : ∀ i, fo i ≠ .free → cmd = .close (i : Int) ∨ fo' i = fo i)
    (hcare : Careful R h ino c { c with w := w, sh := sh, th := c.th.set t (.run home (kont r)) }) :
    Track strerror full R ino h i o0 k0 { c with w := w, sh := sh, th := c.th.set t (.run home (kont r)) } fo' ops x := by
  have hlt : t < c.th.length := (List.getElem?_eq_some_iff.mp ht).1
  -- a step of a call on something else
  have care : (∀ p, c.th[t]? ≠ some (.run (.own h) p)) → R (c.w.k.inodes[ino]?) (w.k.inodes[ino]?) := by
    intro hn
    rcases hcare with hc | ⟨u, p, hu, hne⟩
    · exact hc
    · by_cases e : u = t
      · subst e; exact absurd hu (hn p)
      · exact absurd (List.getElem?_set_ne (Ne.symm e)) hne
  -- what the thread of the object sees
  have sees : ∀ {k2 : Kernel} {y : Choice}, y ∈ c.w.choices → R (k2.inodes[ino]?) (c.w.k.inodes[ino]?) →
      c.w.k.ofd (i : Int) = k2.ofd (i : Int) → Lets R ino i (y.shows k2 c.w.k) := by
    intro k2 y hy h1 h2 z
    show (∀ n, z.inodes[ino]? = some n → R (some n) ((if z = k2 then y.other c.w.k else z).inodes[ino]?)) ∧ (if z = k2 then y.other c.w.k else z).ofd (i : Int) = _
    by_cases hz : z = k2
    · rw [if_pos hz, hz]
      refine ⟨fun n hn => ?_, (hC y hy c.w.k).2.trans h2⟩
      rw [hn] at h1
      obtain ⟨n', hn'⟩ := hlive n _ h1
      rw [hn'] at h1
      exact htrans _ _ _ h1 ((hC y hy c.w.k).1 n' hn')
    · rw [if_neg hz]; exact ⟨fun n hn => by rw [hn]; exact hrefl _, rfl⟩
  cases T with
  | idle hs ho hp hi hR hfd =>
    rename_i rs o k all
    have hown : fo i = .obj h := (H.F.obj h i).2 ⟨o, ho, hi⟩
    obtain ⟨h1, h2⟩ := H.foreign ht he hC (by rw [hown]; simp) (by rw [hown]; simp)
    refine .idle hs ho hp hi (htrans _ _ _ hR (care fun p hp => ?_)) (h1.trans hfd)
    have := H.own t h _ hp
    rw [ho] at this; cases this
  | busy hs hf hth hc htr hk hfo' hR hfd =>
    rename_i ops rs o k k2 all cs u fuel op p
    by_cases hu : u = t
    · subst hu
      have e := get_some_eq hth ht
      injection e with e1 e2
      subst e1 e2
      obtain ⟨hsh, hk⟩ := hk
      obtain ⟨y, hy, htr'⟩ := htr.step hsh he
      have hy' : y ∈ c.w.choices := by rw [hy]; exact List.mem_cons_self
      have hc' : ∀ x ∈ cs ++ [y.shows k2 c.w.k], Lets R ino i x := by
        intro x hx
        rcases List.mem_append.1 hx with hx | hx
        · exact hc x hx
        · rw [List.mem_singleton.1 hx]; exact sees hy' hR hfd
      rcases hk with ⟨rfl, hcl, hk⟩ | ⟨hne, hk⟩
      · obtain ⟨o', r', hk⟩ := hk r
        rw [hk] at htr' ⊢
        refine .closing hs hf ?_ hc' htr' hcl (hrefl _)
        exact List.getElem?_set_self hlt
      · have hfree : fo i ≠ .free := by rw [hfo']; simp
        refine .busy hs hf (List.getElem?_set_self hlt) hc' htr' (hk r (H.newFd he hfree)) ?_ (hrefl _) rfl
        rcases hfo i hfree with h1 | h1
        · exact absurd h1 hne
        · rw [h1, hfo']
    · have hfree : fo i ≠ .free := by rw [hfo']; simp
      obtain ⟨h1, h2⟩ := H.foreign ht he hC hfree (by rw [hfo']; simpa using hu)
      refine .busy hs hf ?_ hc htr hk ?_ (htrans _ _ _ hR (care fun p hp => hu (H.own_one u t h _ _ hth hp))) (h1.trans hfd)
      · show (c.th.set t _)[u]? = _
        rw [List.getElem?_set_ne (Ne.symm hu)]; exact hth
      · rcases hfo i hfree with h3 | h3
        · exact absurd h3 h2
        · rw [h3, hfo']
  | closing hs hf hth hc htr hcl hR =>
    rename_i ops rs o k k2 all cs u fuel op o' r'
    have hu : u ≠ t := by
      rintro rfl
      have e := get_some_eq hth ht
      injection e with e1 e2
      exact nomatch e2
    refine .closing hs hf ?_ hc htr hcl (htrans _ _ _ hR (care fun p hp => hu (H.own_one u t h _ _ hth hp)))
    show (c.th.set t _)[u]? = _
    rw [List.getElem?_set_ne (Ne.symm hu)]; exact hth
  | closed hs hcl ho hno hR =>
    refine .closed hs hcl ho (fun u p hu => ?_) (htrans _ _ _ hR (care fun p hp => hno t p hp))
    have hu : (c.th.set t (.run home (kont r)))[u]? = some (.run (.own h) p) := hu
    rcases get_set hu with ⟨_, hu⟩ | ⟨rfl, e⟩
    · exact hno u p hu
    · injection e with e _
      subst e
      exact hno u _ ht
  | over hcl hb => exact .over hcl hb

/-- The whole run. -/
theorem Track.all {c0 : Conf} {es : List Ev} {f0 m0 : Nat → Owner} {l0 : Bytes → Owner} {g0 : List Ghost}
    (hr : CarefulRun strerror full R h ino c0 es c) (H0 : Inv ext extm L c0 f0 m0 l0 g0) (ho : c0.objs[h]? = some (some o0))
    (hp : Plain o0) (hi : o0.ownsFd i) (hC : ∀ x ∈ c0.w.choices, Lets R ino i x) :
    ∃ fo mo lo gs, Inv ext extm L c fo mo lo gs ∧ (∀ x ∈ c.w.choices, x ∈ c0.w.choices) ∧
      Track strerror full R ino h i o0 c0.w.k c fo (callsOn h es) (es.foldl (follow h) (none, [])) := by
  induction hr with
  | nil => exact ⟨_, _, _, _, H0, fun _ hx => hx, .idle .nil ho hp hi (hrefl _) rfl⟩
  | step hr h' hc ih =>
    obtain ⟨fo, mo, lo, gs, H, hch, T⟩ := ih
    rename_i c1 c2 es e
    rw [callsOn_snoc, List.foldl_append]
    cases h' with
    | call t op fuel ht ha =>
      obtain ⟨fo', mo', lo', gs', H', hf⟩ := H.beginF strerror full fuel ht ha
      exact ⟨fo', mo', lo', gs', H', hch, T.call H ht ha hf⟩
    | move t home cmd k r sh w ht he =>
      obtain ⟨fo', mo', lo', gs', H', hf⟩ := H.stepF ht he
      refine ⟨fo', mo', lo', gs', H', fun x hx => hch x (exec_choices he x hx), ?_⟩
      rw [callsOn_none, List.append_nil]
      exact T.move hrefl htrans hlive H (fun x hx => hC x (hch x hx)) ht he hf hc
    | ret t home a ht =>
      obtain ⟨fo', mo', lo', gs', H', hf⟩ := H.finishF ht
      have hw : (c1.finish t home a).1.w = c1.w := by cases a <;> rfl
      exact ⟨fo', mo', lo', gs', H', by rw [hw]; exact hch, T.ret H ht hf⟩

end Conc
end Posix
end Lsmdb
