import Verif.Proof.PosixNames1
import Verif.Proof.PosixFinal2

/-! Calls take effect at one moment; runs. -/

namespace Lsmdb
namespace Posix

open MemEnv (St lit)

namespace Conc

variable {strerror : Strerror} {full : Bool} {fuel : Nat} {faulty : Prop} {R : Names → Names → Prop}

/-- What a call hands over is one of these answers. -/
def EndsIn (S : PRes → Prop) : Fin → Prop
  | .new _ => ∀ h, S (.opened .ok (some h))
  | .back _ r => S r

/-- The call has taken effect, and will give one of these answers. -/
def After (strerror : Strerror) (faulty : Prop) (S : PRes → Prop) : Prog Fin → Prop
  | .ret a => EndsIn S a
  | .call c k => ∀ ns ns' r, Cmd.onNames strerror faulty c ns ns' r → ns' = ns ∧ After strerror faulty S (k r)
  | .fault _ => True
  | .spin => True

/-- The call has not yet taken effect. -/
def Pending (strerror : Strerror) (faulty : Prop) (op : POp) : Prog Fin → Prop
  | .ret a => ∀ ns, EndsIn (Does faulty op ns ns) a
  | .call c k => ∀ ns ns' r, Cmd.onNames strerror faulty c ns ns' r → (ns' = ns ∧ Pending strerror faulty op (k r)) ∨
      ((∃ x, Does faulty op ns ns' x) ∧ After strerror faulty (Does faulty op ns ns') (k r))
  | .fault _ => True
  | .spin => True

/-- The step leaves the names. -/
def Silent (strerror : Strerror) (faulty : Prop) (c : Cmd) : Prop := ∀ ns ns' r, Cmd.onNames strerror faulty c ns ns' r → ns' = ns

theorem silent_lax : Lax (Silent strerror faulty) :=
  ⟨fun _ _ _ _ h => h, fun _ _ _ _ _ h => h, fun _ _ _ _ _ _ h => h, fun _ _ _ _ _ h => h, fun _ _ _ _ _ h => h, fun _ _ _ _ h => h,
    fun _ _ _ _ h => h.1, fun _ _ _ _ h => h.1, fun _ _ _ _ _ h => h, fun _ _ _ _ h => h, fun _ _ _ _ h => h.1, fun _ _ _ _ _ h => h.1,
    fun _ _ _ _ h => h, fun _ _ _ _ h => h, fun _ _ _ _ h => h, fun _ _ _ _ h => h⟩

theorem silent_rdonly (n : Bytes) : Silent strerror faulty (.open .rdonly n) := fun _ _ _ h => h.1

theorem silent_fine (o : Obj) : Fine (Silent strerror faulty) o := by
  cases o with
  | rand f => exact fun _ => silent_rdonly _
  | wr f => exact silent_rdonly _
  | _ => trivial

theorem after_only {S : PRes → Prop} {p : Prog Fin} (h : Only (Silent strerror faulty) (EndsIn S) p) : After strerror faulty S p := by
  induction p with
  | ret a => exact h
  | call c k ih => exact fun ns ns' r hr => ⟨h.1 ns ns' r hr, ih r (h.2 r)⟩
  | fault e => trivial
  | spin => trivial

theorem only_weaken {α : Type} {P : Cmd → Prop} {Q Q' : α → Prop} {p : Prog α} (h : Only P Q p) (hQ : ∀ a, Q a → Q' a) : Only P Q' p := by
  induction p with
  | ret a => exact hQ a h
  | call c k ih => exact ⟨h.1, fun r => ih r (h.2 r)⟩
  | fault e => trivial
  | spin => trivial

theorem before_only {op : POp} (hd : ∀ ns x, Does faulty op ns ns x) {Q : Fin → Prop} {p : Prog Fin} (h : Only (Silent strerror faulty) Q p) :
    Pending strerror faulty op p := by
  induction p with
  | ret a => exact fun ns => by cases a with | new o => exact fun _ => hd ns _ | back o r => exact hd ns r
  | call c k ih => exact fun ns ns' r hr => .inl ⟨h.1 ns ns' r hr, ih r (h.2 r)⟩
  | fault e => trivial
  | spin => trivial

theorem error_ne {n : Bytes} {e : Errno} : PosixError strerror n e ≠ .ok := statusOf_error (strerror := strerror) (ctx := n) (e := e)

/-- One of these. -/
def IsOpened : PRes → Prop := fun r => ∃ s o, r = .opened s o

theorem rest_random (n : Bytes) (fd : Int) : Only (Silent strerror faulty) (EndsIn IsOpened) (do
    let acquired ← Acquire .mmap
    if acquired then do
      let (status, result) ← mapFile strerror fd n
      let _ ← Cmd.go (.close fd)
      match result with
      | some o => return .new o
      | none => do
        Release .mmap
        return .failed status
    else do
      let f ← newRandFile n fd
      return .new (.rand f)) := by
  refine only_bind (only_Acquire silent_lax .mmap) fun b _ => ?_
  split
  · refine only_bind (only_mapFile silent_lax strerror fd n) fun x hx => ?_
    obtain ⟨s, o⟩ := x
    refine only_then (silent_lax.close _) fun _ => ?_
    cases o with
    | some o => exact fun h => ⟨_, _, rfl⟩
    | none => exact only_bind (only_Release silent_lax .mmap) fun _ _ => ⟨_, _, rfl⟩
  · exact only_bind (only_newRandFile silent_lax n fd) fun f hf => fun h => ⟨_, _, rfl⟩

theorem readdir_after {S : PRes → Prop} {l : List Bytes} (fd : Int) (hS : ∀ x, (∃ y, l = x ++ y ∧ (y = [] ∨ faulty)) → S (.list .ok x)) :
    ∀ (fuel : Nat) (rest acc : List Bytes), l = acc ++ rest → After strerror faulty S (do
      let (s, l) ← (do
        let l ← readdirLoop fd fuel rest acc
        let _ ← Cmd.go (.close fd)
        return (St.ok, l))
      return .ans (.list s l)) := by
  intro fuel
  induction fuel with
  | zero => intro _ _ _; trivial
  | succ f ih =>
    intro rest acc hl ns ns' r hr
    obtain ⟨h1, h2⟩ := hr
    refine ⟨h1, ?_⟩
    cases h : (r : Option Bytes) with
    | none =>
      refine fun ns ns' r hr => ⟨hr, hS acc ⟨rest, hl, ?_⟩⟩
      rw [h] at h2
      rcases h2 with h2 | h2
      · exact .inl (List.head?_eq_none_iff.1 h2.symm)
      · exact .inr h2.1
    | some d =>
      rw [h] at h2
      rcases h2 with h2 | h2
      · cases rest with
        | nil => exact nomatch h2
        | cons x rest =>
          injection h2 with h2
          subst h2
          exact ih rest (acc ++ [d]) (by rw [hl]; simp)
      · exact nomatch h2.2

theorem before_body (op : POp) (o : Option Obj) : Pending strerror faulty op (body strerror full fuel op o) := by
  have triv : (∀ ns x, Does faulty op ns ns x) → Naming (Silent strerror faulty) op → Pending strerror faulty op (body strerror full fuel op o) :=
    fun h1 h2 => before_only h1 (only_body silent_lax strerror full fuel h2 fun x _ => silent_fine x)
  have wr : ∀ (m : Mode) (n : Bytes), m ≠ .rdonly → (∀ ns ns' s o, MakesFile faulty (cstr n) ns ns' s → Does faulty op ns ns' (.opened s o)) →
      Pending strerror faulty op (newWFile strerror m n) := by
    intro m n hm hd ns ns' r hr
    have hq : (if m = Mode.rdonly then _ else _) := hr
    rw [if_neg hm] at hq
    clear hr
    right
    rcases hq with ⟨⟨fd, rfl⟩, hr⟩ | ⟨⟨e, rfl⟩, hr, hr'⟩
    · refine ⟨⟨_, hd _ _ .ok none (.inl ⟨rfl, hr⟩)⟩, ?_⟩
      exact after_only (only_ofM fun f hf => fun h => hd _ _ _ _ (.inl ⟨rfl, hr⟩))
    · have : Does faulty op ns ns' (.opened (PosixError strerror n e) none) := hd _ _ _ _ (.inr ⟨error_ne, hr, hr'⟩)
      exact ⟨⟨_, this⟩, this⟩
  cases op with
  | newSequential n =>
    intro ns ns' r hr
    right
    obtain ⟨h1, h⟩ := hr
    rcases h with ⟨⟨fd, rfl⟩, h⟩ | ⟨⟨e, rfl⟩, h⟩
    · have : ∀ o, Does faulty (.newSequential n) ns ns' (.opened .ok o) := fun o => ⟨h1, _, _, rfl, .inl ⟨rfl, h⟩⟩
      exact ⟨⟨_, this none⟩, fun _ => this _⟩
    · have : Does faulty (.newSequential n) ns ns' (.opened (PosixError strerror n e) none) := ⟨h1, _, _, rfl, .inr ⟨error_ne, h⟩⟩
      exact ⟨⟨_, this⟩, this⟩
  | newRandomAccess n =>
    intro ns ns' r hr
    right
    obtain ⟨h1, h⟩ := hr
    rcases h with ⟨⟨fd, rfl⟩, h⟩ | ⟨⟨e, rfl⟩, h⟩
    · have : ∀ x, IsOpened x → Does faulty (.newRandomAccess n) ns ns' x := fun x ⟨s, o, hx⟩ => ⟨h1, s, o, hx, fun _ => h⟩
      refine ⟨⟨_, this _ ⟨.ok, none, rfl⟩⟩, after_only (only_weaken (rest_random n fd) fun a ha => ?_)⟩
      cases a with
      | new o => exact fun _ => this _ (ha _)
      | back o r => exact this _ ha
    · have : Does faulty (.newRandomAccess n) ns ns' (.opened (PosixError strerror n e) none) := ⟨h1, _, _, rfl, fun h => absurd h error_ne⟩
      exact ⟨⟨_, this⟩, this⟩
  | newWritable n => exact wr .trunc n nofun fun _ _ s o h => ⟨s, o, rfl, h⟩
  | newAppendable n => exact wr .append n nofun fun _ _ s o h => ⟨s, o, rfl, h⟩
  | newLogger n =>
    intro ns ns' r hr
    right
    rcases hr with ⟨⟨fd, rfl⟩, hr⟩ | ⟨⟨e, rfl⟩, hr, hr'⟩
    · have hd : ∀ o, Does faulty (.newLogger n) ns ns' (.opened .ok o) := fun o => ⟨_, _, rfl, .inl (.inl ⟨rfl, hr⟩)⟩
      refine ⟨⟨_, hd none⟩, fun ns1 ns1' r hr1 => ⟨hr1.1, ?_⟩⟩
      cases h : (r : Except Errno Unit) with
      | ok u => exact fun _ => hd _
      | error e =>
        have hf : faulty := hr1.2 ⟨e, h⟩
        have : ∀ e, Does faulty (.newLogger n) ns ns' (.opened (PosixError strerror n e) none) := fun e => ⟨_, _, rfl, .inr ⟨hf, error_ne, hr⟩⟩
        refine fun ns2 ns2' r2 hr2 => ⟨hr2, ?_⟩
        cases h : (r2 : Except Errno Unit) with
        | ok u => exact this _
        | error e => exact this _
    · have : Does faulty (.newLogger n) ns ns' (.opened (PosixError strerror n e) none) := ⟨_, _, rfl, .inl (.inr ⟨error_ne, hr, hr'⟩)⟩
      exact ⟨⟨_, this⟩, this⟩
  | lockFile n =>
    intro ns ns' r hr
    right
    rcases hr with ⟨⟨fd, rfl⟩, hr⟩ | ⟨⟨e, rfl⟩, hr, hr'⟩
    · have hd : ∀ o, Does faulty (.lockFile n) ns ns' (.opened .ok o) := fun o => ⟨_, _, rfl, .inl (.inl ⟨rfl, hr⟩)⟩
      have he : ∀ s, s ≠ .ok → Does faulty (.lockFile n) ns ns' (.opened s none) := fun s hs => ⟨_, _, rfl, .inr ⟨hs, hr⟩⟩
      refine ⟨⟨_, hd none⟩, fun ns1 ns1' r hr1 => ⟨hr1, ?_⟩⟩
      cases h : (r : Bool) with
      | false => exact fun ns2 ns2' r2 hr2 => ⟨hr2, he _ nofun⟩
      | true =>
        refine fun ns2 ns2' r2 hr2 => ⟨hr2.1, ?_⟩
        cases h : (r2 : Except Errno Unit) with
        | ok u => exact fun _ => hd _
        | error e => exact fun ns3 ns3' r3 hr3 => ⟨hr3, fun ns4 ns4' r4 hr4 => ⟨hr4, he _ error_ne⟩⟩
    · have : Does faulty (.lockFile n) ns ns' (.opened (PosixError strerror n e) none) := ⟨_, _, rfl, .inl (.inr ⟨error_ne, hr, hr'⟩)⟩
      exact ⟨⟨_, this⟩, this⟩
  | fileExists n =>
    intro ns ns' r hr
    right
    obtain ⟨h1, h⟩ := hr
    rcases h with ⟨rfl, h⟩ | ⟨⟨e, rfl⟩, h⟩
    · have : Does faulty (.fileExists n) ns ns' (.bool true) := ⟨h1, _, rfl, .inl ⟨rfl, h⟩⟩
      exact ⟨⟨_, this⟩, this⟩
    · have : Does faulty (.fileExists n) ns ns' (.bool false) := ⟨h1, _, rfl, .inr ⟨rfl, h⟩⟩
      exact ⟨⟨_, this⟩, this⟩
  | getFileSize n =>
    intro ns ns' r hr
    right
    obtain ⟨h1, h⟩ := hr
    rcases h with ⟨⟨v, rfl⟩, h⟩ | ⟨⟨e, rfl⟩, h⟩
    · have : Does faulty (.getFileSize n) ns ns' (.size .ok v) := ⟨h1, _, _, rfl, .inl ⟨rfl, h⟩⟩
      exact ⟨⟨_, this⟩, this⟩
    · have : Does faulty (.getFileSize n) ns ns' (.size (PosixError strerror n e) 0) := ⟨h1, _, _, rfl, .inr ⟨error_ne, h⟩⟩
      exact ⟨⟨_, this⟩, this⟩
  | getChildren d =>
    intro ns ns' r hr
    right
    obtain ⟨h1, h⟩ := hr
    rcases h with ⟨fd, l, rfl, hd, h2, h3⟩ | ⟨⟨e, rfl⟩, h⟩
    · have : ∀ x, (∃ y, l = x ++ y ∧ (y = [] ∨ faulty)) → Does faulty (.getChildren d) ns ns' (.list .ok x) := by
        rintro x ⟨y, hl, hy⟩
        refine ⟨h1, _, _, rfl, .inl ⟨rfl, hd, fun z hz => h2 z (by rw [hl]; exact List.mem_append_left _ hz), ?_⟩⟩
        rcases hy with rfl | hy
        · rw [List.append_nil] at hl
          subst hl
          exact .inr h3
        · exact .inl hy
      refine ⟨⟨_, this l ⟨[], by simp, .inl rfl⟩⟩, ?_⟩
      exact readdir_after (strerror := strerror) (faulty := faulty) fd this fuel l [] rfl
    · have : Does faulty (.getChildren d) ns ns' (.list (PosixError strerror d e) []) := ⟨h1, _, _, rfl, .inr ⟨error_ne, rfl, h⟩⟩
      exact ⟨⟨_, this⟩, this⟩
  | removeFile n => exact fun ns ns' r hr => .inr ⟨⟨_, hr⟩, hr⟩
  | createDir n => exact fun ns ns' r hr => .inr ⟨⟨_, hr⟩, hr⟩
  | removeDir n => exact fun ns ns' r hr => .inr ⟨⟨_, hr⟩, hr⟩
  | renameFile a b => exact fun ns ns' r hr => .inr ⟨⟨_, hr⟩, hr⟩
  | unlockFile h => exact triv (fun _ _ => rfl) trivial
  | seqRead h n => exact triv (fun _ _ => rfl) trivial
  | seqSkip h n => exact triv (fun _ _ => rfl) trivial
  | randRead h a n => exact triv (fun _ _ => rfl) trivial
  | write h x => exact triv (fun _ _ => rfl) trivial
  | delete h => exact triv (fun _ _ => rfl) trivial

/-! ## Runs -/

/-- Where the thread is. -/
def At (strerror : Strerror) (faulty : Prop) (v : Option (POp × Option (Names × Names))) : Option Thread → Prop
  | some (.run _ p) => ∃ op, (v = some (op, none) ∧ Pending strerror faulty op p) ∨
      ∃ m1 m2, v = some (op, some (m1, m2)) ∧ After strerror faulty (Does faulty op m1 m2) p
  | _ => v = none

/-- The process follows the atomic object. -/
structure Lin (strerror : Strerror) (faulty : Prop) (R : Names → Names → Prop) (c : Conf) (a : Atom) : Prop where
  names : a.names = namesOf c.w.k
  sound : Sound c.w.k
  threads : ∀ t : Nat, At strerror faulty (a.now t) c.th[t]?
  others : ∀ x ∈ c.w.choices, Leave R x
  fails : ¬ faulty → ∀ x ∈ c.w.choices, x.fail = none

theorem ends_finish {S : PRes → Prop} {c : Conf} {t : Nat} {home : Home} {a : Fin} (h : EndsIn S a) : S (c.finish t home a).2 := by
  cases a with
  | new o => exact h _
  | back o r => exact h

theorem Lin.step {c c' : Conf} {a : Atom} {m : Names} {es : List Ev} {e : Option Ev} (hL : Lin strerror faulty R c a) (ha : Atomic faulty R m a es)
    (hs : Step strerror full c e c') : ∃ a', Lin strerror faulty R c' a' ∧ Atomic faulty R m a' (es ++ e.toList) := by
  cases hs with
  | call t op fuel ht hal =>
    have hn : a.now t = none := by have := hL.threads t; rw [ht] at this; exact this
    refine ⟨{ a with now := seat a.now t (some (op, none)) }, ⟨hL.names, hL.sound, fun u => ?_, hL.others, hL.fails⟩, ha.call (op := op) hn⟩
    show At strerror faulty (if u = t then _ else _) _
    by_cases hu : u = t
    · subst hu
      rw [begin_th ht, if_pos rfl]
      exact ⟨op, .inl ⟨rfl, before_body op _⟩⟩
    · rw [begin_th_ne hu, if_neg hu]
      exact hL.threads u
  | move t home cmd k r sh w ht hx =>
    obtain ⟨⟨m1, h1, h2⟩, h3⟩ := exec_moves (strerror := strerror) hx hL.others hL.fails hL.sound
    have ho : ∀ x ∈ w.choices, Leave R x := fun x hm => hL.others x (exec_choices hx x hm)
    have hf : ¬ faulty → ∀ x ∈ w.choices, x.fail = none := fun hn x hm => hL.fails hn x (exec_choices hx x hm)
    have ha1 : Atomic faulty R m { a with names := m1 } es := by
      rcases h1 with h1 | h1
      · rw [h1, ← hL.names]
        exact ha
      · exact ha.others (by rw [hL.names]; exact h1)
    have htl : t < c.th.length := (List.getElem?_eq_some_iff.1 ht).1
    have hth : ∀ (f : Nat → Option (POp × Option (Names × Names))), At strerror faulty (f t) (some (.run home (k r))) → (∀ u, u ≠ t → f u = a.now u) →
        ∀ u, At strerror faulty (f u) (c.th.set t (.run home (k r)))[u]? := by
      intro f hft hfu u
      by_cases hu : u = t
      · subst hu
        rw [List.getElem?_set_self htl]
        exact hft
      · rw [List.getElem?_set_ne (Ne.symm hu), hfu u hu]
        exact hL.threads u
    simp only [Option.toList, List.append_nil]
    have := hL.threads t
    rw [ht] at this
    obtain ⟨op, ⟨hn, hb⟩ | ⟨n1, n2, hn, hb⟩⟩ := this
    · rcases hb _ _ r h2 with ⟨h4, h5⟩ | ⟨⟨x, h4⟩, h5⟩
      · refine ⟨{ a with names := m1 }, ⟨h4.symm, h3, hth a.now ⟨op, .inl ⟨hn, h5⟩⟩ fun _ _ => rfl, ho, hf⟩, ha1⟩
      · refine ⟨_, ⟨rfl, h3, hth _ ⟨op, .inr ⟨_, _, if_pos rfl, h5⟩⟩ fun u hu => if_neg hu, ho, hf⟩, ha1.moment hn h4⟩
    · obtain ⟨h4, h5⟩ := hb _ _ r h2
      exact ⟨{ a with names := m1 }, ⟨h4.symm, h3, hth a.now ⟨op, .inr ⟨n1, n2, hn, h5⟩⟩ fun _ _ => rfl, ho, hf⟩, ha1⟩
  | ret t home x ht =>
    have htl : t < c.th.length := (List.getElem?_eq_some_iff.1 ht).1
    have hth : ∀ (f : Nat → Option (POp × Option (Names × Names))), (∀ u, u ≠ t → f u = a.now u) →
        ∀ u, At strerror faulty (seat f t none u) (c.finish t home x).1.th[u]? := by
      intro f hf u
      rw [finish_th]
      show At strerror faulty (if u = t then _ else _) _
      by_cases hu : u = t
      · subst hu
        rw [if_pos rfl, List.getElem?_set_self htl]
        rfl
      · rw [if_neg hu, List.getElem?_set_ne (Ne.symm hu), hf u hu]
        exact hL.threads u
    have := hL.threads t
    rw [ht] at this
    obtain ⟨op, ⟨hn, hb⟩ | ⟨n1, n2, hn, hb⟩⟩ := this
    · have hd := ends_finish (c := c) (t := t) (home := home) (hb a.names)
      refine ⟨_, ⟨?_, ?_, hth _ fun u hu => if_neg hu, ?_, ?_⟩, (ha.moment hn hd).ret (if_pos rfl) hd⟩
      · rw [finish_w]; exact hL.names
      · rw [finish_w]; exact hL.sound
      · rw [finish_w]; exact hL.others
      · rw [finish_w]; exact hL.fails
    · have hd := ends_finish (c := c) (t := t) (home := home) hb
      refine ⟨_, ⟨?_, ?_, hth a.now fun u hu => rfl, ?_, ?_⟩, ha.ret hn hd⟩
      · rw [finish_w]; exact hL.names
      · rw [finish_w]; exact hL.sound
      · rw [finish_w]; exact hL.others
      · rw [finish_w]; exact hL.fails

theorem Lin.run {c c' : Conf} {es : List Ev} (hr : Run strerror full c es c') (hL : Lin strerror faulty R c ⟨namesOf c.w.k, fun _ => none⟩) :
    ∃ a, Lin strerror faulty R c' a ∧ Atomic faulty R (namesOf c.w.k) a es := by
  induction hr with
  | nil => exact ⟨_, hL, .init⟩
  | step hr hs ih =>
    obtain ⟨a, h1, h2⟩ := ih
    exact h1.step h2 hs

end Conc
end Posix
end Lsmdb
