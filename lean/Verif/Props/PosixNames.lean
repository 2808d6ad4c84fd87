import Verif.Proof.PosixNames2
import Verif.Proof.PosixNames3
import Verif.Props.PosixConc

/-!
# C103: as far as names go, each call of the POSIX Env takes effect at one moment

Many threads, other processes that may change names too (`R`), system calls that may fail (`faulty`).
-/

namespace Lsmdb
namespace Posix

open MemEnv (St lit)

namespace Conc

variable {strerror : Strerror} {full : Bool} {faulty : Prop} {R : Names → Names → Prop} {w : World} {L1 L2 : Int} {n : Nat} {es : List Ev} {c : Conf}

/-- Every history of a process is one in which each call takes effect on the names at one moment between its call and its return, and gives
the answer that is right then; the names at the end are those of that history. -/
theorem C103_atomic (hs : Sound w.k) (hR : ∀ x ∈ w.choices, Leave R x) (hf : ¬ faulty → ∀ x ∈ w.choices, x.fail = none)
    (hr : Run strerror full (Conf.init w L1 L2 n) es c) :
    ∃ a, Atomic faulty R (namesOf w.k) a es ∧ a.names = namesOf c.w.k ∧ ∀ t, a.now t = none ↔ ¬ c.inCall t := by
  obtain ⟨a, h1, h2⟩ := Lin.run hr (faulty := faulty) (R := R) ⟨rfl, hs, fun t => by
    show At _ _ none (List.replicate n Thread.idle)[t]?
    rw [List.getElem?_replicate]
    split <;> rfl, hR, hf⟩
  refine ⟨a, h2, h1.names, fun t => ?_⟩
  have := h1.threads t
  unfold Conf.inCall
  cases h : c.th[t]? with
  | none => rw [h] at this; exact ⟨fun _ => nofun, fun _ => this⟩
  | some x =>
    cases x with
    | idle => rw [h] at this; exact ⟨fun _ => nofun, fun _ => this⟩
    | run home p =>
      rw [h] at this
      obtain ⟨op, ⟨hn, -⟩ | ⟨m1, m2, hn, -⟩⟩ := this
      · rw [hn]; exact ⟨nofun, fun hc => absurd ⟨home, p, rfl⟩ hc⟩
      · rw [hn]; exact ⟨nofun, fun hc => absurd ⟨home, p, rfl⟩ hc⟩

/-- Others do not change what the path means. -/
def Keeps1 (R : Names → Names → Prop) (p : Bytes) : Prop := ∀ m m', R m m' → m' p = m p

/-- Of all threads that create the same directory, which does not exist at first, at most one gets OK; it is one if a call was answered, no call
is in progress and no system call fails without a reason. -/
theorem C103_create_once (hs : Sound w.k) (hR : ∀ x ∈ w.choices, Leave R x) (hf : ¬ faulty → ∀ x ∈ w.choices, x.fail = none)
    (hr : Run strerror full (Conf.init w L1 L2 n) es c) {p : Bytes} (hp : p ≠ []) (h0 : namesOf w.k p = none) (hk : Keeps1 R p)
    (hes : OnlyThese (creates p) p es) :
    wins (creates p) es ≤ 1 ∧ (¬ faulty → c.quiet → answers (creates p) es (fun _ => false) ≠ [] → wins (creates p) es = 1) := by
  obtain ⟨a, ha, -, hq⟩ := C103_atomic (L1 := L1) (L2 := L2) hs hR hf hr
  have hrace : Race faulty (creates p) (fun m => m p ≠ none) a es := by
    refine ha.race (fun h => h h0) (fun m m' h => by rw [hk m m' h]) ?_ fun t op hm hno m m' r hd => ?_
    · intro op m m' r hop hd
      cases op with
      | createDir q =>
        have hq : cstr q = p := of_decide_eq_true hop
        rcases hd with ⟨h1, -, h2, i, -, h3⟩ | ⟨s, h1, h2, h3, h4⟩
        · rw [hq] at h2 h3
          refine .inl ⟨h1, fun h => h h2, ?_⟩
          rw [h3]
          show (if p = p then _ else _) ≠ _
          rw [if_pos rfl]
          exact nofun
        · rw [hq] at h4
          refine .inr ⟨by rw [h1]; exact fun e => h2 (PRes.status.inj e), h3, fun hnf => ?_⟩
          rcases h4 with h4 | h4 | h4
          · exact absurd h4 hnf
          · exact absurd h4 hp
          · exact h4
      | _ => exact nomatch hop
    · rcases hes t op hm with h | h
      · rw [hno] at h; exact nomatch h
      · rw [does_keeps hd h]
  refine ⟨hrace.le, fun hnf hqu hne => ?_⟩
  rcases hrace.some (hrace.answered hnf hne) with h | ⟨t, op, m1, m2, ht, -⟩
  · exact h
  · rw [(hq t).2 (hqu t)] at ht
    exact nomatch ht

/-- Of all threads that remove the same file at most one gets OK; it is one if a call was answered, no call is in progress and no system call
fails without a reason. -/
theorem C103_remove_once (hs : Sound w.k) (hR : ∀ x ∈ w.choices, Leave R x) (hf : ¬ faulty → ∀ x ∈ w.choices, x.fail = none)
    (hr : Run strerror full (Conf.init w L1 L2 n) es c) {p : Bytes} {i : Nat} (h0 : namesOf w.k p = some ⟨i, false⟩) (hk : Keeps1 R p)
    (hes : OnlyThese (removes p) p es) :
    wins (removes p) es ≤ 1 ∧ (¬ faulty → c.quiet → answers (removes p) es (fun _ => false) ≠ [] → wins (removes p) es = 1) := by
  obtain ⟨a, ha, -, hq⟩ := C103_atomic (L1 := L1) (L2 := L2) hs hR hf hr
  have hrace : Race faulty (removes p) (fun m => ∀ i, m p ≠ some ⟨i, false⟩) a es := by
    refine ha.race (fun h => h i h0) (fun m m' h => by rw [hk m m' h]) ?_ fun t op hm hno m m' r hd => ?_
    · intro op m m' r hop hd
      cases op with
      | removeFile q =>
        have hq : cstr q = p := of_decide_eq_true hop
        rcases hd with ⟨h1, ⟨j, h2⟩, h3⟩ | ⟨s, h1, h2, h3, h4⟩
        · rw [hq] at h2 h3
          refine .inl ⟨h1, fun h => h j h2, fun l => ?_⟩
          rw [h3]
          show (if p = p then _ else _) ≠ _
          rw [if_pos rfl]
          exact nofun
        · rw [hq] at h4
          exact .inr ⟨by rw [h1]; exact fun e => h2 (PRes.status.inj e), h3, fun hnf => h4.resolve_left hnf⟩
      | _ => exact nomatch hop
    · rcases hes t op hm with h | h
      · rw [hno] at h; exact nomatch h
      · rw [does_keeps hd h]
  refine ⟨hrace.le, fun hnf hqu hne => ?_⟩
  rcases hrace.some (hrace.answered hnf hne) with h | ⟨t, op, m1, m2, ht, -⟩
  · exact h
  · rw [(hq t).2 (hqu t)] at ht
    exact nomatch ht

/-- A path that nobody changes: `FileExists` says that it exists only if it does, and if it does unless a system call fails without a reason. -/
theorem C103_exists (hs : Sound w.k) (hR : ∀ x ∈ w.choices, Leave R x) (hf : ¬ faulty → ∀ x ∈ w.choices, x.fail = none)
    (hr : Run strerror full (Conf.init w L1 L2 n) es c) {p : Bytes} (hk : Keeps1 R p) (hes : OnlyThese (fun _ => false) p es) :
    ∀ r ∈ answers (asksFor p) es (fun _ => false), ∃ b, r = .bool b ∧ (b = true → namesOf w.k p ≠ none) ∧ (¬ faulty → namesOf w.k p ≠ none → b = true) := by
  obtain ⟨a, ha, -, hq⟩ := C103_atomic (L1 := L1) (L2 := L2) hs hR hf hr
  obtain ⟨-, -, h3⟩ := ha.steady (P := asksFor p) hk fun t op hm => (hes t op hm).resolve_left nofun
  intro r hm
  obtain ⟨op, m1, m2, hp, h1, hd⟩ := h3 r hm
  cases op with
  | fileExists q =>
    have hq : cstr q = p := of_decide_eq_true hp
    obtain ⟨-, b, hb, hd⟩ := hd
    rw [hq, h1] at hd
    refine ⟨b, hb, ?_, ?_⟩
    · rintro rfl
      rcases hd with hd | hd
      · exact hd.2
      · exact nomatch hd.1
    · intro hnf hx
      rcases hd with hd | hd
      · exact hd.1
      · exact absurd (hd.2.resolve_left hnf) hx
  | _ => exact nomatch hp

/-- A file that nobody removes or replaces is in every listing of its directory, whatever other threads do in the directory meanwhile, unless a
system call fails without a reason. -/
theorem C103_listed (hs : Sound w.k) (hR : ∀ x ∈ w.choices, Leave R x) (hf : ∀ x ∈ w.choices, x.fail = none)
    (hr : Run strerror full (Conf.init w L1 L2 n) es c) {p : Bytes} (h0 : namesOf w.k p ≠ none) (hk : Keeps1 R p)
    (hes : OnlyThese (fun _ => false) p es) {l : List Bytes} (hl : PRes.list .ok l ∈ answers (lists (parentDir p)) es (fun _ => false)) : lastOf p ∈ l := by
  obtain ⟨a, ha, -, hq⟩ := C103_atomic (L1 := L1) (L2 := L2) (faulty := False) hs hR (fun _ => hf) hr
  obtain ⟨-, -, h3⟩ := ha.steady (P := lists (parentDir p)) hk fun t op hm => (hes t op hm).resolve_left nofun
  obtain ⟨op, m1, m2, hp, h1, hd⟩ := h3 _ hl
  cases op with
  | getChildren q =>
    have hq : cstr q = parentDir p := of_decide_eq_true hp
    obtain ⟨-, s, l', hb, hd⟩ := hd
    obtain ⟨rfl, rfl⟩ := PRes.list.inj hb
    rcases hd with ⟨-, -, -, hd⟩ | ⟨hd, -⟩
    · exact (hd.resolve_left id) p (by rw [h1]; exact h0) hq.symm
    · exact absurd rfl hd
  | _ => exact nomatch hp

/-! ## Examples: three threads; nobody else -/

/-- Every name of the process of the examples names something. -/
theorem concSound : Sound concStart.w.k := by
  intro p i h
  have : ∀ e ∈ concStart.w.k.names, e.2 < concStart.w.k.inodes.length := by decide
  have hm : ∀ (l : List (Bytes × Nat)) p i, aFind l p = some i → ∃ q, (q, i) ∈ l := by
    intro l
    induction l with
    | nil => exact nofun
    | cons e l ih =>
      obtain ⟨q, j⟩ := e
      intro p i h
      by_cases hq : q = p
      · rw [aFind, if_pos hq] at h
        injection h with h
        subst h
        exact ⟨q, List.mem_cons_self⟩
      · rw [aFind, if_neg hq] at h
        obtain ⟨q', hm⟩ := ih p i h
        exact ⟨q', List.mem_cons_of_mem _ hm⟩
  obtain ⟨q, hq⟩ := hm _ _ _ h
  exact this _ hq

theorem concLeave : ∀ x ∈ concStart.w.choices, Leave Eq x := by
  intro x hx
  rw [List.eq_of_mem_replicate hx]
  exact fun k hk => ⟨hk, rfl⟩

theorem concFine : ∀ x ∈ concStart.w.choices, x.fail = none := by
  intro x hx
  rw [List.eq_of_mem_replicate hx]
  rfl

/-- The calls of a schedule satisfy what `OnlyThese` asks for. -/
def onlyTheseB (P : POp → Bool) (n : Bytes) (es : List Ev) : Bool :=
  es.all fun e => match e with
    | .call _ op => P op || (changing op).all fun p => decide (cstr p ≠ n)
    | .ret _ _ => true

theorem onlyThese_of_B {P : POp → Bool} {n : Bytes} {es : List Ev} (h : onlyTheseB P n es = true) : OnlyThese P n es := by
  intro t op hm
  have := List.all_eq_true.1 h _ hm
  rcases Bool.or_eq_true_iff.1 this with h | h
  · exact .inl h
  · exact .inr fun p hp => of_decide_eq_true (List.all_eq_true.1 h p hp)

/-- Three threads create a directory at the same time, one of them with a path that goes on after a NUL; one removes another file meanwhile. -/
def createRace : List Act :=
  [.call 0 (.createDir (lit "/db/d")), .call 1 (.createDir (lit "/db/d" ++ [0, 1])), .call 2 (.removeFile (lit "/db/t")), .move 2, .move 1, .ret 2,
   .call 2 (.createDir (lit "/db/d")), .move 2, .move 0, .ret 2, .ret 0, .ret 1]

/-- What the property says of the schedule. -/
def raceSeen (P : POp → Bool) (n : Bytes) (o : Option (List Ev × Conf)) : Option (Bool × Nat × Nat) :=
  o.map fun x => (onlyTheseB P n x.1, (answers P x.1 fun _ => false).length, wins P x.1)

example : raceSeen (creates (lit "/db/d")) (lit "/db/d") (play (fun _ => []) false 9 createRace concStart) = some (true, 3, 1) := by decide +kernel

/-- The hypotheses of `C103_create_once` are met by this run, and its conclusion is about three answers. -/
example : ∃ es c, Run (fun _ => []) false concStart es c ∧ namesOf concStart.w.k (lit "/db/d") = none ∧
    OnlyThese (creates (lit "/db/d")) (lit "/db/d") es ∧ (answers (creates (lit "/db/d")) es fun _ => false).length = 3 ∧
    wins (creates (lit "/db/d")) es ≤ 1 := by
  have hex : raceSeen (creates (lit "/db/d")) (lit "/db/d") (play (fun _ => []) false 9 createRace concStart) = some (true, 3, 1) := by decide +kernel
  generalize hp : play (fun _ => []) false 9 createRace concStart = y at hex
  cases y with
  | none => exact nomatch hex
  | some y =>
    obtain ⟨es, c⟩ := y
    injection hex with hex
    injection hex with h1 h2
    injection h2 with h2 h3
    have hr := play_run _ _ _ _ hp
    have h0 : namesOf concStart.w.k (lit "/db/d") = none := by decide +kernel
    exact ⟨es, c, hr, h0, onlyThese_of_B h1, h2,
      (C103_create_once (faulty := False) concSound concLeave (fun _ => concFine) hr (by decide) h0 (fun _ _ h => by rw [h]) (onlyThese_of_B h1)).1⟩

/-- Two threads remove a file, while the third looks at the directory and another file is created there. -/
def removeRace : List Act :=
  [.call 0 (.removeFile (lit "/db/t")), .call 1 (.removeFile (lit "/db/t")), .call 2 (.getChildren (lit "/db")), .move 2, .move 1, .move 0, .ret 1,
   .call 1 (.newAppendable (lit "/db/u")), .move 1, .move 2, .move 2, .move 2, .ret 1, .move 2, .move 2, .ret 2, .ret 0,
   .call 2 (.fileExists (lit "/db")), .move 2, .ret 2]

example : raceSeen (removes (lit "/db/t")) (lit "/db/t") (play (fun _ => []) false 9 removeRace concStart) = some (true, 2, 1) := by decide +kernel

example : namesOf concStart.w.k (lit "/db/t") = some ⟨2, false⟩ := by decide +kernel

/-- Listing of a directory in which a file is created and another removed meanwhile: the file that stays is there. -/
def listRace : List Act :=
  [.call 0 (.getChildren (lit "/db")), .call 1 (.newAppendable (lit "/db/u")), .move 1, .move 0, .ret 1, .call 1 (.removeFile (lit "/db/u")), .move 0,
   .move 1, .move 0, .move 0, .move 0, .move 0, .ret 1, .move 0, .ret 0, .call 2 (.fileExists (lit "/db/t")), .move 2, .ret 2]

/-- What the answers are. -/
def listSeen (o : Option (List Ev × Conf)) : Option (Bool × List PRes × List PRes) :=
  o.map fun x => (onlyTheseB (fun _ => false) (lit "/db/t") x.1, answers (lists (lit "/db")) x.1 fun _ => false,
    answers (asksFor (lit "/db/t")) x.1 fun _ => false)

example : listSeen (play (fun _ => []) false 9 listRace concStart) =
    some (true, [.list .ok [lit ".", lit "..", lit "u", lit "t"]], [.bool true]) := by decide +kernel

example : parentDir (lit "/db/t") = lit "/db" ∧ lastOf (lit "/db/t") = lit "t" ∧ namesOf concStart.w.k (lit "/db/t") ≠ none := by decide +kernel

end Conc
end Posix
end Lsmdb
