import Verif.Proof.PosixFinal3
import Verif.Props.PosixInstall
import Verif.Props.PosixFile

/-!
# Names that survive a crash, in a program with many threads (C102)
-/

namespace Lsmdb
namespace Posix
namespace Conc

open MemEnv (St lit)
open Iface (CrashReads)

variable {strerror : Strerror} {full : Bool} {t t' t'' h h' : Nat} {name d : Bytes} {di : Nat} {Q N : Bytes → Prop} {v : Bytes → Option Nat}
variable {tmp target : Bytes} {old ino : Nat} {D0 D left : Bytes} {w : World} {L1 L2 : Int} {n : Nat} {c0 c1 c2 c3 c : Conf} {ds ds' ds'' es es' es0 : List Ev}

theorem cstr_self {s : Bytes} (h : 0 ∉ s) : cstr s = s := by
  unfold cstr
  rw [List.takeWhile_eq_self_iff]
  intro x hx
  simp only [decide_eq_true_eq, ne_eq]
  rintro rfl
  exact h hx

theorem InDir.parent {p : Bytes} (h : InDir d p) (hd : d ≠ []) : parentDir p = d := by
  obtain ⟨x, rfl, hx⟩ := h
  exact parentDir_some (fun b hb e => hx (e ▸ hb)) hd

theorem ManifestOf.facts {m : Bytes} (h : ManifestOf d m) : Dirname m = .ok d ∧ IsManifest m = .ok true ∧ d ≠ [] ∧ cstr d = d := by
  obtain ⟨⟨rest, rfl, hr⟩, hd, h0⟩ := h
  have h47 : ∀ x ∈ lit "MANIFEST" ++ rest, x ≠ 47 := by
    intro x hx e
    subst e
    rcases List.mem_append.1 hx with hx | hx
    · exact absurd hx (by decide)
    · exact hr hx
  refine ⟨?_, ?_, hd, cstr_self h0⟩
  · rcases Dirname_eq (d ++ 47 :: (lit "MANIFEST" ++ rest)) with ⟨h, -⟩ | ⟨a, b, e, h1, h2⟩
    · exact (h 47 (by simp) rfl).elim
    · have hb : lit "MANIFEST" ++ rest = b := by rw [← baseOf_some (a := d) h47, e, baseOf_some h1]
      subst hb
      rw [h2, List.append_cancel_right e]
  · rw [IsManifest_eq, baseOf_some h47]
    simp

/-- The object that was opened. -/
theorem OpenManifest.label (hs : Setting w L1 L2 n) (hm : OpenManifest strerror full d h (Conf.init w L1 L2 n) c) :
    (∃ es, Run strerror full (Conf.init w L1 L2 n) es c) ∧ Labelled h (some (d, true)) c ∧ d ≠ [] ∧ cstr d = d := by
  obtain ⟨m, op, t, ds, c1, es, h1, h2, h3, h4⟩ := hm
  obtain ⟨f1, f2, f3⟩ := h1.facts
  obtain ⟨es1, h5, -⟩ := h3.events
  exact ⟨⟨_, run_append h5 h4⟩, (opened_label hs (.nil _) f1 f2 h2 h3).all h4, f3⟩

theorem Resting.rest (hx : Resting Q d c) : ∃ di, Rest (fun p => p = d ∨ Q p) c.w.k.lookup d di c := by
  obtain ⟨di, n, h1, h2, h3⟩ := hx.dir
  exact ⟨di, .inl rfl, fun _ _ => rfl, ⟨h1, n, h2, h3⟩, fun t home p ht => (hx.quiet t ⟨home, p, ht⟩).elim, hx.others⟩

/-- C102: a file was opened for writing under the name of a manifest in a directory ("dir/MANIFEST...").  From a quiet moment on, nobody changes
what certain names in the directory mean, nor the directory; apart from that many threads do whatever they want, in any interleaving.  Among
them a thread calls Sync of the manifest, and it returns OK.  Then, whenever the machine stops from then on, each of these names means what it
meant at the quiet moment: files that were created, renamed or removed there have been created, renamed or removed for good. -/
theorem C102_names (hs : Setting w L1 L2 n) (hm : OpenManifest strerror full d h (Conf.init w L1 L2 n) c0) (hx : Resting Q d c0)
    (hc : CallIn strerror full t (.write h .sync) (.status .ok) c0 ds c1) (hr : Run strerror full c1 es c) (he : Unchanging Q d (ds ++ es))
    {p : Bytes} (hQ : Q p) (hp : InDir d p) {u : Option Nat} (hu : c.w.k.NameAfterCrash p u) : u = c0.w.k.lookup p := by
  obtain ⟨hreach, hlab, hd0, hcd⟩ := hm.label hs
  obtain ⟨di, hR⟩ := hx.rest
  have hno : ∀ t op, Ev.call t op ∈ ds ++ es → ∀ n ∈ changing op, ¬ (cstr n = d ∨ Q (cstr n)) :=
    fun t op hm n hn h => h.elim (he t op hm n hn).1 (he t op hm n hn).2
  let I : Conf → Prop := fun c => Rest (fun p => p = d ∨ Q p) c0.w.k.lookup d di c ∧ (∃ es, Run strerror full (Conf.init w L1 L2 n) es c) ∧
    Labelled h (some (d, true)) c
  have hst : ∀ c, I c → Stable (fun p => Q p ∧ InDir d p) c0.w.k.lookup d di c := fun c hI =>
    ⟨fun p hp => hI.1.names p (.inr hp.1), ⟨(hI.1.names d (.inl rfl)).trans hI.1.dir.1, hI.1.dir.2⟩, fun x hm => by
      obtain ⟨g1, g2, g3, g4⟩ := hI.1.others x hm
      exact ⟨fun k p hp => g1 k p (hp.imp id fun h => h.1), fun k p u hp => g2 k p u (hp.imp id fun h => h.1), g3, g4⟩⟩
  have hstep : ∀ {c c' : Conf} {e : Option Ev}, I c → Step strerror full c e c' →
      (∀ t op, e = some (.call t op) → ∀ n ∈ changing op, ¬ (cstr n = d ∨ Q (cstr n))) → I c' := by
    rintro c c' e ⟨h1, ⟨es, h2⟩, h3⟩ hs he
    exact ⟨h1.step hs he, ⟨_, h2.step hs⟩, h3.step hs⟩
  obtain ⟨hI1, hcl⟩ := synced_final hs hst (fun c hI => hI.2.1) (fun c hI => hI.2.2) (fun p hp => hp.2.parent hd0) hcd hstep (fun n hn => nomatch hn)
    ⟨hR, hreach, hlab⟩ hc fun t op hm => hno t op (List.mem_append_left _ hm)
  have key : I c ∧ Clean (fun p => Q p ∧ InDir d p) c0.w.k.lookup c.w.k := by
    have he2 := fun t op hm => hno t op (List.mem_append_right _ hm)
    clear he hno hu hc
    induction hr with
    | nil => exact ⟨hI1, hcl⟩
    | step hr hs ih =>
      obtain ⟨g1, g2⟩ := ih fun t op hm => he2 t op (List.mem_append_left _ hm)
      exact ⟨hstep g1 hs fun t op e => he2 t op (List.mem_append_right _ (by rw [e]; exact List.mem_singleton_self _)), g2.step (hst _ g1) hs⟩
  exact key.2.final (fun p hp => key.1.1.names p (.inr hp.1)) ⟨hQ, hp⟩ hu

/-! ## A file that is on disk, in a directory that will be synced -/

structure Fixing (strerror : Strerror) (full : Bool) (w : World) (L1 L2 : Int) (n h : Nat) (d : Bytes) (di : Nat) (N : Bytes → Prop) (target : Bytes)
    (ino : Nat) (D : Bytes) (c : Conf) : Prop where
  firm : Firm N (fun _ => False) (· = cstr target) (One ino D) c
  rest : ∃ v, Rest (· = d) v d di c
  reach : ∃ es, Run strerror full (Conf.init w L1 L2 n) es c
  label : Labelled h (some (d, true)) c
  others : ∀ x ∈ c.w.choices, LeavesNames (fun p => p = d ∨ p = cstr target) x

theorem Fixing.found (hF : Fixing strerror full w L1 L2 n h d di N target ino D c) : c.w.k.lookup (cstr target) = some ino := by
  have hL := hF.firm.peace.lasts
  obtain ⟨hN, hl⟩ := hL.found _ rfl
  cases hl' : c.w.k.lookup (cstr target) with
  | none => exact (hl hl').elim
  | some i =>
    obtain ⟨E, hE⟩ := (hL.names _ _ hl').1 hN
    rw [(One.eq hE).1]

theorem Fixing.step {c' : Conf} {e : Option Ev} (hF : Fixing strerror full w L1 L2 n h d di N target ino D c) (hs : Step strerror full c e c')
    (he : ∀ t op, e = some (.call t op) → Obeys N (· = cstr target) op ∧ ∀ n ∈ changing op, ¬ cstr n = d) :
    Fixing strerror full w L1 L2 n h d di N target ino D c' := by
  obtain ⟨h1, ⟨v, h2⟩, ⟨es, h3⟩, h4, h5⟩ := hF
  exact ⟨h1.step hs fun t op e => (he t op e).1, ⟨v, h2.step hs fun t op e => (he t op e).2⟩, ⟨_, h3.step hs⟩, h4.step hs,
    fun x hm => h5 x (run_choices ((Run.nil _).step hs) x hm)⟩

theorem Fixing.stable (hF : Fixing strerror full w L1 L2 n h d di N target ino D c) : Stable (· = cstr target) (fun _ => some ino) d di c := by
  obtain ⟨v, hv⟩ := hF.rest
  exact ⟨by rintro p rfl; exact hF.found, ⟨(hv.names d rfl).trans hv.dir.1, hv.dir.2⟩, hF.others⟩

/-- The manifest is synced: whenever the machine stops from then on, the file has its name and its contents. -/
theorem Fixing.final (hs : Setting w L1 L2 n) (hF : Fixing strerror full w L1 L2 n h d di N target ino D c0) (hd : d ≠ []) (hcd : cstr d = d)
    (hin : InDir d (cstr target)) (hc : CallIn strerror full t (.write h .sync) (.status .ok) c0 ds c1) (hr : Run strerror full c1 es c)
    (he : ∀ t op, Ev.call t op ∈ ds ++ es → Obeys N (· = cstr target) op) (he' : KeepsDir d (ds ++ es)) {b : Option Bytes}
    (hb : CrashReads c.w.k target b) : b = some D := by
  have hno : ∀ t op, Ev.call t op ∈ ds ++ es → Obeys N (· = cstr target) op ∧ ∀ n ∈ changing op, ¬ cstr n = d :=
    fun t op hm => ⟨he t op hm, he' t op hm⟩
  obtain ⟨hF1, hcl⟩ := synced_final (P := (· = cstr target)) (v := fun _ => some ino) hs (fun c hI => Fixing.stable hI) (fun c hI => hI.reach)
    (fun c hI => hI.label) (by rintro p rfl; exact hin.parent hd) hcd (fun hI hs he => Fixing.step hI hs he)
    ⟨⟨trivial, fun _ _ => trivial⟩, fun n hn => nomatch hn⟩ hF hc fun t op hm => hno t op (List.mem_append_left _ hm)
  have key : Fixing strerror full w L1 L2 n h d di N target ino D c ∧ Clean (· = cstr target) (fun _ => some ino) c.w.k := by
    have he2 := fun t op hm => hno t op (List.mem_append_right _ hm)
    clear he he' hno hb hc
    induction hr with
    | nil => exact ⟨hF1, hcl⟩
    | step hr hs ih =>
      obtain ⟨g1, g2⟩ := ih fun t op hm => he2 t op (List.mem_append_left _ hm)
      exact ⟨g1.step hs fun t op e => he2 t op (List.mem_append_right _ (by rw [e]; exact List.mem_singleton_self _)), g2.step g1.stable hs⟩
  have hname : ∀ u, c.w.k.NameAfterCrash (cstr target) u → u = some ino := fun u hu =>
    key.2.final (by rintro p rfl; exact key.1.found) rfl hu
  cases b with
  | none => exact nomatch hname none hb
  | some b =>
    obtain ⟨j, h1, h2⟩ := hb
    have := Option.some.inj (hname _ h1)
    subst this
    rw [key.1.firm.hard.disk j D (by unfold One; rw [if_pos rfl]) b h2]

theorem InDir.ne {p : Bytes} (h : InDir d p) : p ≠ d := by
  obtain ⟨x, rfl, -⟩ := h
  intro e
  have := congrArg List.length e
  simp at this

theorem pooled_one {cmd : Cmd} (h : Cmd.elsewhere true (cstr name) cmd) : Cmd.pooled (· = cstr name) (· = cstr name) cmd := by
  cases cmd with
  | «open» m p => exact h.imp id fun h => h.2
  | mkdir p => exact h
  | unlink p => exact h
  | rename a b => exact ⟨⟨fun e => (h.1 e).elim, fun e => (h.2 e).elim⟩, h.1⟩
  | _ => trivial

theorem Untouched.obeys (he : Untouched name es) : ∀ t op, Ev.call t op ∈ es → Obeys (· = cstr name) (· = cstr name) op := by
  intro t op hm
  obtain ⟨h1, h2⟩ := he t op hm
  refine ⟨h1, fun n hn => ?_⟩
  cases op with
  | removeFile a => exact fun e => h2 (e.trans hn)
  | renameFile a b => exact fun e => h2 (e.trans hn)
  | _ => trivial

/-- C102: the usual way to make a new file permanent, in a program with many threads.  A manifest of the directory is open.  A thread creates a
file in the directory that nobody uses; threads append to it, sync it and close it; every call on it returns OK, while the others do whatever
they want elsewhere.  After that somebody calls Sync of the manifest, and it returns OK.  Whenever the machine stops from then on, the file has
its name and just the contents that were appended, as long as nobody renames, removes or writes it. -/
theorem C102_durable (hs : Setting w L1 L2 n) (hm : OpenManifest strerror full d h' (Conf.init w L1 L2 n) c0)
    (hx : Ready c0 name left) (hq : Resting (· = cstr name) d c0) (ho : ∀ x ∈ c0.w.choices, Bystander name name x) (hin : InDir d (cstr name))
    (hc : CallIn strerror full t (.newWritable name) (.opened .ok (some h)) c0 ds c1) (hr : Run strerror full c1 es c)
    (he : ∀ u op, Ev.call u op ∈ ds ++ es → Elsewhere name op) (hd : KeepsDir d (ds ++ es)) {ws : List WOp}
    (hw : callsOn h es = (ws ++ [WOp.sync, WOp.close]).map (.write h)) (hcl : WOp.close ∉ ws)
    (hall : (answersOn h es).length = ws.length + 2) (hok : ∀ r ∈ answersOn h es, r = .status .ok)
    (hc' : CallIn strerror full t' (.write h' .sync) (.status .ok) c ds' c2) (hr' : Run strerror full c2 es' c3)
    (he' : Untouched name (ds' ++ es')) (hd' : KeepsDir d (ds' ++ es')) {b : Option Bytes} (hb : CrashReads c3.w.k name b) :
    b = some (appended ws) := by
  obtain ⟨⟨es0, h0⟩, hlab, hd0, hcd⟩ := hm.label hs
  obtain ⟨es1, ext, extm, L, ino, hrun, hreg, ⟨fo, mo, lo, gs, H, hH, -⟩, hdisk⟩ := hx.written hs h0 hc hr he hw hcl hall hok
  obtain ⟨esc, hrc, hec⟩ := hc.events
  obtain ⟨di, hR⟩ := hq.rest
  have hR : Rest (· = d) c0.w.k.lookup d di c0 :=
    ⟨rfl, fun _ _ => rfl, hR.dir, fun t home p ht => (hx.quiet t ⟨home, p, ht⟩).elim, fun x hm => by
      obtain ⟨g1, g2, g3, g4⟩ := hR.others x hm
      exact ⟨fun k p hp => g1 k p (.inl hp), fun k p u hp => g2 k p u (.inl hp), g3, g4⟩⟩
  have hR := (hR.all hrc fun u op hm => by
    rcases hec u op hm with rfl | hm
    · intro n hn
      rw [List.mem_singleton.1 hn]
      exact hin.ne
    · exact hd u op (List.mem_append_left _ hm)).all hr fun u op hm => hd u op (List.mem_append_right _ hm)
  have hch : ∀ x ∈ c.w.choices, x ∈ c0.w.choices := fun x hm => run_choices hrc x (run_choices hr x hm)
  have hmind : ∀ x ∈ c.w.choices, Mindful (· = cstr name) (fun _ => False) (· = cstr name) (One ino (appended ws)) x := fun x hm =>
    ⟨(ho x (hch x hm)).spares1.1, fun _ _ _ _ _ _ h => h.elim⟩
  have hself : One ino (appended ws) ino = some (appended ws) := by unfold One; rw [if_pos rfl]
  have hF : Fixing strerror full w L1 L2 n h' d di (· = cstr name) name ino (appended ws) c := by
    refine ⟨⟨fun _ h => h.elim, ⟨⟨?_, ?_, ?_, ?_⟩, ?_, fun x hm => (hmind x hm).1⟩, ⟨?_, fun _ _ h => h.elim⟩, hmind⟩, ⟨_, hR⟩, ⟨_, hrun⟩,
      (hlab.all hrc).all hr, fun x hm => hq.others x (hch x hm)⟩
    · intro p i hp
      constructor
      · rintro rfl
        rw [(hH.names _).2 rfl] at hp
        exact ⟨_, by rw [← Option.some.inj hp]; exact hself⟩
      · rintro ⟨E, hE⟩
        obtain ⟨rfl, -⟩ := One.eq hE
        exact (hH.names p).1 hp
    · intro i E hE
      obtain ⟨rfl, rfl⟩ := One.eq hE
      exact hreg
    · rintro i q hq ⟨E, hE⟩
      obtain ⟨e, -⟩ := One.eq hE
      cases hwr : q.wr with
      | false => rfl
      | true =>
        have := ofd_nat hq
        rw [← this] at hq
        obtain ⟨-, h', hno, -⟩ := hH.fds _ q hq ⟨e, fun _ => hwr⟩
        exact hno.elim
    · rintro p rfl
      exact ⟨rfl, by rw [(hH.names _).2 rfl]; exact nofun⟩
    · intro u home p hu
      exact only_mono (fun _ h => pooled_one h) (fun a h => by
        cases a with
        | new o => exact pooled_fine o
        | back o r =>
          cases o with
          | none => trivial
          | some o => exact pooled_fine o) (hH.progs u home p (fun h => h) hu)
    · intro i E hE b hb
      obtain ⟨rfl, rfl⟩ := One.eq hE
      exact hdisk b hb
  exact hF.final hs hd0 hcd hin hc' hr' he'.obeys hd' hb

/-- C102: and the usual way to replace a file for good: the new contents are written to a temporary file, which is synced and closed and renamed
to the target (C101), and then a manifest of the directory of the target is synced.  When all this has returned OK, the old contents do not come
back: whenever the machine stops from then on, the target has the new contents. -/
theorem C102_installed (hs : Setting w L1 L2 n) (hm : OpenManifest strerror full d h' (Conf.init w L1 L2 n) c0)
    (hx : Installing c0 tmp target old D0 left) (hq : Resting (· = cstr target) d c0) (hin : InDir d (cstr target)) (hne : cstr tmp ≠ d)
    (hc : CallIn strerror full t (.newWritable tmp) (.opened .ok (some h)) c0 ds c1) (hr : Run strerror full c1 es c)
    (he : Aside tmp target (ds ++ es)) (hd : KeepsDir d (ds ++ es)) {ws : List WOp}
    (hw : callsOn h es = (ws ++ [WOp.sync, WOp.close]).map (.write h)) (hcl : WOp.close ∉ ws)
    (hall : (answersOn h es).length = ws.length + 2) (hok : ∀ r ∈ answersOn h es, r = .status .ok)
    (hc' : CallIn strerror full t' (.renameFile tmp target) (.status .ok) c ds' c2) (he' : Afterwards tmp target ds') (hd' : KeepsDir d ds')
    {c4 : Conf} (hc'' : CallIn strerror full t'' (.write h' .sync) (.status .ok) c2 ds'' c3) (hr' : Run strerror full c3 es' c4)
    (he'' : Afterwards tmp target (ds'' ++ es')) (hd'' : KeepsDir d (ds'' ++ es')) {b : Option Bytes} (hb : CrashReads c4.w.k target b) :
    b = some (appended ws) := by
  obtain ⟨⟨es0, h0⟩, hlab, hd0, hcd⟩ := hm.label hs
  obtain ⟨new, ⟨hP, hreach⟩, hdisk⟩ := hx.renamed hs h0 hc hr he hw hcl hall hok hc' he'
  obtain ⟨esc, hrc, hec⟩ := hc.events
  obtain ⟨esc', hrc', hec'⟩ := hc'.events
  obtain ⟨di, hR⟩ := hq.rest
  have hR : Rest (· = d) c0.w.k.lookup d di c0 :=
    ⟨rfl, fun _ _ => rfl, hR.dir, fun t home p ht => (hq.quiet t ⟨home, p, ht⟩).elim, fun x hm => by
      obtain ⟨g1, g2, g3, g4⟩ := hR.others x hm
      exact ⟨fun k p hp => g1 k p (.inl hp), fun k p u hp => g2 k p u (.inl hp), g3, g4⟩⟩
  have hR := ((hR.all hrc fun u op hm => by
    rcases hec u op hm with rfl | hm
    · intro n hn
      rw [List.mem_singleton.1 hn]
      exact hne
    · exact hd u op (List.mem_append_left _ hm)).all hr fun u op hm => hd u op (List.mem_append_right _ hm)).all hrc' fun u op hm => by
    rcases hec' u op hm with rfl | hm
    · intro n hn
      rcases List.mem_cons.1 hn with rfl | hn
      · exact hne
      · rw [List.mem_singleton.1 hn]
        exact hin.ne
    · exact hd' u op hm
  have hch : ∀ x ∈ c2.w.choices, x ∈ c0.w.choices := fun x hm => run_choices hrc x (run_choices hr x (run_choices hrc' x hm))
  have hF : Fixing strerror full w L1 L2 n h' d di (Two tmp target) target new (appended ws) c2 :=
    ⟨⟨fun _ h => h.elim, hP, ⟨hdisk, fun _ _ h => h.elim⟩, fun x hm => ⟨hP.choices x hm, fun _ _ _ _ _ _ h => h.elim⟩⟩, ⟨_, hR⟩, hreach,
      ((hlab.all hrc).all hr).all hrc', fun x hm => hq.others x (hch x hm)⟩
  exact hF.final hs hd0 hcd hin hc'' hr' he''.obeys hd'' hb

/-! ## Concrete runs -/

theorem calm_leavesNames : LeavesNames Q calm := ⟨fun _ _ _ => rfl, fun _ _ _ _ h => h, fun _ _ n h1 h2 => ⟨n, h1, h2⟩, fun _ => ⟨rfl, rfl⟩⟩

/-- Thread 0 opens "/db/MANIFEST-1" for writing while thread 1 removes "/db/n". -/
def finOpen : Option (List Ev × PRes × Conf) :=
  playCallIn (fun _ => []) false 9 [.call 1 (.removeFile (lit "/db/n"))] 0 (.newWritable (lit "/db/MANIFEST-1")) [.move 1, .move 0, .ret 1] poolStart

/-- After that. -/
def finStart : Conf := (finOpen.map (·.2.2)).getD poolStart

theorem finOpen_eq : ∃ ds, finOpen = some (ds, .opened .ok (some 0), finStart) := by
  have hex : finOpen.map (fun x => x.2.1) = some (.opened .ok (some 0)) := by rfl
  unfold finStart
  cases hp : finOpen with
  | none => rw [hp] at hex; exact nomatch hex
  | some x =>
    obtain ⟨ds, r, c⟩ := x
    rw [hp] at hex
    injection hex with hex
    dsimp only at hex
    subst hex
    exact ⟨ds, rfl⟩

theorem finManifest : OpenManifest (fun _ => []) false (lit "/db") 0 poolStart finStart := by
  obtain ⟨ds, h⟩ := finOpen_eq
  exact ⟨lit "/db/MANIFEST-1", _, 0, ds, finStart, [], ⟨⟨lit "-1", by decide, by decide⟩, by decide, by decide⟩, .inl rfl, playCallIn_call h, .nil _⟩

theorem finCalm : ∀ x ∈ finStart.w.choices, x = calm := by
  obtain ⟨ds, h⟩ := finOpen_eq
  obtain ⟨es, hr, -⟩ := (playCallIn_call h).events
  exact fun x hx => List.eq_of_mem_replicate (run_choices hr x hx)

theorem finResting : Resting Q (lit "/db") finStart :=
  ⟨quiet_of (by decide +kernel), ⟨1, ⟨true, [], []⟩, by decide +kernel, by decide +kernel, rfl⟩, fun x hx => by
    rw [finCalm x hx]
    exact calm_leavesNames⟩

def unchangingB (Q : Bytes → Bool) (es : List Ev) : Bool :=
  es.all fun
    | .call _ op => (changing op).all fun n => !Q (cstr n)
    | .ret _ _ => true

theorem unchanging_of_B {Q : Bytes → Bool} (hb : unchangingB Q es = true) : ∀ t op, Ev.call t op ∈ es → ∀ n ∈ changing op, Q (cstr n) = false := by
  intro t op hm n hn
  unfold unchangingB at hb
  rw [List.all_eq_true] at hb
  have := hb _ hm
  dsimp only at this
  rw [List.all_eq_true] at this
  simpa using this n hn

theorem keepsDir_of_B (hb : unchangingB (· == d) es = true) : KeepsDir d es := fun t op hm n hn e => by
  have := unchanging_of_B hb t op hm n hn
  rw [e] at this
  simp at this

/-- The directory and "/db/n". -/
def finNames (p : Bytes) : Bool := p == lit "/db" || p == lit "/db/n"

/-- "/db/n" has been removed, but may come back until thread 2 has synced the manifest (while thread 1 creates a file and renames another). -/
example : ∃ ds es c1 c, CallIn (fun _ => []) false 2 (.write 0 .sync) (.status .ok) finStart ds c1 ∧ Run (fun _ => []) false c1 es c ∧
    finStart.w.k.NameAfterCrash (lit "/db/n") (some 3) ∧ ∀ u, c.w.k.NameAfterCrash (lit "/db/n") u → u = none := by
  have hex : ((playCallIn (fun _ => []) false 9 [.call 1 (.newWritable (lit "/db/x"))] 2 (.write 0 .sync) [.move 2, .move 1, .move 2, .ret 1, .move 2, .move 2]
      finStart).bind fun x => (play (fun _ => []) false 9 [.call 1 (.renameFile (lit "/db/C") (lit "/db/y")), .move 1] x.2.2).map fun y =>
        (x.2.1, unchangingB finNames (x.1 ++ y.1))) = some (.status .ok, true) := by rfl
  generalize hp : playCallIn (fun _ => []) false 9 _ _ _ _ finStart = y at hex
  cases y with
  | none => exact nomatch hex
  | some y =>
    obtain ⟨ds, r, c1⟩ := y
    simp only [Option.bind_some] at hex
    generalize hp1 : play (fun _ => []) false 9 _ c1 = z at hex
    cases z with
    | none => exact nomatch hex
    | some z =>
      obtain ⟨es, c⟩ := z
      injection hex with hex
      injection hex with hr hB
      dsimp only at hr hB
      subst hr
      refine ⟨ds, es, c1, c, playCallIn_call hp, play_run _ _ _ _ hp1, by decide +kernel, fun u hu => ?_⟩
      have hl : finStart.w.k.lookup (lit "/db/n") = none := by decide +kernel
      rw [← hl]
      refine C102_names (Q := (· = lit "/db/n")) poolSetting finManifest finResting (playCallIn_call hp) (play_run _ _ _ _ hp1) (fun t op hm n hn => ?_) rfl
        ⟨lit "n", by decide, by decide⟩ hu
      have := unchanging_of_B hB t op hm n hn
      simpa [finNames] using this

/-- "/db/b" is to be created. -/
theorem finReady : Ready finStart (lit "/db/b") [] := by
  refine ⟨quiet_of (by decide +kernel), .absent (absent_of_B (by decide +kernel)) fun x hx => ?_, (fun h o ho => ?_), fun d hd => ?_⟩
  · rw [finCalm x hx]
    exact ⟨calm_keepsAbsent, fun _ _ => calm_respects⟩
  · have hobj : finStart.objs = [some (.wr ⟨fun _ => none, 0, 0, true, lit "/db/MANIFEST-1", lit "/db"⟩)] := by rfl
    have ho : finStart.objs[h]? = some (some o) := ho
    rw [hobj] at ho
    match h with
    | 0 =>
      cases ho
      show cstr (lit "/db") ≠ cstr (lit "/db/b")
      decide
    | _ + 1 => exact nomatch ho
  · have : Dirname (lit "/db/b") = .ok (lit "/db") := by rfl
    rw [this] at hd
    cases hd
    decide

/-- Thread 1 creates "/db/b" while thread 0 creates "/db/x". -/
def finCreate : Option (List Ev × PRes × Conf) :=
  playCallIn (fun _ => []) false 9 [.call 0 (.newWritable (lit "/db/x"))] 1 (.newWritable (lit "/db/b")) [.move 0, .move 1] finStart

/-- Thread 1 appends to it, thread 2 syncs it, thread 1 closes it. -/
def finWrite (c : Conf) : Option (List Ev × Conf) :=
  play (fun _ => []) false 9 [.call 1 (.write 1 (.append (Slice.ofBytes [4, 5]))), .ret 0, .ret 1, .call 2 (.write 1 .sync), .move 2,
    .call 0 (.removeFile (lit "/db/x")), .move 2, .ret 2, .call 1 (.write 1 .close), .move 1, .move 0, .ret 1] c

/-- Thread 2 syncs the manifest while thread 1 opens "/db/b". -/
def finSync (c : Conf) : Option (List Ev × PRes × Conf) :=
  playCallIn (fun _ => []) false 9 [.ret 0, .call 1 (.newSequential (lit "/db/b"))] 2 (.write 0 .sync) [.move 2, .move 1, .move 2, .ret 1, .move 2, .move 2] c

def finB (p : Bytes) : Bool := p == lit "/db/b"

theorem untouched_of_B (h1 : orderlyB finB es = true) (h2 : notAwayB (lit "/db/b") es = true) : Untouched (lit "/db/b") es := fun t op hm => by
  have h : (fun p => finB p = true) = fun p => p = cstr (lit "/db/b") := by
    funext p
    simp only [finB, beq_iff_eq]
    rfl
  have h3 := orderly_of_B h1 t op hm
  rw [h] at h3
  exact ⟨h3, notAway_of_B h2 t op hm⟩

/-- Before the manifest is synced a crash may take "/db/b" away; then it may not. -/
example : ∃ c c2 c3 ds' es', CallIn (fun _ => []) false 2 (.write 0 .sync) (.status .ok) c ds' c2 ∧ Run (fun _ => []) false c2 es' c3 ∧
    CrashReads c.w.k (lit "/db/b") none ∧ ∀ b, CrashReads c3.w.k (lit "/db/b") b → b = some [4, 5] := by
  have hex : (finCreate.bind fun x => (finWrite x.2.2).bind fun y => (finSync y.2).bind fun z =>
      (play (fun _ => []) false 9 [.call 0 (.write 0 .close), .move 0] z.2.2).map fun v =>
      (x.2.1, callsOn 1 y.1, answersOn 1 y.1, z.2.1, callsB false (lit "/db/b") (x.1 ++ y.1), unchangingB (· == lit "/db") (x.1 ++ y.1),
        (orderlyB finB (z.1 ++ v.1), notAwayB (lit "/db/b") (z.1 ++ v.1), unchangingB (· == lit "/db") (z.1 ++ v.1)),
        decide (y.2.w.k.NameAfterCrash (cstr (lit "/db/b")) none))) =
      some (.opened .ok (some 1), ([WOp.append (Slice.ofBytes [4, 5])] ++ [WOp.sync, WOp.close]).map (.write 1), [.status .ok, .status .ok, .status .ok],
        .status .ok, true, true, (true, true, true), true) := by rfl
  cases hp : finCreate with
  | none => rw [hp] at hex; exact nomatch hex
  | some x =>
  obtain ⟨ds, r, c1⟩ := x
  rw [hp] at hex
  simp only [Option.bind_some] at hex
  cases hp1 : finWrite c1 with
  | none => rw [hp1] at hex; exact nomatch hex
  | some y =>
  obtain ⟨es, c⟩ := y
  rw [hp1] at hex
  simp only [Option.bind_some] at hex
  cases hp2 : finSync c with
  | none => rw [hp2] at hex; exact nomatch hex
  | some z =>
  obtain ⟨ds', r', c2⟩ := z
  rw [hp2] at hex
  simp only [Option.bind_some] at hex
  generalize hp3 : play (fun _ => []) false 9 _ c2 = v at hex
  cases v with
  | none => exact nomatch hex
  | some v =>
  obtain ⟨es', c3⟩ := v
  injection hex with hex
  injection hex with hr hex
  injection hex with hw hex
  injection hex with ha hex
  injection hex with hr' hex
  injection hex with hE hex
  injection hex with hK hex
  injection hex with hex hN
  injection hex with hO hex
  injection hex with hA hK'
  dsimp only at hr hw ha hr' hE hK hN hO hA hK'
  subst hr hr'
  have hN : c.w.k.NameAfterCrash (cstr (lit "/db/b")) none := of_decide_eq_true hN
  refine ⟨c, c2, c3, ds', es', playCallIn_call hp2, play_run _ _ _ _ hp3, hN, fun b hb => ?_⟩
  exact C102_durable (t := 1) (h := 1) poolSetting finManifest finReady finResting (fun x hx => by rw [finCalm x hx]; exact calm_bystander)
    ⟨lit "b", by decide, by decide⟩ (playCallIn_call hp) (play_run _ _ _ _ hp1)
    (fun u op hm => (calls_of_B hE u op hm).elim id fun h => (nomatch h.1)) (keepsDir_of_B hK) hw (by simp) (by rw [ha]; rfl) (by rw [ha]; simp)
    (playCallIn_call hp2) (play_run _ _ _ _ hp3) (untouched_of_B hO hA) (keepsDir_of_B hK') hb

/-- "/db/t" is to replace "/db/C". -/
theorem finInstalling : Installing finStart (lit "/db/t") (lit "/db/C") 2 [1, 2, 3] [] := by
  refine ⟨by decide, ⟨quiet_of (by decide +kernel), .absent (absent_of_B (by decide +kernel)) fun x hx => ?_, (fun h o ho => ?_), fun d hd => ?_⟩,
    ⟨quiet_of (by decide +kernel), onlyName_of_B (by decide +kernel), ⟨⟨false, [1, 2, 3], []⟩, by decide +kernel, rfl, rfl⟩, fun i q hq hi => ?_, fun x hx => ?_⟩,
    ?_, ?_, fun x hx => ?_⟩
  · rw [finCalm x hx]
    exact ⟨calm_keepsAbsent, fun _ _ => calm_respects⟩
  · have hobj : finStart.objs = [some (.wr ⟨fun _ => none, 0, 0, true, lit "/db/MANIFEST-1", lit "/db"⟩)] := by rfl
    have ho : finStart.objs[h]? = some (some o) := ho
    rw [hobj] at ho
    match h with
    | 0 =>
      cases ho
      show cstr (lit "/db") ≠ cstr (lit "/db/t")
      decide
    | _ + 1 => exact nomatch ho
  · have : Dirname (lit "/db/t") = .ok (lit "/db") := by rfl
    rw [this] at hd
    cases hd
    decide
  · have := fds_of_B (p := fun _ _ => false) (by decide +kernel) i q hq hi
    exact nomatch this
  · rw [finCalm x hx]
    exact calm_respects
  · have hl : finStart.w.k.lookup (cstr (lit "/db/C")) = some 2 := by decide +kernel
    have hp : finStart.w.k.pend = [(lit "/db/MANIFEST-1", none), (lit "/db/n", some 3)] := by decide +kernel
    rintro v (h | h)
    · exact h.trans hl
    · rw [hp] at h
      simp only [List.mem_cons, Prod.mk.injEq, List.not_mem_nil, or_false] at h
      rcases h with ⟨h, -⟩ | ⟨h, -⟩
      · exact absurd h (by decide)
      · exact absurd h (by decide)
  · rintro b ⟨n, h1, h2⟩
    have hi : finStart.w.k.inodes[2]? = some ⟨false, [1, 2, 3], []⟩ := by decide +kernel
    rw [hi] at h1
    cases h1
    rcases h2 with h | h
    · exact h
    · exact nomatch h
  · rw [finCalm x hx]
    exact calm_bystander

/-- Thread 1 creates "/db/t" while thread 0 opens "/db/C". -/
def finTemp : Option (List Ev × PRes × Conf) :=
  playCallIn (fun _ => []) false 9 [.call 0 (.newSequential (lit "/db/C"))] 1 (.newWritable (lit "/db/t")) [.move 1, .move 0] finStart

/-- Thread 2 renames it. -/
def finRename (c : Conf) : Option (List Ev × PRes × Conf) :=
  playCallIn (fun _ => []) false 9 [.ret 0, .call 0 (.newSequential (lit "/db/C")), .move 0] 2 (.renameFile (lit "/db/t") (lit "/db/C")) [.move 2] c

/-- When the rename has returned, a crash may bring the old file back; when the manifest has been synced, it may not. -/
example : ∃ c2 c3 c4 ds'' es', CallIn (fun _ => []) false 2 (.write 0 .sync) (.status .ok) c2 ds'' c3 ∧ Run (fun _ => []) false c3 es' c4 ∧
    CrashReads c2.w.k (lit "/db/C") (some [1, 2, 3]) ∧ ∀ b, CrashReads c4.w.k (lit "/db/C") b → b = some [4, 5] := by
  have hex : (finTemp.bind fun x => (finWrite x.2.2).bind fun y => (finRename y.2).bind fun u => (finSync u.2.2).bind fun z =>
      (play (fun _ => []) false 9 [.call 0 (.write 0 .close), .move 0] z.2.2).map fun v =>
      (x.2.1, callsOn 1 y.1, answersOn 1 y.1, (u.2.1, z.2.1), (callsB false (lit "/db/t") (x.1 ++ y.1), callsB true (lit "/db/C") (x.1 ++ y.1),
        unchangingB (· == lit "/db") (x.1 ++ y.1)), (orderlyB instNames u.1, notAwayB (lit "/db/C") u.1, unchangingB (· == lit "/db") u.1),
        (orderlyB instNames (z.1 ++ v.1), notAwayB (lit "/db/C") (z.1 ++ v.1), unchangingB (· == lit "/db") (z.1 ++ v.1)),
        decide (u.2.2.w.k.NameAfterCrash (cstr (lit "/db/C")) (some 2)), u.2.2.w.k.inodes[2]?)) =
      some (.opened .ok (some 1), ([WOp.append (Slice.ofBytes [4, 5])] ++ [WOp.sync, WOp.close]).map (.write 1), [.status .ok, .status .ok, .status .ok],
        (.status .ok, .status .ok), (true, true, true), (true, true, true), (true, true, true), true, some ⟨false, [1, 2, 3], []⟩) := by rfl
  cases hp : finTemp with
  | none => rw [hp] at hex; exact nomatch hex
  | some x =>
  obtain ⟨ds, r, c1⟩ := x
  rw [hp] at hex
  simp only [Option.bind_some] at hex
  cases hp1 : finWrite c1 with
  | none => rw [hp1] at hex; exact nomatch hex
  | some y =>
  obtain ⟨es, c⟩ := y
  rw [hp1] at hex
  simp only [Option.bind_some] at hex
  cases hp0 : finRename c with
  | none => rw [hp0] at hex; exact nomatch hex
  | some u =>
  obtain ⟨ds', r0, c2⟩ := u
  rw [hp0] at hex
  simp only [Option.bind_some] at hex
  cases hp2 : finSync c2 with
  | none => rw [hp2] at hex; exact nomatch hex
  | some z =>
  obtain ⟨ds'', r', c3⟩ := z
  rw [hp2] at hex
  simp only [Option.bind_some] at hex
  generalize hp3 : play (fun _ => []) false 9 _ c3 = v at hex
  cases v with
  | none => exact nomatch hex
  | some v =>
  obtain ⟨es', c4⟩ := v
  injection hex with hex
  injection hex with hr hex
  injection hex with hw hex
  injection hex with ha hex
  injection hex with hr' hex
  injection hr' with hr0 hr'
  injection hex with h1 hex
  injection h1 with hE h1
  injection h1 with hE' hK
  injection hex with h2 hex
  injection h2 with hO2 h2
  injection h2 with hA2 hK2
  injection hex with h3 hex
  injection h3 with hO3 h3
  injection h3 with hA3 hK3
  injection hex with hN hi
  dsimp only at hr hw ha hr0 hr' hE hE' hK hO2 hA2 hK2 hO3 hA3 hK3 hN hi
  subst hr hr' hr0
  have hN : c2.w.k.NameAfterCrash (cstr (lit "/db/C")) (some 2) := of_decide_eq_true hN
  refine ⟨c2, c3, c4, ds'', es', playCallIn_call hp2, play_run _ _ _ _ hp3, ⟨2, hN, _, hi, .inl rfl⟩, fun b hb => ?_⟩
  exact C102_installed (t := 1) (h := 1) poolSetting finManifest finInstalling finResting ⟨lit "C", by decide, by decide⟩ (by decide) (playCallIn_call hp)
    (play_run _ _ _ _ hp1) (aside_of_B hE hE') (keepsDir_of_B hK) hw (by simp) (by rw [ha]; rfl) (by rw [ha]; simp)
    (playCallIn_call hp0) (afterwards_of_B hO2 hA2) (keepsDir_of_B hK2) (playCallIn_call hp2) (play_run _ _ _ _ hp3) (afterwards_of_B hO3 hA3)
    (keepsDir_of_B hK3) hb

end Conc
end Posix
end Lsmdb
