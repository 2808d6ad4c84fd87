import Verif.Proof.PosixSolo5
import Verif.Props.PosixConc
import Verif.Props.PosixFile
import Verif.Props.PosixRead

/-!
# A file used in a program with many threads behaves as in a program with one (C93)
-/

namespace Lsmdb
namespace Posix
namespace Conc

open MemEnv (St lit)

variable {strerror : Strerror} {full : Bool} {R : Option Inode → Option Inode → Prop} {h ino : Nat}

theorem CarefulRun.append {c c' c'' : Conf} {es fs : List Ev} (a : CarefulRun strerror full R h ino c es c')
    (b : CarefulRun strerror full R h ino c' fs c'') : CarefulRun strerror full R h ino c (es ++ fs) c'' := by
  induction b with
  | nil => rw [List.append_nil]; exact a
  | step _ hs hc ih => rw [← List.append_assoc]; exact .step ih hs hc

/-- The slices that clients append point at existing bytes. -/
theorem valid_calls {c c' : Conf} {es : List Ev} (hr : CarefulRun strerror full R h ino c es c') :
    ∀ a d, POp.write a (.append d) ∈ callsOn h es → d.WF := by
  induction hr with
  | nil => intro a d hm; exact nomatch hm
  | step hr hs hc ih =>
    intro a d hm
    rw [callsOn_snoc] at hm
    rcases List.mem_append.1 hm with hm | hm
    · exact ih a d hm
    · cases hs with
      | move => exact nomatch hm
      | ret => exact nomatch hm
      | call t op fuel ht ha =>
        by_cases hh : handle op = some h
        · rw [callsOn_call hh] at hm
          exact ha.1 a d (List.mem_singleton.1 hm).symm
        · rw [callsOn_other hh] at hm; exact nomatch hm

theorem writesOf_map (h : Nat) (ws : List WOp) : writesOf (ws.map (.write h)) = ws := by
  induction ws with
  | nil => rfl
  | cons o os ih => simpa [writesOf] using ih

theorem not_closing_early {h : Nat} {ws : List WOp} {a b : List POp} {op : POp} (hc : WOp.close ∉ ws.dropLast)
    (he : ws.map (.write h) = a ++ op :: b) (hcl : Closing op) : b = [] := by
  obtain ⟨xs, ys, rfl, h1, h2⟩ := List.map_eq_append_iff.1 he
  obtain ⟨o, zs, rfl, h3, h4⟩ := List.map_eq_cons_iff.1 h2
  have ho : o = .close := by
    cases o with
    | close => rfl
    | _ => rw [← h3] at hcl; exact hcl.elim
  subst ho
  cases zs with
  | nil => exact h4.symm
  | cons z zs =>
    refine (hc ?_).elim
    have : xs ++ WOp.close :: z :: zs = (xs ++ [.close]) ++ (z :: zs) := by simp
    rw [this, List.dropLast_append_of_ne_nil (by simp)]
    simp

/-- C93, writable files: take any run of any number of threads, from a moment `c0` in which a client has a file object as the open call
leaves it, to any moment `c`, in which nobody but the calls on the object changes the file.  The calls on the object, in the order in
which they were made (by whatever threads), got the answers that a single thread making them would have got, and left in the file what
they would have left, in a world in which nobody else touches the file.  If the last call is still running, then what is in the file
is what is there at some moment of that call of the single thread. -/
theorem C93_writable {w : World} {L1 L2 : Int} {n : Nat} (hs : Setting w L1 L2 n) {es0 : List Ev} {c0 : Conf}
    (h0 : Run strerror full (Conf.init w L1 L2 n) es0 c0) {name : Bytes} {f : WFile} {base : Bytes}
    (hf : c0.has h (.wr f)) (ho : Opened name f ino base c0.w) {es : List Ev} {c : Conf}
    (hr : CarefulRun strerror full (fun a b => b = a) h ino c0 es c) {ws : List WOp} (hw : callsOn h es = ws.map (.write h))
    (hc : WOp.close ∉ ws.dropLast) :
    ∃ cs, Opened name f ino base ⟨c0.w.k, cs, []⟩ ∧
      ((∃ ss f' w', f.run strerror full ws ⟨c0.w.k, cs, []⟩ = .done (ss, f') w' ∧ answersOn h es = ss.map .status ∧ c.has h (.wr f') ∧
          c.w.k.inodes[ino]? = w'.k.inodes[ino]?) ∨
        (∃ ops op ss f1 w1 w', ws = ops ++ [op] ∧ f.run strerror full ops ⟨c0.w.k, cs, []⟩ = .done (ss, f1) w1 ∧
          answersOn h es = ss.map .status ∧ Leaves (f1.step strerror full op w1) w' ∧ c.w.k.inodes[ino]? = w'.k.inodes[ino]?)) := by
  obtain ⟨fo, mo, lo, gs, H0⟩ := hs.inv h0
  have hfd : 0 ≤ f.fd := by
    obtain ⟨o, n, h1, _⟩ := ho.file
    exact (toNat_lt_of_ofd h1).1
  have hi : (f.fd.toNat : Int) = f.fd := by omega
  have hv : ValidOps ws := by
    intro d hd
    refine valid_calls hr h d ?_
    rw [hw]
    exact List.mem_map_of_mem hd
  have hal : ∀ x, Lets (fun a b => b = a) ino f.fd.toNat x → Alone ino f.fd x := fun x hx k => by rw [← hi]; exact hx k
  have hla : ∀ x ∈ c0.w.choices, Lets (fun a b => b = a) ino f.fd.toNat x := fun x hx k => by rw [hi]; exact ho.alone x hx k
  obtain ⟨fo', mo', lo', gs', H, -, T⟩ := Track.all (R := fun a b => b = a) (fun _ => rfl) (fun _ _ _ h1 h2 => h2.trans h1) (fun n _ h => ⟨n, h⟩) hr H0 hf trivial
    (show f.fd = (f.fd.toNat : Int) from hi.symm) hla
  have open' : ∀ cs, (∀ x ∈ cs, Lets (fun a b => b = a) ino f.fd.toNat x) → Opened name f ino base ⟨c0.w.k, cs, []⟩ := fun cs hcs =>
    ⟨ho.new, ho.file, fun x hx => hal x (hcs x hx)⟩
  have hans : answersOn h es = (es.foldl (follow h) (none, [])).2 := rfl
  rw [hans]
  -- the last call is running, or has just come to its end
  have mid : ∀ {ops : List POp} {op : POp} {rs : List PRes} {o : Obj} {k k2 : Kernel} {all cs : List Choice} {fuel : Nat} {p : Prog Fin},
      ws.map (.write h) = ops ++ [op] → Serial strerror full (Lets (fun a b => b = a) ino f.fd.toNat) (.wr f) c0.w.k ops rs (some o) k all →
      Fits op o → (∀ x ∈ cs, Lets (fun a b => b = a) ino f.fd.toNat x) → Trail (body strerror full fuel op (some o)) k cs p k2 →
      c.w.k.inodes[ino]? = k2.inodes[ino]? →
      ∃ cs, Opened name f ino base ⟨c0.w.k, cs, []⟩ ∧
        (∃ ops op ss f1 w1 w', ws = ops ++ [op] ∧ f.run strerror full ops ⟨c0.w.k, cs, []⟩ = .done (ss, f1) w1 ∧
          rs = ss.map .status ∧ Leaves (f1.step strerror full op w1) w' ∧ c.w.k.inodes[ino]? = w'.k.inodes[ino]?) := by
    intro ops op rs o k k2 all cs fuel p he hser hfit hcs htr hino
    obtain ⟨f1, ss, calls, rfl, hrs, -, hrun⟩ := hser.write o rfl
    obtain ⟨xs, ys, rfl, h1, h2⟩ := List.map_eq_append_iff.1 he
    obtain ⟨wop, zs, rfl, h3, h4⟩ := List.map_eq_cons_iff.1 h2
    have : zs = [] := List.map_eq_nil_iff.1 h4
    subst this
    subst h1 h3
    rw [writesOf_map] at hrun
    have hopen := open' (all ++ cs) (fun x hx => (List.mem_append.1 hx).elim (hser.choices x) (hcs x))
    obtain ⟨calls', hmid⟩ := htr.midway
    refine ⟨all ++ cs, hopen, xs, wop, ss, f1, ⟨k, cs, [] ++ calls⟩, ⟨k2, [], [] ++ calls ++ calls'⟩, rfl, hrun cs [], hrs, ?_, hino⟩
    rcases hmid ([] ++ calls) with hmid | ⟨e, hmid⟩
    · exact hmid
    · refine (C47_no_overflow strerror full name f ino base _ (xs ++ [wop]) hopen hv e ?_).elim
      rw [Posix.run_append, hrun cs []]
      simp only [run_one, hmid]
  rw [hw] at T
  generalize hops : ws.map (POp.write h) = ops at T
  generalize es.foldl (follow h) (none, []) = x at T
  cases T with
  | idle hser hobj hp hi' hR hfd' =>
    rename_i rs o k all
    obtain ⟨f', ss, calls, rfl, hrs, -, hrun⟩ := hser.write o rfl
    refine ⟨all, open' all hser.choices, .inl ⟨ss, f', ⟨k, [], [] ++ calls⟩, ?_, hrs, hobj, hR⟩⟩
    have := hrun [] []
    rw [← hops, writesOf_map, List.append_nil] at this
    exact this
  | busy hser hfit hth hcs htr hk hfo hR hfd' =>
    obtain ⟨cs, h1, h2⟩ := mid hops hser hfit hcs htr hR
    exact ⟨cs, h1, .inr h2⟩
  | closing hser hfit hth hcs htr hcl hR =>
    obtain ⟨cs, h1, h2⟩ := mid hops hser hfit hcs htr hR
    exact ⟨cs, h1, .inr h2⟩
  | closed hser hcl hobj hno hR =>
    rename_i ops rs o k all op
    obtain ⟨o, rfl⟩ := hser.left fun op hop => by
      rw [← hops] at hop
      obtain ⟨wop, -, rfl⟩ := List.mem_map.1 hop
      exact ⟨_, _, rfl⟩
    obtain ⟨f', ss, calls, rfl, hrs, -, hrun⟩ := hser.write o rfl
    refine ⟨all, open' all hser.choices, .inl ⟨ss, f', ⟨k, [], [] ++ calls⟩, ?_, hrs, hobj, hR⟩⟩
    have := hrun [] []
    rw [← hops, writesOf_map, List.append_nil] at this
    exact this
  | over hcl hb =>
    exact (hb (not_closing_early hc hops hcl)).elim

/-! ## What follows: writable files (C47, C48) -/

theorem contents_of {k k' : Kernel} (e : k.inodes[ino]? = k'.inodes[ino]?) : Contents k ino = Contents k' ino := by
  unfold Contents; rw [e]

theorem couldBe_of {k k' : Kernel} (e : k.inodes[ino]? = k'.inodes[ino]?) (c : Bytes) : CouldBe k ino c ↔ CouldBe k' ino c := by
  unfold CouldBe; rw [e]

theorem allOk_of {es : List Ev} {ss : List St} (he : answersOn h es = ss.map .status) (hok : ∀ r ∈ answersOn h es, r = .status .ok) :
    AllOk ss := by
  intro s hs
  have := hok (.status s) (by rw [he]; exact List.mem_map_of_mem hs)
  injection this

theorem run_split {f f' : WFile} {a b : List WOp} {w w' : World} {ss : List St} (hr : f.run strerror full (a ++ b) w = .done (ss, f') w') :
    ∃ ss1 ts f1 w1, f.run strerror full a w = .done (ss1, f1) w1 ∧ f1.run strerror full b w1 = .done (ts, f') w' ∧ ss = ss1 ++ ts := by
  rw [Posix.run_append] at hr
  cases h2 : f.run strerror full a w with
  | crash w => rw [h2] at hr; exact nomatch hr
  | fault e => rw [h2] at hr; exact nomatch hr
  | done x w1 =>
    obtain ⟨ss1, f1⟩ := x
    rw [h2] at hr
    simp only at hr
    cases h3 : f1.run strerror full b w1 with
    | crash w => rw [h3] at hr; exact nomatch hr
    | fault e => rw [h3] at hr; exact nomatch hr
    | done y w2 =>
      obtain ⟨ts, f2⟩ := y
      rw [h3] at hr
      injection hr with e1 e2
      injection e1 with e1 e3
      subst e1 e2 e3
      exact ⟨ss1, ts, f1, w1, rfl, h3, rfl⟩

theorem run_single {f f' : WFile} {o : WOp} {w w' : World} {ss : List St} (hr : f.run strerror full [o] w = .done (ss, f') w') :
    ∃ s, f.step strerror full o w = .done (s, f') w' ∧ ss = [s] := by
  rw [run_one] at hr
  cases h3 : f.step strerror full o w with
  | crash w => rw [h3] at hr; exact nomatch hr
  | fault e => rw [h3] at hr; exact nomatch hr
  | done y w2 =>
    obtain ⟨s, f2⟩ := y
    rw [h3] at hr
    injection hr with e1 e2
    injection e1 with e1 e3
    subst e1 e2 e3
    exact ⟨s, rfl, rfl⟩

/-- A client gets an answer for each call. -/
theorem run_length {f' : WFile} {ops : List WOp} : ∀ {f : WFile} {w w' : World} {ss : List St}, f.run strerror full ops w = .done (ss, f') w' →
    ss.length = ops.length := by
  induction ops with
  | nil =>
    intro f w w' ss hr
    injection hr with e1 e2
    injection e1 with e1 e3
    subst e1
    rfl
  | cons o os ih =>
    intro f w w' ss hr
    obtain ⟨ss1, ts, f1, w1, h1, h2, rfl⟩ := run_split (a := [o]) (b := os) hr
    obtain ⟨s, -, rfl⟩ := run_single h1
    simp [ih h2]

/-- Answers stay. -/
theorem answers_prefix (h : Nat) (es es' : List Ev) : answersOn h es <+: answersOn h (es ++ es') := by
  unfold answersOn
  rw [List.foldl_append]
  generalize es.foldl (follow h) (none, []) = x
  induction es' generalizing x with
  | nil => exact List.prefix_refl _
  | cons e es' ih =>
    refine List.IsPrefix.trans ?_ (ih (follow h x e))
    cases e with
    | call t op =>
      show x.2 <+: (if handle op = some h then (some t, x.2) else x).2
      split <;> exact List.prefix_refl _
    | ret t r =>
      show x.2 <+: (if x.1 = some t then (none, x.2 ++ [r]) else x).2
      split
      · exact List.prefix_append _ _
      · exact List.prefix_refl _

/-- C93: if all calls on the file have returned OK, then the file holds what it held when it was opened followed by the stream of the
appended bytes, in the order of the calls, except at most 65536 bytes at the end of the stream. -/
theorem C93_stream {w : World} {L1 L2 : Int} {n : Nat} (hs : Setting w L1 L2 n) {es0 : List Ev} {c0 : Conf}
    (h0 : Run strerror full (Conf.init w L1 L2 n) es0 c0) {name : Bytes} {f : WFile} {base : Bytes}
    (hf : c0.has h (.wr f)) (ho : Opened name f ino base c0.w) {es : List Ev} {c : Conf}
    (hr : CarefulRun strerror full (fun a b => b = a) h ino c0 es c) {ws : List WOp} (hw : callsOn h es = ws.map (.write h))
    (hc : WOp.close ∉ ws) (hall : (answersOn h es).length = ws.length) (hok : ∀ r ∈ answersOn h es, r = .status .ok) :
    ∃ p rest, appended ws = p ++ rest ∧ rest.length ≤ 65536 ∧ Contents c.w.k ino = some (base ++ p) := by
  obtain ⟨cs, hopen, h1 | h1⟩ := C93_writable hs h0 hf ho hr hw (fun hm => hc (List.dropLast_subset _ hm))
  · obtain ⟨ss, f', w', hrun, hans, -, hino⟩ := h1
    have hv : ValidOps ws := fun d hd => valid_calls hr h d (by rw [hw]; exact List.mem_map_of_mem hd)
    rw [contents_of hino]
    exact C47_stream strerror full name f f' ino base _ w' ws ss hopen hv hc hrun (allOk_of hans hok)
  · obtain ⟨ops, op, ss, f1, w1, w', rfl, hrun, hans, -, -⟩ := h1
    rw [hans, List.length_map, (run_length hrun), List.length_append] at hall
    simp at hall

/-- C93: after a Flush, Sync or Close that returned OK all of it is there. -/
theorem C93_flushed {w : World} {L1 L2 : Int} {n : Nat} (hs : Setting w L1 L2 n) {es0 : List Ev} {c0 : Conf}
    (h0 : Run strerror full (Conf.init w L1 L2 n) es0 c0) {name : Bytes} {f : WFile} {base : Bytes}
    (hf : c0.has h (.wr f)) (ho : Opened name f ino base c0.w) {es : List Ev} {c : Conf}
    (hr : CarefulRun strerror full (fun a b => b = a) h ino c0 es c) {ws : List WOp} {last : WOp}
    (hw : callsOn h es = (ws ++ [last]).map (.write h)) (hc : WOp.close ∉ ws) (hl : last = .flush ∨ last = .sync ∨ last = .close)
    (hall : (answersOn h es).length = ws.length + 1) (hok : ∀ r ∈ answersOn h es, r = .status .ok) :
    Contents c.w.k ino = some (base ++ appended ws) := by
  obtain ⟨cs, hopen, h1 | h1⟩ := C93_writable hs h0 hf ho hr hw (by simpa using hc)
  · obtain ⟨ss, f', w', hrun, hans, -, hino⟩ := h1
    have hv : ValidOps ws := fun d hd => valid_calls hr h d (by rw [hw, List.map_append]; exact List.mem_append_left _ (List.mem_map_of_mem hd))
    rw [contents_of hino]
    exact C47_flushed strerror full name f f' ino base _ w' ws last ss hopen hv hc hl hrun (allOk_of hans hok)
  · obtain ⟨ops, op, ss, f1, w1, w', he, hrun, hans, -, -⟩ := h1
    obtain ⟨rfl, -⟩ := List.append_inj' he rfl
    rw [hans, List.length_map, run_length hrun] at hall
    omega

/-- C93: at any moment, as long as no call on the file has failed, a machine that stops leaves in the file what a machine that stopped
when the file was opened could have left, or what the file held then followed by some of the stream, from its beginning. -/
theorem C93_crash {w : World} {L1 L2 : Int} {n : Nat} (hs : Setting w L1 L2 n) {es0 : List Ev} {c0 : Conf}
    (h0 : Run strerror full (Conf.init w L1 L2 n) es0 c0) {name : Bytes} {f : WFile} {base : Bytes}
    (hf : c0.has h (.wr f)) (ho : Opened name f ino base c0.w) {es : List Ev} {c : Conf}
    (hr : CarefulRun strerror full (fun a b => b = a) h ino c0 es c) {ws : List WOp} (hw : callsOn h es = ws.map (.write h))
    (hc : WOp.close ∉ ws.dropLast) (hok : ∀ r ∈ answersOn h es, r = .status .ok) :
    (∃ b, CouldBe c.w.k ino b) ∧ ∀ b, CouldBe c.w.k ino b → CouldBe c0.w.k ino b ∨ ∃ p, p <+: appended ws ∧ b = base ++ p := by
  have hv : ValidOps ws := fun d hd => valid_calls hr h d (by rw [hw]; exact List.mem_map_of_mem hd)
  -- a moment of the last call
  obtain ⟨cs, hopen, h1⟩ := C93_writable hs h0 hf ho hr hw hc
  have key : (ws = [] ∧ c.w.k.inodes[ino]? = c0.w.k.inodes[ino]?) ∨ ∃ ops op ss f1 w1 w', ws = ops ++ [op] ∧
      f.run strerror full ops ⟨c0.w.k, cs, []⟩ = .done (ss, f1) w1 ∧ AllOk ss ∧ Leaves (f1.step strerror full op w1) w' ∧
      c.w.k.inodes[ino]? = w'.k.inodes[ino]? := by
    rcases h1 with ⟨ss, f', w', hrun, hans, -, hino⟩ | ⟨ops, op, ss, f1, w1, w', he, hrun, hans, hl, hino⟩
    · rcases List.eq_nil_or_concat ws with rfl | ⟨ops, op, e⟩
      · left
        injection hrun with _ hrun
        exact ⟨rfl, by rw [hino, ← hrun]⟩
      · right
        rw [List.concat_eq_append] at e
        subst e
        obtain ⟨ss1, ts, f1, w1, h2, h3, rfl⟩ := run_split hrun
        obtain ⟨s, h4, rfl⟩ := run_single h3
        exact ⟨ops, op, ss1, f1, w1, w', rfl, h2, fun s hs => allOk_of hans hok s (List.mem_append_left _ hs), .inl ⟨_, h4⟩, hino⟩
    · exact .inr ⟨ops, op, ss, f1, w1, w', he, hrun, allOk_of hans hok, hl, hino⟩
  rcases key with ⟨rfl, hino⟩ | ⟨ops, op, ss, f1, w1, w', rfl, hrun, hall, hl, hino⟩
  · simp only [couldBe_of hino]
    refine ⟨?_, fun b hb => .inl hb⟩
    obtain ⟨o, n, -, -, -, -, hn, -, -⟩ := ho.file
    exact ⟨n.data, n, hn, .inl rfl⟩
  · simp only [couldBe_of hino]
    exact C48_prefix strerror full name f f1 ino base ⟨c0.w.k, cs, []⟩ w1 w' ops op ss hopen hv (by simpa using hc) hrun hall hl

/-- C93: after a Sync that returned OK, whatever the threads do later, and whenever the machine stops: everything that was appended
before the Sync is in the file. -/
theorem C93_synced {w : World} {L1 L2 : Int} {n : Nat} (hs : Setting w L1 L2 n) {es0 : List Ev} {c0 : Conf}
    (h0 : Run strerror full (Conf.init w L1 L2 n) es0 c0) {name : Bytes} {f : WFile} {base : Bytes}
    (hf : c0.has h (.wr f)) (ho : Opened name f ino base c0.w) {es es' : List Ev} {c c' : Conf}
    (hr : CarefulRun strerror full (fun a b => b = a) h ino c0 es c) {ws : List WOp}
    (hw : callsOn h es = (ws ++ [WOp.sync]).map (.write h)) (hc : WOp.close ∉ ws) (hall : (answersOn h es).length = ws.length + 1)
    (hok : ∀ r ∈ answersOn h es, r = .status .ok)
    (hr' : CarefulRun strerror full (fun a b => b = a) h ino c es' c') {ws' : List WOp} (hw' : callsOn h es' = ws'.map (.write h))
    (hc' : WOp.close ∉ ws'.dropLast) :
    (∃ b, CouldBe c'.w.k ino b) ∧ ∀ b, CouldBe c'.w.k ino b → base ++ appended ws <+: b := by
  have hcalls : callsOn h (es ++ es') = (ws ++ [WOp.sync] ++ ws').map (.write h) := by
    unfold callsOn at *
    rw [List.filterMap_append, hw, hw', ← List.map_append]
  have hlate : WOp.close ∉ (ws ++ [WOp.sync] ++ ws').dropLast := by
    cases ws' with
    | nil => simpa using hc
    | cons x xs =>
      rw [List.dropLast_append_of_ne_nil (by simp)]
      simp only [List.mem_append, List.mem_singleton, not_or]
      exact ⟨⟨hc, nofun⟩, hc'⟩
  have hrr := hr.append hr'
  have hv : ValidOps (ws ++ [WOp.sync] ++ ws') := fun d hd => valid_calls hrr h d (by rw [hcalls]; exact List.mem_map_of_mem hd)
  have hv1 : ValidOps ws := fun d hd => hv d (List.mem_append_left _ (List.mem_append_left _ hd))
  have hv2 : ValidOps ws' := fun d hd => hv d (List.mem_append_right _ hd)
  obtain ⟨cs, hopen, h1⟩ := C93_writable hs h0 hf ho hrr hcalls hlate
  -- the answers before
  have hfirst : ∀ {ss ts : List St}, answersOn h (es ++ es') = (ss ++ ts).map .status → ss.length = ws.length + 1 → AllOk ss := by
    intro ss ts he hlen s hs
    have hp := answers_prefix h es es'
    rw [he, List.map_append] at hp
    have : answersOn h es = ss.map .status := by
      have h1 := List.prefix_append (ss.map PRes.status) (ts.map .status)
      exact (List.prefix_of_prefix_length_le hp h1 (by simp [hall, hlen])).eq_of_length (by simp [hall, hlen])
    exact allOk_of this hok s hs
  have key : ∃ ss1 f1 w1 w', f.run strerror full (ws ++ [WOp.sync]) ⟨c0.w.k, cs, []⟩ = .done (ss1, f1) w1 ∧ AllOk ss1 ∧
      Leaves (f1.run strerror full ws' w1) w' ∧ c'.w.k.inodes[ino]? = w'.k.inodes[ino]? := by
    rcases h1 with ⟨ss, f', w', hrun, hans, -, hino⟩ | ⟨ops, op, ss, f1, w1, w', he, hrun, hans, hl, hino⟩
    · obtain ⟨ss1, ts, f1, w1, h2, h3, rfl⟩ := run_split hrun
      exact ⟨ss1, f1, w1, w', h2, hfirst hans (by rw [run_length h2]; simp), .inl ⟨_, h3⟩, hino⟩
    · rcases List.eq_nil_or_concat ws' with rfl | ⟨xs, x, e⟩
      · exfalso
        rw [List.append_nil] at he
        obtain ⟨rfl, -⟩ := List.append_inj' he rfl
        have hp := (answers_prefix h es es').length_le
        rw [hans, List.length_map, run_length hrun] at hp
        omega
      · rw [List.concat_eq_append] at e
        subst e
        rw [← List.append_assoc] at he
        obtain ⟨rfl, e⟩ := List.append_inj' he rfl
        injection e with e _
        subst e
        obtain ⟨ss1, ts, fa, wa, h2, h3, rfl⟩ := run_split hrun
        refine ⟨ss1, fa, wa, w', h2, hfirst hans (by rw [run_length h2]; simp), ?_, hino⟩
        unfold Leaves
        rw [Posix.run_append, h3]
        simp only [run_one]
        rcases hl with ⟨y, hl⟩ | hl
        · left; rw [hl]; exact ⟨_, rfl⟩
        · right; rw [hl]
  obtain ⟨ss1, f1, w1, w', h2, h3, h4, hino⟩ := key
  simp only [couldBe_of hino]
  exact C48_synced strerror full name f f1 ino base _ w1 w' ws ws' ss1 hopen hv1 hc h2 h3 hv2 h4

/-! ## Sequential files (C69) -/

theorem readsOf_map (h : Nat) (os : List SOp) : readsOf (os.map (callOf h)) = os := by
  induction os with
  | nil => rfl
  | cons o os ih => cases o <;> simpa [readsOf, callOf] using ih

theorem Growth.refl (a : Option Inode) : Growth a a := fun n hn => ⟨n, hn, rfl, List.prefix_refl _⟩

theorem Growth.trans (a b c : Option Inode) (h1 : Growth a b) (h2 : Growth b c) : Growth a c := by
  intro n hn
  obtain ⟨n', hn', e1, p1⟩ := h1 n hn
  obtain ⟨n'', hn'', e2, p2⟩ := h2 n' hn'
  exact ⟨n'', hn'', e2.trans e1, p1.trans p2⟩

theorem reader (hrefl : ∀ a, R a a) (htrans : ∀ a b c, R a b → R b c → R a c) (hG : ∀ a b, R a b → Growth a b)
    {w : World} {L1 L2 : Int} {n : Nat} (hs : Setting w L1 L2 n) {es0 : List Ev} {c0 : Conf}
    (h0 : Run strerror full (Conf.init w L1 L2 n) es0 c0) {f : SeqFile} {D : Bytes} {p : Nat} (hf : c0.has h (.seq f))
    (hrd : ReadableAt c0.w.k f.fd ino D p)
    (hg : ∀ x ∈ c0.w.choices, ∀ y, (∀ n, y.inodes[ino]? = some n → R (some n) ((x.other y).inodes[ino]?)) ∧ (x.other y).ofd f.fd = y.ofd f.fd) {es : List Ev} {c : Conf}
    (hr : CarefulRun strerror full R h ino c0 es c) {ops : List SOp} (hw : callsOn h es = ops.map (callOf h))
    (hn : ∀ n, SOp.skip n ∈ ops → n < 2 ^ 63) (hq : c.has h (.seq f)) :
    ∃ as D' n n' q, answersOn h es = List.zipWith answerOf ops as ∧ Walk D D' p ops as q ∧ D <+: D' ∧
      c.w.k.inodes[ino]? = some n ∧ D' <+: n.data ∧ ((∀ a b, R a b → b = a) → D' = D) ∧ n'.data = D' ∧ R (some n') (some n) := by
  obtain ⟨fo, mo, lo, gs, H0⟩ := hs.inv h0
  have hfd : 0 ≤ f.fd := by
    obtain ⟨o, n, h1, _⟩ := hrd
    exact (toNat_lt_of_ofd h1).1
  have hi : (f.fd.toNat : Int) = f.fd := by omega
  have hal : ∀ x, Lets R ino f.fd.toNat x → Grows ino f.fd x := fun x hx k => by rw [← hi]; exact ⟨(hx k).2, fun n hn => hG _ _ ((hx k).1 n hn) n rfl⟩
  have hla : ∀ x ∈ c0.w.choices, Lets R ino f.fd.toNat x := fun x hx k => by rw [hi]; exact hg x hx k
  obtain ⟨fo', mo', lo', gs', H, -, T⟩ := Track.all hrefl htrans (fun n b h => (hG _ _ h n rfl).imp fun _ h => h.1) hr H0 hf trivial
    (show f.fd = (f.fd.toNat : Int) from hi.symm) hla
  have hans : answersOn h es = (es.foldl (follow h) (none, [])).2 := rfl
  rw [hans]
  rw [hw] at T
  have noclose : ∀ op ∈ ops.map (callOf h), ¬ Closing op := by
    intro op hop hcl
    obtain ⟨o, -, rfl⟩ := List.mem_map.1 hop
    cases o <;> exact hcl.elim
  generalize hops : ops.map (callOf h) = os at T
  rw [hops] at noclose
  generalize es.foldl (follow h) (none, []) = x at T
  cases T with
  | idle hser hobj hp hi' hR hfd' =>
    rename_i rs o k all
    obtain ⟨as, calls, rfl, hlen, hrs, hrun⟩ := hser.read o rfl
    have h1 := hrun [] []
    rw [← hops, readsOf_map] at hrs h1
    obtain ⟨D', q, d1, d2, d3, d4⟩ := C69_history strerror f ino D p ops hn ⟨c0.w.k, all ++ [], []⟩ _ as
      (fun x hx => hal x (hser.choices x (by simpa using hx))) hrd h1
    obtain ⟨o, n, -, -, -, -, hn', -, hd⟩ := d4
    obtain ⟨n2, hn2, -, hp2⟩ := hG _ _ hR n hn'
    rw [hn', hn2] at hR
    refine ⟨as, D', n2, n, q, hrs, d3, d1, hn2, by rw [← hd]; exact hp2, fun he => d2 fun x hx y => ?_, hd, hR⟩
    have := hser.choices x (by simpa using hx) y
    rw [hi] at this
    exact ⟨fun n hn => he _ _ (this.1 n hn), this.2⟩
  | busy hser hfit hth hcs htr hk hfo hR hfd' =>
    have := H.own _ h _ hth
    rw [show c.objs[h]? = _ from hq] at this
    cases this
  | closing hser hfit hth hcs htr hcl hR => exact (noclose _ (by simp) hcl).elim
  | closed hser hcl hobj hno hR => exact (noclose _ (by simp) hcl).elim
  | over hcl hb => exact (noclose _ (by simp) hcl).elim

/-- C93, sequential files: in any run of any number of threads in which the others at most append to the file, the calls on the
object, in the order in which they were made, read the file from the position `p` on in order, without gap or repetition, across
calls that fail: they got the answers of one thread that reads a file with contents that grow from `D` to `D'`. -/
theorem C93_reader {w : World} {L1 L2 : Int} {n : Nat} (hs : Setting w L1 L2 n) {es0 : List Ev} {c0 : Conf}
    (h0 : Run strerror full (Conf.init w L1 L2 n) es0 c0) {f : SeqFile} {D : Bytes} {p : Nat} (hf : c0.has h (.seq f))
    (hrd : ReadableAt c0.w.k f.fd ino D p) (hg : ∀ x ∈ c0.w.choices, Grows ino f.fd x) {es : List Ev} {c : Conf}
    (hr : CarefulRun strerror full Growth h ino c0 es c) {ops : List SOp} (hw : callsOn h es = ops.map (callOf h))
    (hn : ∀ n, SOp.skip n ∈ ops → n < 2 ^ 63) (hq : c.has h (.seq f)) :
    ∃ as D' n q, answersOn h es = List.zipWith answerOf ops as ∧ Walk D D' p ops as q ∧ D <+: D' ∧
      c.w.k.inodes[ino]? = some n ∧ D' <+: n.data := by
  obtain ⟨as, D', n, n', q, h1, h2, h3, h4, h5, -⟩ := reader Growth.refl Growth.trans (fun _ _ h => h) hs h0 hf hrd
    (fun x hx y => ⟨fun n hn n1 e => by cases e; exact (hg x hx y).2 n hn, (hg x hx y).1⟩) hr hw hn hq
  exact ⟨as, D', n, q, h1, h2, h3, h4, h5⟩

/-- C93: if nobody changes the file, then what is read is what is in it. -/
theorem C93_reader_alone {w : World} {L1 L2 : Int} {n : Nat} (hs : Setting w L1 L2 n) {es0 : List Ev} {c0 : Conf}
    (h0 : Run strerror full (Conf.init w L1 L2 n) es0 c0) {f : SeqFile} {D : Bytes} {p : Nat} (hf : c0.has h (.seq f))
    (hrd : ReadableAt c0.w.k f.fd ino D p) (hg : ∀ x ∈ c0.w.choices, Alone ino f.fd x) {es : List Ev} {c : Conf}
    (hr : CarefulRun strerror full (fun a b => b = a) h ino c0 es c) {ops : List SOp} (hw : callsOn h es = ops.map (callOf h))
    (hn : ∀ n, SOp.skip n ∈ ops → n < 2 ^ 63) (hq : c.has h (.seq f)) :
    ∃ as q, answersOn h es = List.zipWith answerOf ops as ∧ Walk D D p ops as q ∧ Contents c.w.k ino = some D := by
  obtain ⟨as, D', n, n', q, h1, h2, -, h4, -, h6, h7, h8⟩ := reader (R := fun a b => b = a) (fun _ => rfl) (fun _ _ _ h1 h2 => h2.trans h1)
    (fun a b h => h ▸ Growth.refl b) hs h0 hf hrd hg hr hw hn hq
  have := h6 fun _ _ h => h
  subst this
  injection h8 with h8
  subst h8
  exact ⟨as, q, h1, h2, by unfold Contents; rw [h4]; exact congrArg some h7⟩

/-! ## Concrete runs -/

/-- The step is a step of a call on object `h`, or does not change file `ino`. -/
def carefulB (h ino : Nat) (a : Act) (c c' : Conf) : Bool :=
  decide (c'.w.k.inodes[ino]? = c.w.k.inodes[ino]?) ||
  match a with
  | .move t => match c.th[t]? with
    | some (.run (.own h') _) => h' == h
    | _ => false
  | _ => false

/-- Follow a schedule in which nobody but the calls on `h` changes file `ino`. -/
def playCareful (strerror : Strerror) (full : Bool) (fuel h ino : Nat) : List Act → Conf → Option (List Ev × Conf)
  | [], c => some ([], c)
  | a :: as, c =>
    match play strerror full fuel [a] c with
    | some (es, c') =>
      if carefulB h ino a c c' then
        match playCareful strerror full fuel h ino as c' with
        | some (es', c'') => some (es ++ es', c'')
        | none => none
      else none
    | none => none

theorem play_one {fuel : Nat} {a : Act} {c c' : Conf} {es : List Ev} (hp : play strerror full fuel [a] c = some (es, c')) :
    ∃ e, es = Option.toList e ∧ Step strerror full c e c' ∧ ∀ t, a = .move t → c'.th[t]? ≠ c.th[t]? := by
  cases a with
  | call t op =>
    unfold play at hp
    split at hp
    · rename_i ht
      split at hp
      · rename_i ha
        injection hp with hp; injection hp with h2 h3; subst h2 h3
        exact ⟨some (.call t op), rfl, .call c t op fuel ht (allowed_of_B ha), fun _ h => nomatch h⟩
      · exact nomatch hp
    · exact nomatch hp
  | move t =>
    unfold play at hp
    split at hp
    · rename_i home cmd k ht
      split at hp
      · rename_i r sh w he
        injection hp with hp; injection hp with h2 h3; subst h2 h3
        refine ⟨none, rfl, .move c t home cmd k r sh w ht he, fun u hu => ?_⟩
        injection hu with hu
        subst hu
        have hlt : t < c.th.length := (List.getElem?_eq_some_iff.mp ht).1
        rw [ht]
        show (c.th.set t _)[t]? ≠ _
        rw [List.getElem?_set_self hlt]
        intro e
        injection e with e
        injection e with _ e
        exact prog_ne cmd k r rfl e
      · exact nomatch hp
    · exact nomatch hp
  | ret t =>
    unfold play at hp
    split at hp
    · rename_i home x ht
      injection hp with hp; injection hp with h2 h3; subst h2 h3
      exact ⟨some _, rfl, .ret c t home x ht, fun _ h => nomatch h⟩
    · exact nomatch hp

theorem playCareful_run {fuel : Nat} : ∀ (as : List Act) (c c' : Conf) (es : List Ev),
    playCareful strerror full fuel h ino as c = some (es, c') → CarefulRun strerror full (fun a b => b = a) h ino c es c' := by
  intro as
  induction as with
  | nil => intro c c' es hp; injection hp with hp; injection hp with h1 h2; subst h1 h2; exact .nil _
  | cons a as ih =>
    intro c c' es hp
    unfold playCareful at hp
    split at hp
    · rename_i es1 c1 h1
      split at hp
      · rename_i hc
        split at hp
        · rename_i es2 c2 h2
          injection hp with hp; injection hp with h3 h4; subst h3 h4
          obtain ⟨e, rfl, hstep, hmove⟩ := play_one h1
          refine CarefulRun.append (.step (es := []) (.nil c) hstep ?_) (ih _ _ _ h2)
          unfold carefulB at hc
          rw [Bool.or_eq_true, decide_eq_true_eq] at hc
          rcases hc with hc | hc
          · exact .inl hc
          · right
            cases a with
            | move t =>
              dsimp only at hc
              split at hc
              · rename_i h' p ht
                have : h' = h := by simpa using hc
                subst this
                exact ⟨t, p, ht, hmove t rfl⟩
              · exact nomatch hc
            | _ => exact nomatch hc
        · exact nomatch hp
      · exact nomatch hp
    · exact nomatch hp

/-- What is to be seen of two files. -/
structure SeenSolo where
  calls : Nat
  answers : List PRes
  files : List Bytes
  deriving DecidableEq

def seenSolo (h : Nat) (o : Option (List Ev × Conf)) : Option SeenSolo :=
  match o with
  | some (es, c) => some ⟨(callsOn h es).length, answersOn h es, c.w.k.inodes.map (·.data)⟩
  | none => none

/-- Two threads have opened two new files. -/
def openTwo : List Act :=
  [.call 0 (.newWritable (lit "/db/a")), .call 1 (.newWritable (lit "/db/b")), .move 1, .move 0, .ret 0, .ret 1]

/-- Thread 1 appends to its file and flushes it; meanwhile threads 0 and 2 write to the other file and hand it over from one to
the other. -/
def twoWriters : List Act :=
  [.call 1 (.write 1 (.append (Slice.ofBytes [1, 2]))), .call 0 (.write 0 (.append (Slice.ofBytes [7]))), .ret 0, .ret 1,
   .call 0 (.write 0 .flush), .call 1 (.write 1 .flush), .move 1, .move 0, .ret 0, .call 2 (.write 0 (.append (Slice.ofBytes [8, 9]))), .ret 2,
   .ret 1, .call 1 (.write 1 (.append (Slice.ofBytes [3]))), .call 2 (.write 0 .sync), .move 2, .ret 1, .move 2, .ret 2,
   .call 2 (.write 1 .close), .move 2, .move 2, .ret 2]

def soloStart : Option (List Ev × Conf) := play (fun _ => []) false 9 openTwo concStart

example : seenSolo 1 (soloStart.bind fun x => playCareful (fun _ => []) false 9 1 3 twoWriters x.2) =
    some ⟨4, [.status .ok, .status .ok, .status .ok, .status .ok], [[], [], [1, 2, 3], [1, 2, 3], [7, 8, 9]]⟩ := by
  decide +kernel

/-- The moment after the opens. -/
def soloConf : Conf := (soloStart.map (·.2)).getD concStart

theorem solo_start : ∃ es, soloStart = some (es, soloConf) := by
  have h : soloStart.isSome = true := by decide +kernel
  obtain ⟨⟨es, c⟩, hx⟩ := Option.isSome_iff_exists.1 h
  refine ⟨es, ?_⟩
  unfold soloConf
  rw [hx]
  rfl

/-- The object of file "/db/b". -/
def soloFile : WFile := ⟨fun _ => none, 0, 1, false, lit "/db/b", lit "/db"⟩

theorem soloOpened : soloConf.has 1 (.wr soloFile) ∧ Opened (lit "/db/b") soloFile 3 [] soloConf.w := by
  refine ⟨by rfl, by rfl, ⟨⟨3, 0, false, false, true⟩, ⟨false, [], []⟩, by rfl, rfl, rfl, .inr rfl, by rfl, rfl, rfl⟩, ?_⟩
  have : soloConf.w.choices = List.replicate 38 calm := by rfl
  rw [this]
  intro x hx k
  rw [List.eq_of_mem_replicate hx]
  exact ⟨fun _ h => h, rfl⟩

/-- All hypotheses of C93 hold of this run; the theorem says what is in the file. -/
example : ∃ es c, CarefulRun (fun _ => []) false (fun a b => b = a) 1 3 soloConf es c ∧ Contents c.w.k 3 = some [1, 2, 3] := by
  have h0 : Run (fun _ => []) false concStart _ soloConf := play_run _ _ _ _ solo_start.choose_spec
  have hex : ((playCareful (fun _ => []) false 9 1 3 twoWriters soloConf).map fun x => (callsOn 1 x.1, answersOn 1 x.1)) =
      some (([WOp.append (Slice.ofBytes [1, 2]), .flush, .append (Slice.ofBytes [3])] ++ [WOp.close]).map (.write 1),
        [.status .ok, .status .ok, .status .ok, .status .ok]) := by rfl
  cases hp : playCareful (fun _ => []) false 9 1 3 twoWriters soloConf with
  | none => rw [hp] at hex; exact nomatch hex
  | some x =>
    obtain ⟨es, c⟩ := x
    rw [hp] at hex
    injection hex with hex
    injection hex with hcalls hans
    have hr := playCareful_run _ _ _ _ hp
    refine ⟨es, c, hr, ?_⟩
    have := C93_flushed (L1 := 1) (L2 := 1) (n := 3) (w := concStart.w) ⟨rfl, fun x hx => by
        rw [List.eq_of_mem_replicate hx]
        exact fun k => ⟨fun _ => Iff.rfl, fun _ => Iff.rfl⟩, by decide, by decide⟩ h0 soloOpened.1 soloOpened.2 hr hcalls
      (by simp) (.inr (.inr rfl)) (by rw [hans]; rfl) (by rw [hans]; simp)
    rw [this]
    decide

end Conc
end Posix
end Lsmdb
