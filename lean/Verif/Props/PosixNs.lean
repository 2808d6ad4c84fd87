import Verif.Proof.PosixNs
import Verif.Props.PosixRead

/-!
# C71: the POSIX namespace operations
-/

namespace Lsmdb
namespace Posix

open MemEnv (St lit)

variable (strerror : Strerror) (full : Bool)

/-- C71: an operation on names either returns OK and does what the specification says, or returns an error
and changes nothing; if the system does not fail the call, it returns an error only if the specification has no
result.  `c` is what happens at the system call: others act first, then the call is made. -/
theorem C71_names (e : PEnv) (op : NsOp) (hnul : op.NoNul) (w : World) (c : Choice) (cs : List Choice)
    (hc : w.choices = c :: cs) (ht : Tidy (c.other w.k)) :
    ∃ st w', e.step strerror full op.op w = .done (e, .status st) w' ∧ Tidy w'.k ∧
      ((st = .ok ∧ NsSpec op (fsOf (c.other w.k)) (fsOf w'.k)) ∨
       (st ≠ .ok ∧ fsOf w'.k = fsOf (c.other w.k) ∧ (c.fail = none → ∀ m', ¬ NsSpec op (fsOf (c.other w.k)) m'))) := by
  generalize hk : c.other w.k = k at ht
  cases op with
  | removeFile n =>
    simp only [NsOp.op, PEnv.step, RemoveFile, bind_eq, sysUnlink, sys, hc, pure_eq, hk]
    refine ⟨_, _, rfl, ?_⟩
    simp only [NsOp.NoNul] at hnul
    rw [cstr_noNul hnul]
    cases hf : c.fail with
    | some er => exact ⟨ht, .inr ⟨statusOf_error, by trivial, fun h => nomatch h⟩⟩
    | none =>
      simp only []
      cases hl : k.lookup n with
      | none =>
        refine ⟨ht, .inr ⟨statusOf_error, by trivial, fun _ m' hs => ?_⟩⟩
        cases hs with
        | removeFile _ _ d h => rw [(fsOf_none ht).2 hl] at h; exact nomatch h
      | some i =>
        obtain ⟨nd, hn⟩ := ht.node n i hl
        simp only [hn, Option.map_some, Option.getD_some]
        cases hd : nd.dir with
        | true =>
          simp only [if_true]
          refine ⟨ht, .inr ⟨statusOf_error, by trivial, fun _ m' hs => ?_⟩⟩
          cases hs with
          | removeFile _ _ d h => rw [fsOf_some hl hn, hd] at h; exact nomatch h
        | false =>
          simp only [Bool.false_eq_true, if_false]
          refine ⟨ht.setName_none n, .inl ⟨rfl, ?_⟩⟩
          rw [fsOf_setName_none]
          exact .removeFile _ n nd.data (by rw [fsOf_some hl hn, hd]; rfl)
  | createDir n =>
    simp only [NsOp.op, PEnv.step, CreateDir, bind_eq, sysMkdir, sys, hc, pure_eq, hk]
    refine ⟨_, _, rfl, ?_⟩
    simp only [NsOp.NoNul] at hnul
    rw [cstr_noNul hnul]
    cases hf : c.fail with
    | some er => exact ⟨ht, .inr ⟨statusOf_error, by trivial, fun h => nomatch h⟩⟩
    | none =>
      simp only []
      by_cases h0 : n = []
      · rw [if_pos h0]
        refine ⟨ht, .inr ⟨statusOf_error, by trivial, fun _ m' hs => ?_⟩⟩
        cases hs with
        | createDir _ _ h1 _ => exact h1 h0
      · rw [if_neg h0]
        cases hl : k.lookup n with
        | some i =>
          refine ⟨ht, .inr ⟨statusOf_error, by trivial, fun _ m' hs => ?_⟩⟩
          cases hs with
          | createDir _ _ _ h => rw [fsOf_none ht, hl] at h; exact nomatch h
        | none =>
          have hnew : ∀ q i, k.lookup q = some i → i < k.inodes.length := by
            intro q i hq
            obtain ⟨nd, hn⟩ := ht.node q i hq
            rcases Nat.lt_or_ge i k.inodes.length with hlt | hlt
            · exact hlt
            · rw [List.getElem?_eq_none hlt] at hn; exact nomatch hn
          have hlk : ∀ q, Kernel.lookup { k.setName n (some k.inodes.length) with inodes := k.inodes ++ [⟨true, [], []⟩] } q =
              if q = n then some k.inodes.length else k.lookup q := by
            intro q; rw [← lookup_setName]; rfl
          refine ⟨⟨fun q i hq => ?_, fun q r i hq hr => ?_⟩, .inl ⟨rfl, ?_⟩⟩
          · simp only [] at hq ⊢
            have hq := (hlk q).symm.trans hq
            simp only [Kernel.setName]
            split at hq
            · injection hq with hq; subst hq; exact ⟨⟨true, [], []⟩, by simp⟩
            · obtain ⟨nd, hn⟩ := ht.node q i hq
              exact ⟨nd, push_get hn⟩
          · simp only [] at hq hr
            have hq := (hlk q).symm.trans hq
            have hr := (hlk r).symm.trans hr
            split at hq <;> split at hr
            · rename_i h1 h2; rw [h1, h2]
            · injection hq with hq; have := hnew r i hr; omega
            · injection hr with hr; have := hnew q i hq; omega
            · exact ht.one q r i hq hr
          · have hfs : fsOf { k.setName n (some k.inodes.length) with inodes := k.inodes ++ [⟨true, [], []⟩] } =
                (fsOf k).put n (some .dir) := by
              funext q
              unfold FsMap.put
              by_cases hq : q = n
              · rw [if_pos hq, fsOf_some (i := k.inodes.length) (n := ⟨true, [], []⟩) (by rw [hlk, if_pos hq]) (by simp)]
                rfl
              · rw [if_neg hq]
                cases hl' : k.lookup q with
                | none =>
                  rw [(fsOf_none ht).2 hl']
                  unfold fsOf
                  rw [hlk, if_neg hq, hl']
                | some i =>
                  obtain ⟨nd, hn⟩ := ht.node q i hl'
                  rw [fsOf_some hl' hn, fsOf_some (i := i) (n := nd) (by rw [hlk, if_neg hq, hl']) (push_get hn)]
            exact hfs ▸ .createDir _ n h0 ((fsOf_none ht).2 hl)
  | removeDir n =>
    simp only [NsOp.op, PEnv.step, RemoveDir, bind_eq, sysRmdir, sys, hc, pure_eq, hk]
    refine ⟨_, _, rfl, ?_⟩
    simp only [NsOp.NoNul] at hnul
    rw [cstr_noNul hnul]
    cases hf : c.fail with
    | some er => exact ⟨ht, .inr ⟨statusOf_error, by trivial, fun h => nomatch h⟩⟩
    | none =>
      simp only []
      cases hl : k.lookup n with
      | none =>
        refine ⟨ht, .inr ⟨statusOf_error, by trivial, fun _ m' hs => ?_⟩⟩
        cases hs with
        | removeDir _ _ h _ => rw [(fsOf_none ht).2 hl] at h; exact nomatch h
      | some i =>
        obtain ⟨nd, hn⟩ := ht.node n i hl
        simp only [hn, Option.map_some, Option.getD_some]
        cases hd : nd.dir with
        | false =>
          simp only [Bool.false_eq_true, if_false]
          refine ⟨ht, .inr ⟨statusOf_error, by trivial, fun _ m' hs => ?_⟩⟩
          cases hs with
          | removeDir _ _ h _ => rw [fsOf_some hl hn, hd] at h; exact nomatch h
        | true =>
          simp only [if_true]
          by_cases hch : k.names.any (fun e => decide (parentDir e.1 = n)) = true
          · rw [if_pos hch]
            refine ⟨ht, .inr ⟨statusOf_error, by trivial, fun _ m' hs => ?_⟩⟩
            cases hs with
            | removeDir _ _ _ h => exact h ((hasChild_iff ht n).2 hch)
          · rw [if_neg hch]
            refine ⟨ht.setName_none n, .inl ⟨rfl, ?_⟩⟩
            rw [fsOf_setName_none]
            exact .removeDir _ n (by rw [fsOf_some hl hn, hd]; rfl) (fun h => hch ((hasChild_iff ht n).1 h))
  | renameFile a b =>
    simp only [NsOp.op, PEnv.step, RenameFile, bind_eq, sysRename, sys, hc, pure_eq, hk]
    refine ⟨_, _, rfl, ?_⟩
    simp only [NsOp.NoNul] at hnul
    rw [cstr_noNul hnul.1, cstr_noNul hnul.2]
    cases hf : c.fail with
    | some er => exact ⟨ht, .inr ⟨statusOf_error, by trivial, fun h => nomatch h⟩⟩
    | none =>
      simp only []
      cases hl : k.lookup a with
      | none =>
        refine ⟨ht, .inr ⟨statusOf_error, by trivial, fun _ m' hs => ?_⟩⟩
        cases hs with
        | renameSelf _ _ d _ h => rw [(fsOf_none ht).2 hl] at h; exact nomatch h
        | rename _ _ _ d _ _ h _ => rw [(fsOf_none ht).2 hl] at h; exact nomatch h
      | some i =>
        obtain ⟨nd, hn⟩ := ht.node a i hl
        simp only [hn, Option.map_some, Option.getD_some]
        by_cases h0 : b = []
        · rw [if_pos h0]
          refine ⟨ht, .inr ⟨statusOf_error, by trivial, fun _ m' hs => ?_⟩⟩
          cases hs with
          | renameSelf _ _ d h _ => exact h h0
          | rename _ _ _ d h _ _ _ => exact h h0
        · rw [if_neg h0]
          cases hd : nd.dir with
          | true =>
            simp only [if_true]
            refine ⟨ht, .inr ⟨statusOf_error, by trivial, fun _ m' hs => ?_⟩⟩
            cases hs with
            | renameSelf _ _ d _ h => rw [fsOf_some hl hn, hd] at h; exact nomatch h
            | rename _ _ _ d _ _ h _ => rw [fsOf_some hl hn, hd] at h; exact nomatch h
          | false =>
            simp only [Bool.false_eq_true, if_false]
            have hfa : fsOf k a = some (.file nd.data) := by rw [fsOf_some hl hn, hd]; rfl
            cases hb : k.lookup b with
            | none =>
              have hab : a ≠ b := by rintro rfl; rw [hl] at hb; exact nomatch hb
              refine ⟨ht.move a b i hl, .inl ⟨rfl, ?_⟩⟩
              rw [fsOf_move a b hab i hl]
              exact .rename _ a b nd.data h0 hab hfa (by rw [(fsOf_none ht).2 hb]; exact fun h => nomatch h)
            | some j =>
              simp only []
              by_cases hij : i = j
              · rw [if_pos hij]
                have : a = b := ht.one a b i hl (hij ▸ hb)
                subst this
                exact ⟨ht, .inl ⟨rfl, .renameSelf _ a nd.data h0 hfa⟩⟩
              · rw [if_neg hij]
                have hab : a ≠ b := by rintro rfl; rw [hl] at hb; injection hb with hb; exact hij hb
                obtain ⟨nb, hnb⟩ := ht.node b j hb
                simp only [hnb, Option.map_some, Option.getD_some]
                cases hdb : nb.dir with
                | true =>
                  simp only [if_true]
                  refine ⟨ht, .inr ⟨statusOf_error, by trivial, fun _ m' hs => ?_⟩⟩
                  cases hs with
                  | renameSelf _ _ d _ h => exact hab rfl
                  | rename _ _ _ d _ _ _ h => rw [fsOf_some hb hnb, hdb] at h; exact h rfl
                | false =>
                  simp only [Bool.false_eq_true, if_false]
                  refine ⟨ht.move a b i hl, .inl ⟨rfl, ?_⟩⟩
                  rw [fsOf_move a b hab i hl]
                  exact .rename _ a b nd.data h0 hab hfa (by rw [fsOf_some hb hnb, hdb]; exact fun h => nomatch h)

/-- C71: FileExists says whether there is something under the name; if the system call fails for another reason
it says no. -/
theorem C71_exists (e : PEnv) (n : Bytes) (hnul : 0 ∉ n) (w : World) (c : Choice) (cs : List Choice)
    (hc : w.choices = c :: cs) (ht : Tidy (c.other w.k)) :
    ∃ b w', e.step strerror full (.fileExists n) w = .done (e, .bool b) w' ∧ w'.k = c.other w.k ∧
      (b = true → fsOf (c.other w.k) n ≠ none) ∧ (c.fail = none → (b = true ↔ fsOf (c.other w.k) n ≠ none)) := by
  simp only [PEnv.step, FileExists, bind_eq, sysAccess, sys, hc]
  rw [cstr_noNul hnul, ne_eq, fsOf_none ht]
  cases hf : c.fail with
  | some er => exact ⟨false, _, rfl, rfl, by simp, fun h => nomatch h⟩
  | none =>
    simp only []
    cases hl : (c.other w.k).lookup n with
    | none => exact ⟨false, _, rfl, rfl, by simp, by simp⟩
    | some i => exact ⟨true, _, rfl, rfl, by simp, by simp⟩

/-- C71: GetFileSize gives the size of the file under the name, or an error and size 0. -/
theorem C71_size (e : PEnv) (n : Bytes) (hnul : 0 ∉ n) (w : World) (c : Choice) (cs : List Choice)
    (hc : w.choices = c :: cs) (ht : Tidy (c.other w.k)) :
    ∃ st v w', e.step strerror full (.getFileSize n) w = .done (e, .size st v) w' ∧ w'.k = c.other w.k ∧
      (st = .ok → ∀ d, fsOf (c.other w.k) n = some (.file d) → v = d.length) ∧ (st = .ok → fsOf (c.other w.k) n ≠ none) ∧
      (st ≠ .ok → v = 0) ∧ (c.fail = none → fsOf (c.other w.k) n ≠ none → st = .ok) := by
  simp only [PEnv.step, GetFileSize, bind_eq, sysStat, sys, hc]
  rw [cstr_noNul hnul, ne_eq, fsOf_none ht]
  cases hf : c.fail with
  | some er =>
    exact ⟨_, _, _, rfl, rfl, fun h => absurd h (PosixError_ne_ok _ _ _), fun h => absurd h (PosixError_ne_ok _ _ _),
      fun _ => rfl, fun h => nomatch h⟩
  | none =>
    simp only []
    cases hl : (c.other w.k).lookup n with
    | none =>
      exact ⟨_, _, _, rfl, rfl, fun h => absurd h (PosixError_ne_ok strerror n ENOENT),
        fun h => absurd h (PosixError_ne_ok strerror n ENOENT), fun _ => rfl, fun _ h => absurd rfl h⟩
    | some i =>
      refine ⟨_, _, _, rfl, rfl, fun _ d hd => ?_, fun _ => by simp, fun h => absurd rfl h, fun _ _ => rfl⟩
      obtain ⟨nd, hn⟩ := ht.node n i hl
      rw [fsOf_some hl hn] at hd
      split at hd
      · exact nomatch hd
      · injection hd with hd; injection hd with hd; subst hd
        simp [Kernel.data, hn]

theorem readdirLoop_all : ∀ (fuel : Nat) (rest acc : List Bytes) (w w' : World) (l : List Bytes),
    readdirLoop fuel rest acc w = .done l w' → ∃ pre, pre <+: rest ∧ l = acc ++ pre ∧
      w'.choices <:+ w.choices ∧ ((∀ c ∈ w.choices, c.fail = none) → pre = rest) := by
  intro fuel
  induction fuel with
  | zero => intro rest acc w w' l h; exact nomatch h
  | succ fuel ih =>
    intro rest acc w w' l h
    unfold readdirLoop at h
    rw [bind_eq] at h
    unfold sysReaddir sys at h
    cases hc : w.choices with
    | nil => rw [hc] at h; exact nomatch h
    | cons c cs =>
      rw [hc] at h
      simp only [] at h
      cases hf : c.fail with
      | some er =>
        simp only [hf, pure_eq] at h
        injection h with h1 h2
        subst h1 h2
        exact ⟨[], List.nil_prefix, by simp, List.suffix_cons _ _, fun ha => by
          have := ha c List.mem_cons_self; rw [hf] at this; exact nomatch this⟩
      | none =>
        simp only [hf] at h
        cases rest with
        | nil =>
          simp only [List.head?_nil, pure_eq] at h
          injection h with h1 h2
          subst h1 h2
          exact ⟨[], List.nil_prefix, by simp, List.suffix_cons _ _, fun _ => rfl⟩
        | cons x r =>
          simp only [List.head?_cons, List.tail_cons] at h
          obtain ⟨pre, h1, h2, h3, h4⟩ := ih r (acc ++ [x]) _ w' l h
          refine ⟨x :: pre, ?_, by rw [h2]; simp, h3.trans (List.suffix_cons _ _), fun ha => ?_⟩
          · obtain ⟨t, ht⟩ := h1; exact ⟨t, by rw [← ht]; rfl⟩
          · rw [h4 (fun c hc => ha c (List.mem_cons_of_mem _ hc))]

/-- C71: GetChildren that returns OK lists only names of things in the directory (besides `.` and `..`), and all
of them if `readdir` does not fail. -/
theorem C71_children_partial (e e' : PEnv) (d : Bytes) (hnul : 0 ∉ d) (w w' : World) (l : List Bytes) (c : Choice) (cs : List Choice)
    (hc : w.choices = c :: cs) (ht : Tidy (c.other w.k))
    (h : e.step strerror full (.getChildren d) w = .done (e', .list .ok l) w') :
    fsOf (c.other w.k) d = some .dir ∧
    (∀ x ∈ l, x = lit "." ∨ x = lit ".." ∨ ∃ p, fsOf (c.other w.k) p ≠ none ∧ parentDir p = d ∧ baseOf p = x) ∧
    ((∀ c ∈ w.choices, c.fail = none) →
      ∀ p, fsOf (c.other w.k) p ≠ none → parentDir p = d → baseOf p ∈ l) := by
  simp only [PEnv.step, GetChildren, bind_eq, sysOpendir, sys, hc] at h
  rw [cstr_noNul hnul] at h
  generalize c.other w.k = k at *
  have hmem : ∀ x, x ∈ dirEntries k d ↔ x = lit "." ∨ x = lit ".." ∨ ∃ p, fsOf k p ≠ none ∧ parentDir p = d ∧ baseOf p = x := by
    intro x
    unfold dirEntries
    simp only [List.mem_cons, List.mem_map, List.mem_filter, decide_eq_true_eq]
    have e1 : lit "." = [46] := by decide +kernel
    have e2 : lit ".." = [46, 46] := by decide +kernel
    rw [e1, e2]
    refine or_congr Iff.rfl (or_congr Iff.rfl ⟨?_, ?_⟩)
    · rintro ⟨⟨p, v⟩, ⟨h1, h2⟩, h3⟩
      exact ⟨p, by rw [ne_eq, fsOf_none ht]; exact (aFind_mem k.names p).2 ⟨v, h1⟩, h2, h3⟩
    · rintro ⟨p, h1, h2, h3⟩
      rw [ne_eq, fsOf_none ht] at h1
      obtain ⟨v, hv⟩ := (aFind_mem k.names p).1 h1
      exact ⟨(p, v), ⟨hv, h2⟩, h3⟩
  cases hf : c.fail with
  | some er =>
    simp only [hf, pure_eq] at h
    injection h with h1 _
    injection h1 with _ h1
    injection h1 with h1
    exact absurd h1 (PosixError_ne_ok _ _ _)
  | none =>
    simp only [hf] at h
    cases hl : k.lookup d with
    | none =>
      simp only [hl, pure_eq] at h
      injection h with h1 _
      injection h1 with _ h1
      injection h1 with h1
      exact absurd h1 (PosixError_ne_ok _ _ _)
    | some i =>
      obtain ⟨nd, hn⟩ := ht.node d i hl
      simp only [hl, hn, Option.map_some, Option.getD_some] at h
      cases hd : nd.dir with
      | false =>
        simp only [hd, Bool.false_eq_true, if_false, pure_eq] at h
        injection h with h1 _
        injection h1 with _ h1
        injection h1 with h1
        exact absurd h1 (PosixError_ne_ok _ _ _)
      | true =>
        simp only [hd, if_true] at h
        cases hk : (kopen .rdonly d k).1 with
        | error er =>
          simp only [hk, pure_eq] at h
          injection h with h1 _
          injection h1 with _ h1
          injection h1 with h1
          exact absurd h1 (PosixError_ne_ok _ _ _)
        | ok fd =>
          simp only [hk] at h
          rw [bind_eq] at h
          generalize hrd : readdirAll _ _ = o at h
          cases o with
          | crash w1 => exact nomatch h
          | fault f => exact nomatch h
          | done l1 w1 =>
            obtain ⟨pre, g1, g2, g3, g4⟩ := readdirLoop_all _ _ _ _ _ _ hrd
            have hl1 : l1 = l := by
              simp only [bind_eq, pure_eq] at h
              cases hcl : sysClose fd w1 with
              | crash w2 => rw [hcl] at h; exact nomatch h
              | fault f => rw [hcl] at h; exact nomatch h
              | done x w2 =>
                rw [hcl] at h
                simp only [] at h
                injection h with h1 _
                injection h1 with _ h1
                injection h1
            simp only [List.nil_append] at g2
            subst g2 hl1
            refine ⟨by rw [fsOf_some hl hn, hd]; rfl, fun x hx => (hmem x).1 (g1.subset hx), fun ha p h1 h2 => ?_⟩
            rw [g4 (fun c' hc' => ha c' (by rw [hc]; exact List.mem_cons_of_mem _ hc')), hmem]
            exact .inr (.inr ⟨p, h1, h2, rfl⟩)

/-- C71, false in general: when `readdir` fails, GetChildren returns OK with an incomplete list. -/
theorem C71_truncated_listing :
    (results ((PEnv.init 1 1).run (fun _ => []) false [.getChildren (lit "/db"), .getChildren (lit "/db")]
      ⟨twoFiles, [calm, calm, calm, calm, calm, calm, calm, calm, calm, calm, { fail := some EIO }, calm], []⟩)).map (·.2) =
    some [.list .ok [lit ".", lit "..", lit "t", lit "u"], .list .ok [lit ".", lit ".."]] := by
  decide +kernel

example : (results ((PEnv.init 1 1).run (fun _ => []) false
      [.renameFile (lit "/db/t") (lit "/db/t"), .renameFile (lit "/db/t") (lit "/db/u"), .fileExists (lit "/db/t"),
       .getFileSize (lit "/db/u"), .removeDir (lit "/db"), .removeFile (lit "/db/u"), .removeDir (lit "/db"),
       .createDir (lit "/db"), .createDir (lit "/db")] ⟨twoFiles, List.replicate 9 calm, []⟩)).map (·.2) =
    some [.status .ok, .status .ok, .bool false, .size .ok 3, .status (.err .ioError (lit "/db") []), .status .ok, .status .ok,
      .status .ok, .status (.err .ioError (lit "/db") [])] := by
  decide +kernel

example : Tidy twoFiles := by
  have hcases : ∀ p i, twoFiles.lookup p = some i → (p = lit "/db" ∧ i = 1) ∨ (p = lit "/db/t" ∧ i = 2) ∨ (p = lit "/db/u" ∧ i = 3) := by
    intro p i h
    simp only [twoFiles, Kernel.lookup, aFind] at h
    split at h
    · rename_i h1; injection h with h; exact .inl ⟨h1.symm, h.symm⟩
    · split at h
      · rename_i h1; injection h with h; exact .inr (.inl ⟨h1.symm, h.symm⟩)
      · split at h
        · rename_i h1; injection h with h; exact .inr (.inr ⟨h1.symm, h.symm⟩)
        · exact nomatch h
  refine ⟨fun p i h => ?_, fun p q i h h' => ?_⟩
  · rcases hcases p i h with ⟨_, rfl⟩ | ⟨_, rfl⟩ | ⟨_, rfl⟩ <;> exact ⟨_, rfl⟩
  · rcases hcases p i h with ⟨rfl, rfl⟩ | ⟨rfl, rfl⟩ | ⟨rfl, rfl⟩ <;>
      rcases hcases q _ h' with ⟨rfl, h2⟩ | ⟨rfl, h2⟩ | ⟨rfl, h2⟩ <;> first | rfl | omega

end Posix
end Lsmdb
