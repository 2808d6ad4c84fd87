import Verif.Proof.PosixFinal1

/-! An object stays what it was opened as; calls that leave names alone. -/

namespace Lsmdb
namespace Posix

open MemEnv (St lit)

namespace Conc

variable {Q : Bytes → Prop} {strerror : Strerror} {full : Bool} {c c' : Conf} {h : Nat}

/-- The directory that a writable file syncs, if it does. -/
def labelOf : Obj → Option (Bytes × Bool)
  | .wr f => some (f.dirname, f.is_manifest)
  | _ => none

/-- The object that the call gives back. -/
def EndsAs (l : Option (Bytes × Bool)) : Fin → Prop
  | .back (some o) _ => labelOf o = l
  | _ => True

theorem true_lax : Lax (fun _ => True) :=
  ⟨fun _ => trivial, fun _ _ => trivial, fun _ _ _ => trivial, fun _ _ => trivial, fun _ _ => trivial, fun _ => trivial, fun _ => trivial,
    fun _ => trivial, fun _ _ => trivial, fun _ => trivial, fun _ => trivial, fun _ _ => trivial, fun _ => trivial, fun _ => trivial,
    fun _ => trivial, fun _ => trivial⟩

theorem ends_body {op : POp} {fuel : Nat} (hop : handle op = some h) {o : Option Obj} {l : Option (Bytes × Bool)} (ho : ∀ x, o = some x → labelOf x = l) :
    Only (fun _ => True) (EndsAs l) (body strerror full fuel op o) := by
  cases o with
  | none => cases op <;> first | trivial | exact nomatch hop
  | some o =>
    have ho := ho o rfl
    cases op with
    | unlockFile h =>
      cases o with
      | lock fd n =>
        refine only_then trivial fun r => ?_
        match r with
        | .error e => exact ho
        | .ok _ => exact only_then trivial fun _ => only_then trivial fun _ => trivial
      | _ => trivial
    | seqRead h n =>
      cases o with
      | seq f => exact only_bind (only_seqReadLoop true_lax strerror fuel f n n) fun _ _ => ho
      | _ => trivial
    | seqSkip h n =>
      cases o with
      | seq f => exact only_bind (only_seqSkip true_lax strerror f n) fun _ _ => ho
      | _ => trivial
    | randRead h a n =>
      cases o with
      | rand f => exact only_bind (only_randRead true_lax strerror f a n n fun _ => trivial) fun _ _ => trivial
      | mmap f => trivial
      | _ => trivial
    | write h x =>
      cases o with
      | wr f =>
        refine only_bind (only_wstep true_lax strerror full fuel f trivial x) fun y hy => ?_
        have hy : (y.2.dirname, y.2.is_manifest) = _ := hy
        show some (y.2.dirname, y.2.is_manifest) = l
        rw [hy]
        exact ho
      | _ => trivial
    | delete h => exact only_bind (only_destroy true_lax strerror fuel o) fun _ _ => trivial
    | _ => exact nomatch hop

/-- The object, wherever it is. -/
structure Labelled (h : Nat) (l : Option (Bytes × Bool)) (c : Conf) : Prop where
  obj : ∀ o, c.objs[h]? = some (some o) → labelOf o = l
  prog : ∀ (t : Nat) p, c.th[t]? = some (.run (.own h) p) → Only (fun _ => True) (EndsAs l) p
  len : h < c.objs.length

theorem Labelled.step {l : Option (Bytes × Bool)} {e : Option Ev} (hL : Labelled h l c) (hs : Step strerror full c e c') : Labelled h l c' := by
  cases hs with
  | call t op fuel ht ha =>
    refine ⟨fun o ho => ?_, fun u p hu => ?_, ?_⟩
    · unfold Conf.begin at ho
      simp only at ho
      split at ho
      · rcases get_set ho with ⟨-, ho⟩ | ⟨-, e⟩
        · exact hL.obj o ho
        · exact nomatch e
      · exact hL.obj o ho
    · rcases get_set hu with ⟨_, hu⟩ | ⟨_, e⟩
      · exact hL.prog u p hu
      · injection e with e1 e2
        subst e2
        have hh : handle op = some h := by
          unfold homeOf at e1
          cases hh : handle op with
          | none => rw [hh] at e1; exact nomatch e1
          | some h' =>
            rw [hh] at e1
            dsimp only at e1
            split at e1
            · exact nomatch e1
            · injection e1 with e1
              rw [e1]
        refine ends_body hh fun x hx => hL.obj x ?_
        unfold Conf.objOf at hx
        rw [hh] at hx
        simp only [Option.bind_some] at hx
        cases hg : c.objs[h]? with
        | none => rw [hg] at hx; exact nomatch hx
        | some y => rw [hg] at hx; rw [show y = some x from hx]
    · unfold Conf.begin
      simp only
      split
      · rw [List.length_set]; exact hL.len
      · exact hL.len
  | move t home cmd k r sh w ht hx =>
    refine ⟨hL.obj, fun u p hu => ?_, hL.len⟩
    rcases get_set hu with ⟨_, hu⟩ | ⟨_, e⟩
    · exact hL.prog u p hu
    · injection e with e1 e2
      subst e1 e2
      exact (hL.prog t _ ht).2 r
  | ret t home a ht =>
    refine ⟨fun o ho => ?_, fun u p hu => ?_, ?_⟩
    · unfold Conf.finish at ho
      cases a with
      | new o' =>
        simp only at ho
        rw [List.getElem?_append_left hL.len] at ho
        exact hL.obj o ho
      | back o' r =>
        simp only at ho
        split at ho
        · rcases get_set ho with ⟨-, ho⟩ | ⟨e, e'⟩
          · exact hL.obj o ho
          · subst e e'
            exact hL.prog t _ ht
        · exact hL.obj o ho
    · rw [finish_th] at hu
      rcases get_set hu with ⟨_, hu⟩ | ⟨_, e⟩
      · exact hL.prog u p hu
      · exact nomatch e
    · unfold Conf.finish
      cases a with
      | new o' => simp only [List.length_append]; exact Nat.lt_of_lt_of_le hL.len (Nat.le_add_right _ _)
      | back o' r =>
        simp only
        split
        · rw [List.length_set]; exact hL.len
        · exact hL.len

theorem Labelled.all {l : Option (Bytes × Bool)} {es : List Ev} (hr : Run strerror full c es c') (hL : Labelled h l c) : Labelled h l c' := by
  induction hr with
  | nil => exact hL
  | step hr hs ih => exact ih.step hs

/-! ## Names that are left alone -/

theorem leaves_lax : Lax (Cmd.leavesNames Q) :=
  ⟨fun _ => trivial, fun _ _ => trivial, fun _ _ _ => trivial, fun _ _ => trivial, fun _ _ => trivial, fun _ => trivial, fun _ => trivial,
    fun _ => trivial, fun _ _ => trivial, fun _ => trivial, fun _ => trivial, fun _ _ => trivial, fun _ => trivial, fun _ => trivial,
    fun _ => trivial, fun _ => trivial⟩

theorem leaves_fine (o : Obj) : Fine (Cmd.leavesNames Q) o := by
  cases o with
  | rand f => exact fun _ => .inl rfl
  | wr f => exact .inl rfl
  | _ => trivial

theorem leaves_naming {op : POp} (h : ∀ n ∈ changing op, ¬ Q (cstr n)) : Naming (Cmd.leavesNames Q) op := by
  cases op with
  | newSequential n => exact .inl rfl
  | newRandomAccess n => exact .inl rfl
  | newWritable n => exact ⟨.inr (h n (by simp [changing])), fun _ _ => .inl rfl⟩
  | newAppendable n => exact ⟨.inr (h n (by simp [changing])), fun _ _ => .inl rfl⟩
  | newLogger n => exact .inr (h n (by simp [changing]))
  | removeFile n => exact h n (by simp [changing])
  | createDir n => exact h n (by simp [changing])
  | removeDir n => exact h n (by simp [changing])
  | renameFile a b => exact ⟨h a (by simp [changing]), h b (by simp [changing])⟩
  | lockFile n => exact .inr (h n (by simp [changing]))
  | _ => trivial

/-- Nobody will change what the names mean; `d` is a directory. -/
structure Rest (Q : Bytes → Prop) (v : Bytes → Option Nat) (d : Bytes) (di : Nat) (c : Conf) : Prop where
  has : Q d
  names : ∀ p, Q p → c.w.k.lookup p = v p
  dir : v d = some di ∧ ∃ n, c.w.k.inodes[di]? = some n ∧ n.dir = true
  progs : ∀ (t : Nat) home p, c.th[t]? = some (.run home p) → Only (Cmd.leavesNames Q) (FineEnd (Cmd.leavesNames Q)) p
  others : ∀ x ∈ c.w.choices, LeavesNames Q x

variable {v : Bytes → Option Nat} {d : Bytes} {di : Nat}

theorem Rest.step {e : Option Ev} (hR : Rest Q v d di c) (hs : Step strerror full c e c')
    (he : ∀ t op, e = some (.call t op) → ∀ n ∈ changing op, ¬ Q (cstr n)) : Rest Q v d di c' := by
  cases hs with
  | call t op fuel ht ha =>
    refine ⟨hR.has, hR.names, hR.dir, fun u home p hu => ?_, hR.others⟩
    rcases get_set hu with ⟨_, hu⟩ | ⟨_, e⟩
    · exact hR.progs u home p hu
    · cases e
      exact only_body leaves_lax strerror full fuel (leaves_naming (he t op rfl)) fun x _ => leaves_fine x
  | move t home cmd k r sh w ht hx =>
    have hP := hR.progs t home _ ht
    have hk := exec_touch hx hP.1
    refine ⟨hR.has, fun p hp => ?_, ⟨hR.dir.1, ?_⟩, fun u home' p hu => ?_, fun x hm => hR.others x (exec_choices hx x hm)⟩
    · rcases hk with hk | ⟨x, hm, hT⟩
      · show w.k.lookup p = _
        rw [hk]
        exact hR.names p hp
      · exact (hT.names p hp).trans (((hR.others x hm).names _ p hp).trans (hR.names p hp))
    · obtain ⟨-, n, h1, h2⟩ := hR.dir
      rcases hk with hk | ⟨x, hm, hT⟩
      · exact ⟨n, by show w.k.inodes[di]? = _; rw [hk]; exact h1, h2⟩
      · obtain ⟨n1, g1, g2⟩ := (hR.others x hm).dirs _ _ n h1 h2
        exact hT.dirs _ _ g1 g2
    · rcases get_set hu with ⟨_, hu⟩ | ⟨_, e⟩
      · exact hR.progs u home' p hu
      · cases e; exact hP.2 r
  | ret t home a ht =>
    refine ⟨hR.has, by rw [finish_w]; exact hR.names, by rw [finish_w]; exact hR.dir, fun u home' p hu => ?_, by rw [finish_w]; exact hR.others⟩
    rw [finish_th] at hu
    rcases get_set hu with ⟨_, hu⟩ | ⟨_, e⟩
    · exact hR.progs u home' p hu
    · exact nomatch e

theorem Rest.all {es : List Ev} (hr : Run strerror full c es c') (he : ∀ t op, Ev.call t op ∈ es → ∀ n ∈ changing op, ¬ Q (cstr n))
    (hR : Rest Q v d di c) : Rest Q v d di c' := by
  induction hr with
  | nil => exact hR
  | step hr hs ih =>
    exact (ih fun t op hm => he t op (List.mem_append_left _ hm)).step hs
      fun t op e => he t op (List.mem_append_right _ (by rw [e]; exact List.mem_singleton_self _))

end Conc
end Posix
end Lsmdb
