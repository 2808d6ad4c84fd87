import Verif.Spec.CacheConc
import Verif.Proof.Cache9

/-!
# The atomic cache: what the rules for clients imply
-/

namespace Lsmdb
namespace CacheConc
open Cache Spec

abbrev TState := Option (Call × List Effect)

/-- The sum of a weight over all threads. -/
def Total (now : Tid → TState) (W : TState → Nat) (n : Nat) : Prop :=
  ∃ L : List Tid, L.Nodup ∧ (∀ t, t ∉ L → W (now t) = 0) ∧ (L.map fun t => W (now t)).sum = n

theorem Total.upd {now : Tid → TState} {W : TState → Nat} {n : Nat} (h : Total now W n) (t : Tid) (x : TState) :
    W (now t) ≤ n ∧ Total (fun u => if u = t then x else now u) W (n - W (now t) + W x) := by
  obtain ⟨L, hn, h0, hs⟩ := h
  have key : ∃ L', t ∉ L' ∧ L'.Nodup ∧ (∀ u, u ∉ t :: L' → W (now u) = 0) ∧
      W (now t) + (L'.map fun t => W (now t)).sum = n := by
    by_cases ht : t ∈ L
    · refine ⟨L.erase t, ?_, hn.erase t, ?_, ?_⟩
      · rw [hn.mem_erase_iff]; simp
      · intro u hu
        refine h0 u (fun hm => hu ?_)
        by_cases e : u = t
        · simp [e]
        · exact List.mem_cons_of_mem _ ((List.mem_erase_of_ne e).mpr hm)
      · have hp := (List.perm_cons_erase ht).map (fun t => W (now t))
        rw [← hs, hp.sum_nat]; simp
    · refine ⟨L, ht, hn, fun u hu => h0 u (fun hm => hu (List.mem_cons_of_mem _ hm)), ?_⟩
      rw [h0 t ht, hs]; omega
  obtain ⟨L', ht, hn', h0', hs'⟩ := key
  refine ⟨by omega, t :: L', List.nodup_cons.mpr ⟨ht, hn'⟩, ?_, ?_⟩
  · intro u hu
    have : u ≠ t := fun e => hu (by simp [e])
    simp only [this, if_false]
    exact h0' u hu
  · rw [List.map_cons, List.sum_cons]
    have : (L'.map fun u => W (if u = t then x else now u)) = L'.map fun u => W (now u) := by
      refine List.map_congr_left (fun u hu => ?_)
      have : u ≠ t := fun e => ht (e ▸ hu)
      simp [this]
    rw [this]
    simp only [if_true]
    omega

/-- A call has returned nothing yet but holds this handle. -/
def wGot (h : Handle) : TState → Nat
  | some (.insert _ _ _ _, [.op ⟨_, x⟩]) => if x = some h then 1 else 0
  | some (.lookup _, [.op ⟨_, x⟩]) => if x = some h then 1 else 0
  | _ => 0

/-- A Release of this handle has not had its effect. -/
def wRel (h : Handle) : TState → Nat
  | some (.release x, []) => if x = h then 1 else 0
  | _ => 0

/-- A call has not had an effect. -/
def wNew : TState → Nat
  | some (_, []) => 1
  | _ => 0

/-- The number of Inserts and Lookups. -/
def nops : CTrace → Nat
  | [] => 0
  | ⟨.insert _ _ _ _, _⟩ :: tr => nops tr + 1
  | ⟨.lookup _, _⟩ :: tr => nops tr + 1
  | _ :: tr => nops tr

theorem obtained_nops (tr : CTrace) (h : Handle) : obtained tr h ≤ nops tr := by
  induction tr with
  | nil => exact Nat.le_refl _
  | cons e tr ih =>
    obtain ⟨o, r⟩ := e
    cases o <;> simp only [obtained, nops] <;> first | exact ih | (split <;> omega)

theorem insertKeys_nops (tr : CTrace) : (insertKeys tr).length ≤ nops tr := by
  induction tr with
  | nil => exact Nat.le_refl _
  | cons e tr ih =>
    obtain ⟨o, r⟩ := e
    cases o <;> simp only [insertKeys, nops, List.length_cons] <;> omega

/-- The Slices of the call point at readable memory. -/
def CallWF (c : Call) : Prop := ∀ k, keyOfCall c = some k → k.WF

theorem Complete.exists (c : Call) : ∃ es r, Complete c es r := by
  cases c with
  | insert k v ch d => exact ⟨_, _, ⟨0, 0⟩, rfl, rfl⟩
  | lookup k => exact ⟨_, _, none, rfl, rfl⟩
  | release h => exact ⟨_, _, rfl, rfl⟩
  | erase k => exact ⟨_, _, rfl, rfl⟩
  | value h => exact ⟨_, _, 0, rfl, rfl⟩
  | newId => exact ⟨_, _, 0, rfl, rfl⟩
  | prune => exact ⟨_, _, rfl, rfl⟩
  | totalCharge => exact ⟨_, _, fun _ => 0, rfl, rfl⟩

/-- What holds of the atomic cache while the clients follow the rules. -/
structure Inv (hf : Slice → M UInt32) (capacity : UInt64) (a : Atom) (H : Hist) : Prop where
  reach : Reach hf capacity a.cache a.tr
  pend : ∀ t, pending H t = (a.now t).map (·.1)
  wf : ∀ t c es, a.now t = some (c, es) → CallWF c ∧ ∃ es' r, Complete c (es ++ es') r
  got : ∀ h, ∃ n, Total a.now (wGot h) n ∧ obtained a.tr h = got H h + n
  rel : ∀ h, ∃ n, Total a.now (wRel h) n ∧ begun H h = released a.tr h + n
  len : ∃ n, Total a.now wNew n ∧ nops a.tr + n ≤ H.length
  bal : ∀ h, begun H h ≤ CacheConc.got H h
  val : ∀ t h es, a.now t = some (.value h, es) → begun H h < CacheConc.got H h

variable {hf : Slice → M UInt32} {capacity : UInt64} {a : Atom} {H : Hist}

theorem Inv.init {c : Sharded} (h : newSharded capacity = .ok c) : Inv hf capacity ⟨c, [], 0, fun _ => none⟩ [] := by
  have T : ∀ W : TState → Nat, W none = 0 → Total (fun _ => none) W 0 := fun W h => ⟨[], by simp, fun _ _ => h, rfl⟩
  exact ⟨Reach.init h, fun _ => rfl, by (intro _ _ _ h; cases h), fun h => ⟨0, T _ rfl, rfl⟩, fun h => ⟨0, T _ rfl, rfl⟩,
    ⟨0, T _ rfl, Nat.le_refl _⟩, fun _ => Nat.le_refl _, by (intro _ _ _ h; cases h)⟩

theorem pending_cons_call (H : Hist) (u : Tid) (c : Call) (t : Tid) :
    pending (.call u c :: H) t = if u = t then some c else pending H t := rfl

theorem Inv.call (i : Inv hf capacity a H) {t : Tid} {c : Call} (h : a.now t = none) (p : Permitted H c) :
    Inv hf capacity (a.at t (some (c, []))) (.call t c :: H) where
  reach := i.reach
  pend := by
    intro u
    rw [pending_cons_call]
    by_cases e : u = t
    · simp [Atom.at, e]
    · have e' : ¬ t = u := fun h => e h.symm
      simp [Atom.at, e, e', i.pend u]
  wf := by
    intro u c' es hu
    by_cases e : u = t
    · simp only [Atom.at, e, if_true] at hu
      cases hu
      refine ⟨?_, ?_⟩
      · intro k hk
        cases c <;> simp only [keyOfCall, Option.some.injEq, reduceCtorEq] at hk
        all_goals (subst hk; exact p)
      · obtain ⟨es, r, h⟩ := Complete.exists c
        exact ⟨es, r, h⟩
    · simp only [Atom.at, e, if_false] at hu
      exact i.wf u c' es hu
  got := by
    intro x
    obtain ⟨n, T, e⟩ := i.got x
    refine ⟨_, (T.upd t (some (c, []))).2, ?_⟩
    rw [h]
    show obtained a.tr x = _
    rw [e]
    cases c <;> simp only [CacheConc.got, wGot] <;> omega
  rel := by
    intro x
    obtain ⟨n, T, e⟩ := i.rel x
    refine ⟨_, (T.upd t (some (c, []))).2, ?_⟩
    rw [h]
    show begun _ x = released a.tr x + _
    cases c <;> simp only [begun, wRel] <;> first | omega | skip
  len := by
    obtain ⟨n, T, e⟩ := i.len
    refine ⟨_, (T.upd t (some (c, []))).2, ?_⟩
    rw [h]
    show nops a.tr + _ ≤ _
    simp only [wNew, List.length_cons]
    omega
  bal := by
    intro x
    have := i.bal x
    cases c with
    | release y =>
      simp only [begun, CacheConc.got]
      split
      · rename_i e; subst e; exact p.1
      · exact this
    | _ => exact this
  val := by
    intro u x es hu
    by_cases e : u = t
    · simp only [Atom.at, e, if_true] at hu
      cases hu
      exact p
    · simp only [Atom.at, e, if_false] at hu
      have hv := i.val u x es hu
      cases c with
      | release y =>
        simp only [begun, CacheConc.got]
        split
        · rename_i e2
          subst e2
          exact p.2 u (by rw [i.pend, hu]; rfl)
        · exact hv
      | _ => exact hv

/-- The possible effects of a call. -/
inductive NextIs : Call → List Effect → Effect → Prop
  | insert (k : Slice) (v : Nat) (ch : UInt64) (d : Nat) (h : Handle) :
      NextIs (.insert k v ch d) [] (.op ⟨.insert k v ch d, some h⟩)
  | lookup (k : Slice) (x : Option Handle) : NextIs (.lookup k) [] (.op ⟨.lookup k, x⟩)
  | release (h : Handle) : NextIs (.release h) [] (.op ⟨.release h, none⟩)
  | erase (k : Slice) : NextIs (.erase k) [] (.op ⟨.erase k, none⟩)
  | value (h : Handle) (v : Nat) : NextIs (.value h) [] (.value h v)
  | id (n : UInt64) : NextIs .newId [] (.id n)
  | prune {es : List Effect} (hl : es.length < 16) : NextIs .prune es (.op ⟨.pruneShard es.length, none⟩)
  | charge {es : List Effect} (n : UInt64) (hl : es.length < 16) : NextIs .totalCharge es (.charge es.length n)

theorem Next.is {c : Call} {es : List Effect} {e : Effect} (n : Next c es e) : NextIs c es e := by
  obtain ⟨es', r, h⟩ := n
  have one : ∀ {e e' : Effect}, es ++ e :: es' = [e'] → es = [] ∧ e = e' := by
    intro e e' he
    cases es with
    | nil => simp at he; exact ⟨rfl, he.1⟩
    | cons b bs => simp at he
  have many : ∀ {f : Nat → Effect}, es ++ e :: es' = (List.range 16).map f → es.length < 16 ∧ e = f es.length := by
    intro f h
    have hl := congrArg List.length h
    simp only [List.length_append, List.length_cons, List.length_map, List.length_range] at hl
    have hg := congrArg (fun l => l[es.length]?) h
    simp only [List.getElem?_append_right (Nat.le_refl _), Nat.sub_self, List.getElem?_cons_zero, List.getElem?_map] at hg
    rw [List.getElem?_range (by omega)] at hg
    simp only [Option.map_some, Option.some.injEq] at hg
    exact ⟨by omega, hg⟩
  cases c with
  | insert k v ch d =>
    obtain ⟨y, h, -⟩ := h
    obtain ⟨rfl, rfl⟩ := one h
    exact .insert ..
  | lookup k =>
    obtain ⟨y, h, -⟩ := h
    obtain ⟨rfl, rfl⟩ := one h
    exact .lookup ..
  | release y =>
    obtain ⟨rfl, rfl⟩ := one h.1
    exact .release ..
  | erase k =>
    obtain ⟨rfl, rfl⟩ := one h.1
    exact .erase ..
  | value y =>
    obtain ⟨v, h, -⟩ := h
    obtain ⟨rfl, rfl⟩ := one h
    exact .value ..
  | newId =>
    obtain ⟨v, h, -⟩ := h
    obtain ⟨rfl, rfl⟩ := one h
    exact .id ..
  | prune =>
    obtain ⟨hl, rfl⟩ := many h.1
    exact .prune hl
  | totalCharge =>
    obtain ⟨n, h, -⟩ := h
    obtain ⟨hl, rfl⟩ := many h
    exact .charge _ hl

/-- References that are left. -/
theorem Inv.references (i : Inv hf capacity a H) (h : Handle) :
    ∃ n, Total a.now (wRel h) n ∧ released a.tr h + n ≤ obtained a.tr h ∧
      (∀ t es, a.now t = some (.value h, es) → released a.tr h + n < obtained a.tr h) := by
  obtain ⟨n, T, e⟩ := i.rel h
  obtain ⟨m, -, e'⟩ := i.got h
  have := i.bal h
  refine ⟨n, T, by omega, ?_⟩
  intro t es ht
  have := i.val t h es ht
  omega

/-- The effect of a call is allowed. -/
theorem Inv.allowed (i : Inv hf capacity a H) (hlen : H.length < 2 ^ 31) {t : Tid} {c : Call} {es : List Effect} {o : COp}
    {x : Option Handle} (h : a.now t = some (c, es)) (n : Next c es (.op ⟨o, x⟩)) : Allowed a.tr o := by
  obtain ⟨m, -, hm⟩ := i.len
  have hwf := (i.wf t c es h).1
  cases n.is with
  | insert k v ch d y =>
    refine ⟨hwf k rfl, ?_⟩
    intro ks hnd hks
    have h1 := nodup_length_le ks (insertKeys a.tr) hnd (fun k hk => current_insertKeys a.tr k (hks k hk))
    have h2 := insertKeys_nops a.tr
    omega
  | lookup k =>
    refine ⟨hwf k rfl, ?_⟩
    intro y
    have := obtained_nops a.tr y
    unfold outstanding
    omega
  | release y =>
    obtain ⟨n, T, h1, -⟩ := i.references y
    have := (T.upd t none).1
    rw [h] at this
    simp only [wRel, if_true] at this
    show released a.tr y < obtained a.tr y
    omega
  | erase k => exact hwf k rfl
  | prune hl => exact hl

/-- A thread that uses a handle has a reference that no effect of another thread takes away. -/
theorem Inv.kept (i : Inv hf capacity a H) {t u : Tid} {y : Handle} {es es' : List Effect} {c : Call}
    (h : a.now t = some (.value y, es) ∨ a.now t = some (.release y, [])) (hu : a.now u = some (c, es')) (ne : u ≠ t) {o : COp}
    {x : Option Handle} (n : Next c es' (.op ⟨o, x⟩)) : 0 < outstanding (⟨o, x⟩ :: a.tr) y := by
  obtain ⟨n, T, h1, h2⟩ := i.references y
  have key : released a.tr y + wRel y (a.now u) < obtained a.tr y := by
    have hle := (T.upd u none).1
    rcases h with h | h
    · have := h2 t es h
      omega
    · obtain ⟨h3, T'⟩ := T.upd t none
      have h4 := (T'.upd u none).1
      rw [if_neg ne, h] at h4
      rw [h] at h3
      have e1 : wRel y (some (.release y, [])) = 1 := by simp [wRel]
      have e2 : wRel y none = 0 := rfl
      omega
  rw [hu] at key
  rename_i nx
  cases nx.is <;>
  · simp only [outstanding, obtained, released, wRel] at key ⊢
    omega

/-- It has one now. -/
theorem Inv.has (i : Inv hf capacity a H) {t : Tid} {y : Handle} {es : List Effect}
    (h : a.now t = some (.value y, es) ∨ a.now t = some (.release y, [])) : 0 < outstanding a.tr y := by
  obtain ⟨n, T, h1, h2⟩ := i.references y
  unfold outstanding
  rcases h with h | h
  · have := h2 t es h
    omega
  · obtain ⟨h3, T'⟩ := T.upd t none
    rw [h] at h3
    simp only [wRel, if_true] at h3
    omega

theorem Inv.effect (i : Inv hf capacity a H) {a' : Atom} {t : Tid} {c : Call} {es : List Effect} {e : Effect}
    (h : a.now t = some (c, es)) (n : Next c es e) (o : Occurs hf a e a') :
    Inv hf capacity (a'.at t (some (c, es ++ [e]))) H := by
  have hnow : a'.now = a.now := by cases o <;> rfl
  have hat : ∀ u, (a'.at t (some (c, es ++ [e]))).now u = if u = t then some (c, es ++ [e]) else a.now u := by
    intro u; simp only [Atom.at, hnow]
  have hfun : (a'.at t (some (c, es ++ [e]))).now = fun u => if u = t then some (c, es ++ [e]) else a.now u := funext hat
  have hreach : Reach hf capacity a'.cache a'.tr := by
    cases o with
    | op ha he => exact Reach.step i.reach ha he
    | value => exact i.reach
    | id => exact i.reach
    | charge => exact i.reach
  refine ⟨hreach, ?_, ?_, ?_, ?_, ?_, i.bal, ?_⟩
  · intro u
    rw [hat, i.pend]
    split
    · rename_i e; subst e; rw [h]; rfl
    · rfl
  · intro u c' es' hu
    rw [hat] at hu
    split at hu
    · cases hu
      obtain ⟨es'', r, hc⟩ := n
      exact ⟨(i.wf t c es h).1, es'', r, by simpa using hc⟩
    · exact i.wf u c' es' hu
  · intro y
    obtain ⟨m, T, hm⟩ := i.got y
    obtain ⟨hle, T'⟩ := T.upd t (some (c, es ++ [e]))
    rw [hfun]
    refine ⟨_, T', ?_⟩
    show obtained a'.tr y = _
    rw [h] at hle ⊢
    cases n.is <;> cases o <;> simp only [obtained, wGot, List.nil_append] at hle ⊢ <;> omega
  · intro y
    obtain ⟨m, T, hm⟩ := i.rel y
    obtain ⟨hle, T'⟩ := T.upd t (some (c, es ++ [e]))
    rw [hfun]
    refine ⟨_, T', ?_⟩
    show _ = released a'.tr y + _
    rw [h] at hle ⊢
    cases n.is <;> cases o <;> simp only [released, wRel, List.nil_append] at hle ⊢ <;> omega
  · obtain ⟨m, T, hm⟩ := i.len
    obtain ⟨hle, T'⟩ := T.upd t (some (c, es ++ [e]))
    rw [hfun]
    refine ⟨_, T', ?_⟩
    show nops a'.tr + _ ≤ _
    rw [h] at hle ⊢
    have h0 : wNew (some (c, es ++ [e])) = 0 := by cases es <;> rfl
    rw [h0]
    cases n.is <;> cases o <;> simp only [nops, wNew, List.nil_append] at hle ⊢ <;> omega
  · intro u y es' hu
    rw [hat] at hu
    split at hu
    · rename_i e'
      subst e'
      cases hu
      exact i.val u y es h
    · exact i.val u y es' hu

theorem Inv.ret (i : Inv hf capacity a H) {t : Tid} {c : Call} {es : List Effect} {x : Res}
    (h : a.now t = some (c, es)) (d : Complete c es x) : Inv hf capacity (a.at t none) (.ret t x :: H) := by
  have hat : ∀ u, (a.at t none).now u = if u = t then none else a.now u := fun u => rfl
  have hfun : (a.at t none).now = fun u => if u = t then none else a.now u := rfl
  have hbeg : ∀ y, begun (.ret t x :: H) y = begun H y := fun y => rfl
  have hgot : ∀ y, CacheConc.got H y ≤ CacheConc.got (.ret t x :: H) y := by
    intro y; cases x <;> simp [CacheConc.got]
  refine ⟨i.reach, ?_, ?_, ?_, ?_, ?_, ?_, ?_⟩
  · intro u
    rw [hat]
    show (if t = u then none else pending H u) = _
    by_cases e : u = t
    · simp [e]
    · have e' : ¬ t = u := fun h => e h.symm
      simp [e, e', i.pend]
  · intro u c' es' hu
    rw [hat] at hu
    split at hu
    · cases hu
    · exact i.wf u c' es' hu
  · intro y
    obtain ⟨m, T, hm⟩ := i.got y
    obtain ⟨hle, T'⟩ := T.upd t none
    refine ⟨_, T', ?_⟩
    show obtained a.tr y = _
    rw [hm, h]
    rw [h] at hle
    have e2 : wGot y none = 0 := rfl
    rw [e2]
    cases c with
    | insert k v ch dd =>
      obtain ⟨z, rfl, rfl⟩ := d
      simp only [wGot, CacheConc.got] at hle ⊢
      omega
    | lookup k =>
      obtain ⟨z, rfl, rfl⟩ := d
      simp only [wGot, CacheConc.got] at hle ⊢
      omega
    | release k => obtain ⟨rfl, rfl⟩ := d; simp only [wGot, CacheConc.got]; omega
    | erase k => obtain ⟨rfl, rfl⟩ := d; simp only [wGot, CacheConc.got]; omega
    | value k => obtain ⟨z, rfl, rfl⟩ := d; simp only [wGot, CacheConc.got]; omega
    | newId => obtain ⟨z, rfl, rfl⟩ := d; simp only [wGot, CacheConc.got]; omega
    | prune => obtain ⟨rfl, rfl⟩ := d; simp only [wGot, CacheConc.got]; omega
    | totalCharge => obtain ⟨z, rfl, rfl⟩ := d; simp only [wGot, CacheConc.got]; omega
  · intro y
    obtain ⟨m, T, hm⟩ := i.rel y
    obtain ⟨hle, T'⟩ := T.upd t none
    refine ⟨_, T', ?_⟩
    show _ = released a.tr y + _
    rw [hbeg, hm, h]
    have e2 : wRel y none = 0 := rfl
    have e3 : wRel y (some (c, es)) = 0 := by
      cases c with
      | release k => obtain ⟨rfl, rfl⟩ := d; rfl
      | _ => rfl
    omega
  · obtain ⟨m, T, hm⟩ := i.len
    obtain ⟨hle, T'⟩ := T.upd t none
    refine ⟨_, T', ?_⟩
    show nops a.tr + _ ≤ _
    have e2 : wNew none = 0 := rfl
    simp only [List.length_cons]
    omega
  · intro y
    have := i.bal y
    have := hgot y
    rw [hbeg]
    omega
  · intro u y es' hu
    rw [hat] at hu
    split at hu
    · cases hu
    · have := i.val u y es' hu
      have := hgot y
      rw [hbeg]
      omega

end CacheConc
end Lsmdb
