import Verif.Spec.Status
import Verif.Proof.Slice

namespace Lsmdb
namespace Status
open Spec Coding

/-! ## The packed representation -/

/-- The bytes of a message buffer. -/
def repBytes (c : Code) (msg : Bytes) : Bytes := leBytes 4 msg.length ++ [c.num] ++ msg

def rep (c : Code) (msg : Bytes) : Buf := (repBytes c msg).map some

theorem store_mid (A B C src : Buf) (off : Nat) (ho : off = A.length) (h : B.length = src.length) :
    store (A ++ B ++ C) off src = .ok (A ++ src ++ C) := by
  subst ho
  rw [store, if_pos (by simp; omega)]
  congr 1
  rw [List.append_assoc A B C, List.take_left, ← h, ← List.length_append, ← List.append_assoc,
    List.drop_left]

theorem values_some (bs : Bytes) : values (bs.map some) = .ok bs := by
  induction bs with
  | nil => rfl
  | cons b bs ih => simp [values, ih, bind, Except.bind, pure, Except.pure]

theorem cells_map (bs : Bytes) (off n : Nat) (h : off + n ≤ bs.length) :
    cells (bs.map some) off n = .ok (((bs.drop off).take n).map some) := by
  rw [cells, if_pos (by simpa using h)]
  simp

theorem sliceCells_eq (s : Slice) (h : s.WF) : sliceCells s s.len = .ok (s.bytes.map some) := by
  have h' : s.off + s.len ≤ s.buf.length := h
  rw [sliceCells, if_pos h']; rfl

theorem replicate_split (a b : Nat) :
    (List.replicate (a + b) none : Buf) = List.replicate a none ++ List.replicate b none := by
  rw [List.replicate_append_replicate]

theorem buildState_eq (c : Code) (m1 m2 : Slice) (h1 : m1.WF) (h2 : m2.WF)
    (hsz : m1.len + m2.len + 7 < 2 ^ 32) :
    buildState c m1 m2 = .ok (rep c (joinMsg m1.bytes m2.bytes)) := by
  have l1 : (UInt32.ofNat m1.len).toNat = m1.len := by rw [UInt32.toNat_ofNat']; omega
  have l2 : (UInt32.ofNat m2.len).toNat = m2.len := by rw [UInt32.toNat_ofNat']; omega
  have b1 := Slice.bytes_length h1
  have b2 := Slice.bytes_length h2
  by_cases hz : m2.len = 0
  · have e2 : UInt32.ofNat m2.len = 0 := by rw [hz]; rfl
    have hm2 : m2.bytes = [] := List.length_eq_zero_iff.mp (by omega)
    have hs : (UInt32.ofNat m1.len + (if UInt32.ofNat m2.len ≠ 0 then 2 + UInt32.ofNat m2.len else 0)).toNat =
        m1.len := by rw [if_neg (by simp [e2]), UInt32.add_zero, l1]
    have hs5 : (UInt32.ofNat m1.len + (if UInt32.ofNat m2.len ≠ 0 then 2 + UInt32.ofNat m2.len else 0)
        + 5).toNat = 4 + (1 + m1.len) := by
      rw [UInt32.toNat_add, hs]
      change (m1.len + 5) % 2 ^ 32 = _; omega
    rw [buildState]
    simp only [hs5, EncodeFixed32_eq, hs, l1]
    rw [replicate_split 4 (1 + m1.len), replicate_split 1 m1.len]
    have s1 := store_mid [] (List.replicate 4 none)
      (List.replicate 1 none ++ List.replicate m1.len none) ((leBytes 4 m1.len).map some) 0 rfl
      (by simp [leBytes_length])
    rw [List.nil_append, List.nil_append] at s1
    rw [s1]
    simp only [bind, Except.bind]
    rw [← List.append_assoc]
    rw [store_mid _ (List.replicate 1 none) _ [some c.num] 4 (by simp [leBytes_length]) (by simp)]
    simp only [sliceCells_eq m1 h1]
    have s3 := store_mid ((leBytes 4 m1.len).map some ++ [some c.num]) (List.replicate m1.len none)
      [] (m1.bytes.map some) 5 (by simp [leBytes_length]) (by simp [b1])
    rw [List.append_nil, List.append_nil] at s3
    rw [s3]
    simp only
    rw [if_neg (by simp [e2])]
    simp [pure, Except.pure, rep, repBytes, joinMsg, hm2, b1]
  · have e2 : UInt32.ofNat m2.len ≠ 0 := by
      intro h; apply hz; rw [← l2, h]; rfl
    have hm2 : m2.bytes ≠ [] := by
      intro h; apply hz; rw [← b2, h]; rfl
    have hs : (UInt32.ofNat m1.len + (if UInt32.ofNat m2.len ≠ 0 then 2 + UInt32.ofNat m2.len else 0)).toNat =
        m1.len + 2 + m2.len := by
      rw [if_pos e2, UInt32.toNat_add, UInt32.toNat_add, l1, l2]
      change (m1.len + (2 + m2.len) % 2 ^ 32) % 2 ^ 32 = _; omega
    have hs5 : (UInt32.ofNat m1.len + (if UInt32.ofNat m2.len ≠ 0 then 2 + UInt32.ofNat m2.len else 0)
        + 5).toNat = 4 + (1 + (m1.len + (1 + (1 + m2.len)))) := by
      rw [UInt32.toNat_add, hs]
      change (m1.len + 2 + m2.len + 5) % 2 ^ 32 = _; omega
    have o5 : (5 + UInt32.ofNat m1.len).toNat = 5 + m1.len := by
      rw [UInt32.toNat_add, l1]
      change (5 + m1.len) % 2 ^ 32 = _; omega
    have o6 : (6 + UInt32.ofNat m1.len).toNat = 6 + m1.len := by
      rw [UInt32.toNat_add, l1]
      change (6 + m1.len) % 2 ^ 32 = _; omega
    rw [buildState]
    simp only [hs5, EncodeFixed32_eq, hs, l1, l2, o5, o6]
    rw [replicate_split 4, replicate_split 1, replicate_split m1.len, replicate_split 1,
      replicate_split 1]
    generalize hL : leBytes 4 (m1.len + 2 + m2.len) = L
    have hLl : L.length = 4 := by rw [← hL, leBytes_length]
    have s1 := store_mid [] (List.replicate 4 none)
      (List.replicate 1 none ++ (List.replicate m1.len none ++ (List.replicate 1 none ++
        (List.replicate 1 none ++ List.replicate m2.len none)))) (L.map some) 0 rfl
      (by simp [hLl])
    rw [List.nil_append, List.nil_append] at s1
    rw [s1]
    simp only [bind, Except.bind]
    rw [← List.append_assoc, store_mid _ (List.replicate 1 none) _ [some c.num] 4 (by simp [hLl]) (by simp)]
    simp only [sliceCells_eq m1 h1]
    rw [← List.append_assoc, store_mid _ (List.replicate m1.len none) _ (m1.bytes.map some) 5
      (by simp [hLl]) (by simp [b1])]
    simp only
    rw [if_pos e2, ← List.append_assoc, store_mid _ (List.replicate 1 none) _ [some 58]
      (5 + m1.len) (by simp [hLl, b1]; omega) (by simp)]
    simp only
    rw [← List.append_assoc, store_mid _ (List.replicate 1 none) _ [some 32]
      (6 + m1.len) (by simp [hLl, b1]; omega) (by simp)]
    simp only [sliceCells_eq m2 h2]
    have s6 := store_mid ((L.map some ++ [some c.num]) ++ m1.bytes.map some ++ [some 58] ++ [some 32])
      (List.replicate m2.len none) [] (m2.bytes.map some) (7 + m1.len) (by simp [hLl, b1]; omega)
      (by simp [b2])
    rw [List.append_nil, List.append_nil] at s6
    rw [s6]
    simp [rep, repBytes, joinMsg, hm2, b1, b2, ← hL]
    have : m1.len + (m2.len + 1 + 1) = m1.len + 2 + m2.len := by omega
    rw [this]

theorem repBytes_length (c : Code) (msg : Bytes) : (repBytes c msg).length = msg.length + 5 := by
  simp [repBytes, leBytes_length]; omega

theorem readSize_rep (c : Code) (msg : Bytes) (h : msg.length < 2 ^ 32) :
    readSize (rep c msg) = .ok (UInt32.ofNat msg.length) := by
  rw [readSize, rep, cells_map _ _ _ (by rw [repBytes_length]; omega)]
  have e : ((repBytes c msg).drop 0).take 4 = leBytes 4 msg.length := by
    rw [List.drop_zero, repBytes, List.append_assoc, List.take_left' (leBytes_length 4 _)]
  rw [e]
  simp only [bind, Except.bind, values_some]
  have := DecodeFixed32_eq [] (leBytes 4 msg.length) [] (leBytes_length 4 _)
  simp only [List.nil_append, List.append_nil, List.length_nil, leValue_leBytes] at this
  rw [this, Nat.mod_eq_of_lt (by omega)]

theorem CopyState_rep (m : Mem) (p : Nat) (c : Code) (msg : Bytes) (h : msg.length + 5 < 2 ^ 32)
    (hp : m.heap[p]? = some (some (rep c msg))) :
    CopyState m p = .ok (alloc m (rep c msg)) := by
  have hl : load m p = .ok (rep c msg) := by rw [load, hp]
  have hn : (UInt32.ofNat msg.length + 5).toNat = (repBytes c msg).length := by
    rw [UInt32.toNat_add, UInt32.toNat_ofNat', repBytes_length]
    change (msg.length % 2 ^ 32 + 5) % 2 ^ 32 = _; omega
  rw [CopyState, hl]
  simp only [bind, Except.bind, readSize_rep c msg (by omega), hn]
  have : cells (rep c msg) 0 (repBytes c msg).length = .ok (rep c msg) := by
    rw [rep, cells_map _ _ _ (by omega)]; simp
  rw [this]; rfl

/-! ## Representation invariant -/

/-- A pointer represents a value. -/
def Repr (heap : List (Option Buf)) : Option Nat → SVal → Prop
  | none, v => v = .ok
  | some p, v => ∃ c msg, v = .err c msg ∧ msg.length + 5 < 2 ^ 32 ∧
      heap[p]? = some (some (rep c msg))

structure Inv (m : Mem) (e : SEnv) : Prop where
  dead : ∀ i, m.objs i = none ↔ e i = none
  val : ∀ i p v, m.objs i = some p → e i = some v → Repr m.heap p v
  own : ∀ i j p, m.objs i = some (some p) → m.objs j = some (some p) → i = j
  noleak : ∀ p b, m.heap[p]? = some (some b) → ∃ i, m.objs i = some (some p)

theorem inv_init : Inv Mem.init (fun _ => none) := by
  constructor <;> simp [Mem.init]

theorem Repr.bound {heap : List (Option Buf)} {p : Nat} {v : SVal} (h : Repr heap (some p) v) :
    p < heap.length := by
  obtain ⟨c, msg, _, _, h⟩ := h
  exact (List.getElem?_eq_some_iff.mp h).1

theorem Repr.append {heap : List (Option Buf)} {p : Option Nat} {v : SVal} (b : Option Buf)
    (h : Repr heap p v) : Repr (heap ++ [b]) p v := by
  cases p with
  | none => exact h
  | some p =>
    have hb := Repr.bound h
    obtain ⟨c, msg, h1, h2, h3⟩ := h
    exact ⟨c, msg, h1, h2, by rw [List.getElem?_append_left hb]; exact h3⟩

theorem Repr.set {heap : List (Option Buf)} {p : Option Nat} {v : SVal} {q : Nat} {b : Option Buf}
    (hne : p ≠ some q) (h : Repr heap p v) : Repr (heap.set q b) p v := by
  cases p with
  | none => exact h
  | some p =>
    obtain ⟨c, msg, h1, h2, h3⟩ := h
    refine ⟨c, msg, h1, h2, ?_⟩
    rw [List.getElem?_set_ne (by intro e; exact hne (by rw [e]))]
    exact h3

/-- The pointer held by every live object is live. -/
theorem Inv.obj {m : Mem} {e : SEnv} (h : Inv m e) {i : Nat} {v : SVal} (hv : e i = some v) :
    ∃ p, m.objs i = some p ∧ Repr m.heap p v := by
  cases hp : m.objs i with
  | none => rw [(h.dead i).mp hp] at hv; simp at hv
  | some p => exact ⟨p, rfl, h.val i p v hp hv⟩

/-- A state where object `i` holds a fresh buffer. -/
theorem inv_fresh {m : Mem} {e : SEnv} (h : Inv m e) (i : Nat) (c : Code) (msg : Bytes)
    (hmsg : msg.length + 5 < 2 ^ 32) (hi : ∀ p, m.objs i ≠ some (some p)) :
    Inv { (alloc m (rep c msg)).2 with
        objs := upd (alloc m (rep c msg)).2.objs i (some (some (alloc m (rep c msg)).1)) }
      (upd e i (some (.err c msg))) := by
  have hb (j : Nat) (p : Nat) (hp : m.objs j = some (some p)) : p < m.heap.length := by
    cases hv : e j with
    | none => rw [(h.dead j).mpr hv] at hp; simp at hp
    | some v => exact (h.val j _ v hp hv).bound
  simp only [alloc]
  constructor
  · intro j
    by_cases hj : j = i
    · subst hj; simp [upd_same]
    · simp only [upd_other _ _ hj]; exact h.dead j
  · intro j p v hp hv
    by_cases hj : j = i
    · subst hj
      simp only [upd_same, Option.some.injEq] at hp hv
      subst hp hv
      exact ⟨c, msg, rfl, hmsg, by simp⟩
    · simp only [upd_other _ _ hj] at hp hv
      exact (h.val j p v hp hv).append _
  · intro j k p hj hk
    simp only at hj hk
    by_cases ej : j = i <;> by_cases ek : k = i
    · rw [ej, ek]
    · subst ej
      simp only [upd_same, upd_other _ _ ek, Option.some.injEq] at hj hk
      have := hb k p hk; omega
    · subst ek
      simp only [upd_same, upd_other _ _ ej, Option.some.injEq] at hj hk
      have := hb j p hj; omega
    · simp only [upd_other _ _ ej, upd_other _ _ ek] at hj hk
      exact h.own j k p hj hk
  · intro p b hp
    simp only at hp
    by_cases hlt : p < m.heap.length
    · rw [List.getElem?_append_left hlt] at hp
      obtain ⟨j, hj⟩ := h.noleak p b hp
      refine ⟨j, ?_⟩
      have : j ≠ i := by intro e; subst e; exact hi p hj
      simp only [upd_other _ _ this]; exact hj
    · have : p = m.heap.length := by
        have := (List.getElem?_eq_some_iff.mp hp).1
        simp at this; omega
      subst this
      exact ⟨i, by simp [upd_same]⟩

theorem free_eq {m : Mem} {e : SEnv} (h : Inv m e) {i : Nat} {p : Option Nat} {v : SVal}
    (hp : m.objs i = some p) (hv : e i = some v) :
    free m p = .ok (match p with | none => m | some q => { m with heap := m.heap.set q none }) := by
  have hr := h.val i p v hp hv
  cases p with
  | none => rfl
  | some q =>
    obtain ⟨c, msg, _, _, hq⟩ := hr
    simp [free, hq]

/-- After `delete[]` of the buffer of `i` and forgetting it. -/
theorem inv_freed {m : Mem} {e : SEnv} (h : Inv m e) {i : Nat} {p : Option Nat} {v : SVal}
    (hp : m.objs i = some p) (hv : e i = some v) (np : Option (Option Nat)) (nv : Option SVal)
    (hn : (np = none ∧ nv = none) ∨ (np = some none ∧ nv = some .ok)) :
    Inv { (match p with | none => m | some q => { m with heap := m.heap.set q none }) with
        objs := upd m.objs i np } (upd e i nv) := by
  have hnp : ∀ q, np ≠ some (some q) := by
    rcases hn with ⟨h1, _⟩ | ⟨h1, _⟩ <;> simp [h1]
  constructor
  · intro j
    by_cases hj : j = i
    · subst hj; simp only [upd_same]
      rcases hn with ⟨h1, h2⟩ | ⟨h1, h2⟩ <;> simp [h1, h2]
    · simp only [upd_other _ _ hj]; exact h.dead j
  · intro j q w hq hw
    by_cases hj : j = i
    · subst hj
      simp only [upd_same] at hq hw
      rcases hn with ⟨h1, h2⟩ | ⟨h1, h2⟩
      · rw [h1] at hq; simp at hq
      · rw [h1] at hq; rw [h2] at hw
        simp only [Option.some.injEq] at hq hw
        subst hq hw; rfl
    · simp only [upd_other _ _ hj] at hq hw
      have hr := h.val j q w hq hw
      cases p with
      | none => exact hr
      | some p =>
        refine Repr.set ?_ hr
        intro e'; subst e'
        exact hj (h.own j i p hq hp)
  · intro j k q hj hk
    by_cases ej : j = i <;> by_cases ek : k = i
    · rw [ej, ek]
    · subst ej; simp only [upd_same] at hj; exact absurd hj (hnp q)
    · subst ek; simp only [upd_same] at hk; exact absurd hk (hnp q)
    · simp only [upd_other _ _ ej, upd_other _ _ ek] at hj hk
      exact h.own j k q hj hk
  · intro q b hq
    have key : m.heap[q]? = some (some b) ∧ p ≠ some q := by
      cases p with
      | none => exact ⟨hq, by simp⟩
      | some p =>
        simp only at hq
        by_cases e' : p = q
        · subst e'
          have hlt : p < m.heap.length := (h.val i _ v hp hv).bound
          rw [List.getElem?_set_self hlt] at hq; simp at hq
        · rw [List.getElem?_set_ne e'] at hq
          exact ⟨hq, by simpa using e'⟩
    obtain ⟨j, hj⟩ := h.noleak q b key.1
    refine ⟨j, ?_⟩
    have : j ≠ i := by
      intro e'; subst e'
      rw [hp] at hj; exact key.2 (Option.some.inj hj)
    simp only [upd_other _ _ this]; exact hj

theorem joinMsg_length (m1 m2 : Slice) (h1 : m1.WF) (h2 : m2.WF)
    (hsz : m1.len + m2.len + 7 < 2 ^ 32) : (joinMsg m1.bytes m2.bytes).length + 5 < 2 ^ 32 := by
  have b1 := Slice.bytes_length h1
  have b2 := Slice.bytes_length h2
  rw [joinMsg]; split
  · omega
  · simp [b1, b2]; omega

theorem step_inv {m : Mem} {e e' : SEnv} (h : Inv m e) (o : Op) (hs : sstep e o = some e') :
    ∃ m', step m o = .ok m' ∧ Inv m' e' := by
  have hget {i : Nat} {p : Option Nat} (hp : m.objs i = some p) : get m i = .ok p := by
    simp [get, hp]
  cases o with
  | mkOk i =>
    simp only [sstep] at hs
    split at hs
    · rename_i hi
      cases hs
      refine ⟨_, rfl, ?_⟩
      have hd := (h.dead i).mpr hi
      constructor
      · intro j
        by_cases hj : j = i
        · subst hj; simp [upd_same]
        · simp only [upd_other _ _ hj]; exact h.dead j
      · intro j p v hp hv
        by_cases hj : j = i
        · subst hj
          simp only [upd_same, Option.some.injEq] at hp hv
          subst hp hv; rfl
        · simp only [upd_other _ _ hj] at hp hv
          exact h.val j p v hp hv
      · intro j k p hj hk
        by_cases ej : j = i
        · subst ej; simp [upd_same] at hj
        · by_cases ek : k = i
          · subst ek; simp [upd_same] at hk
          · simp only [upd_other _ _ ej, upd_other _ _ ek] at hj hk
            exact h.own j k p hj hk
      · intro p b hp
        obtain ⟨j, hj⟩ := h.noleak p b hp
        refine ⟨j, ?_⟩
        have : j ≠ i := by intro e'; subst e'; rw [hd] at hj; simp at hj
        simp only [upd_other _ _ this]; exact hj
    · simp at hs
  | mkErr i c m1 m2 =>
    simp only [sstep] at hs
    split at hs
    · rename_i hi
      obtain ⟨hi, w1, w2, hsz⟩ := hi
      cases hs
      have hd := (h.dead i).mpr hi
      refine ⟨_, ?_, inv_fresh h i c _ (joinMsg_length m1 m2 w1 w2 hsz) (by simp [hd])⟩
      simp only [step, buildState_eq c m1 m2 w1 w2 hsz, bind, Except.bind]
      rfl
    · simp at hs
  | copyCtor i j =>
    simp only [sstep] at hs
    split at hs
    · rename_i v hi hj
      cases hs
      obtain ⟨p, hp, hr⟩ := h.obj hj
      have hd := (h.dead i).mpr hi
      simp only [step, hget hp, bind, Except.bind]
      cases p with
      | none =>
        cases hr
        -- same as default construction
        refine ⟨_, rfl, ?_⟩
        constructor
        · intro k
          by_cases hk : k = i
          · subst hk; simp [upd_same]
          · simp only [upd_other _ _ hk]; exact h.dead k
        · intro k q v hq hv
          by_cases hk : k = i
          · subst hk
            simp only [upd_same, Option.some.injEq] at hq hv
            subst hq hv; rfl
          · simp only [upd_other _ _ hk] at hq hv
            exact h.val k q v hq hv
        · intro k l q hk hl
          by_cases ek : k = i
          · subst ek; simp [upd_same] at hk
          · by_cases el : l = i
            · subst el; simp [upd_same] at hl
            · simp only [upd_other _ _ ek, upd_other _ _ el] at hk hl
              exact h.own k l q hk hl
        · intro q b hq
          obtain ⟨k, hk⟩ := h.noleak q b hq
          refine ⟨k, ?_⟩
          have : k ≠ i := by intro e'; subst e'; rw [hd] at hk; simp at hk
          simp only [upd_other _ _ this]; exact hk
      | some p =>
        obtain ⟨c, msg, rfl, hlen, hheap⟩ := hr
        simp only [CopyState_rep m p c msg hlen hheap]
        exact ⟨_, rfl, inv_fresh h i c msg hlen (by simp [hd])⟩
    · simp at hs
  | moveCtor i j =>
    simp only [sstep] at hs
    split at hs
    · rename_i v hi hj
      cases hs
      obtain ⟨p, hp, hr⟩ := h.obj hj
      have hd := (h.dead i).mpr hi
      have hij : i ≠ j := by intro e'; subst e'; rw [hi] at hj; simp at hj
      simp only [step, hget hp, bind, Except.bind]
      refine ⟨_, rfl, ?_⟩
      constructor
      · intro k
        by_cases hk : k = j
        · subst hk; simp [upd_same]
        · simp only [upd_other _ _ hk]
          by_cases hk2 : k = i
          · subst hk2; simp [upd_same]
          · simp only [upd_other _ _ hk2]; exact h.dead k
      · intro k q w hq hw
        by_cases hk : k = j
        · subst hk
          simp only [upd_same, Option.some.injEq] at hq hw
          subst hq hw; rfl
        · simp only [upd_other _ _ hk] at hq hw
          by_cases hk2 : k = i
          · subst hk2
            simp only [upd_same, Option.some.injEq] at hq hw
            subst hq hw; exact hr
          · simp only [upd_other _ _ hk2] at hq hw
            exact h.val k q w hq hw
      · intro k l q hk hl
        by_cases ek : k = j
        · subst ek; simp [upd_same] at hk
        by_cases el : l = j
        · subst el; simp [upd_same] at hl
        simp only [upd_other _ _ ek, upd_other _ _ el] at hk hl
        by_cases ek2 : k = i <;> by_cases el2 : l = i
        · rw [ek2, el2]
        · subst ek2
          simp only [upd_same, upd_other _ _ el2, Option.some.injEq] at hk hl
          subst hk
          exact absurd (h.own l j q hl hp) el
        · subst el2
          simp only [upd_same, upd_other _ _ ek2, Option.some.injEq] at hk hl
          subst hl
          exact absurd (h.own k j q hk hp) ek
        · simp only [upd_other _ _ ek2, upd_other _ _ el2] at hk hl
          exact h.own k l q hk hl
      · intro q b hq
        obtain ⟨k, hk⟩ := h.noleak q b hq
        by_cases ek : k = j
        · subst ek
          refine ⟨i, ?_⟩
          rw [hp] at hk
          simp only [upd_other _ _ hij, upd_same]
          exact hk
        · refine ⟨k, ?_⟩
          have : k ≠ i := by intro e'; subst e'; rw [hd] at hk; simp at hk
          simp only [upd_other _ _ ek, upd_other _ _ this]; exact hk
    · simp at hs
  | copyAssign i j =>
    simp only [sstep] at hs
    split at hs
    · rename_i u v hi hj
      cases hs
      obtain ⟨p, hp, hrp⟩ := h.obj hi
      obtain ⟨q, hq, hrq⟩ := h.obj hj
      simp only [step, hget hp, hget hq, bind, Except.bind]
      by_cases hpq : p = q
      · rw [if_neg (by simp [hpq])]
        refine ⟨_, rfl, ?_⟩
        -- same pointer: either both ok or the same object, values equal
        have huv : u = v := by
          subst hpq
          cases p with
          | none => exact hrp.trans hrq.symm
          | some p =>
            have := h.own i j p hp hq
            subst this
            rw [hi] at hj; exact Option.some.inj hj
        subst huv
        have : upd e i (some u) = e := by
          funext k
          by_cases hk : k = i
          · subst hk; rw [upd_same, hi]
          · rw [upd_other _ _ hk]
        rw [this]; exact h
      · rw [if_pos hpq]
        simp only [free_eq h hp hi]
        cases q with
        | none =>
          cases hrq
          refine ⟨_, rfl, ?_⟩
          have := inv_freed h hp hi (some none) (some .ok) (Or.inr ⟨rfl, rfl⟩)
          cases p <;> exact this
        | some q =>
          obtain ⟨c, msg, rfl, hlen, hheap⟩ := hrq
          have h1 := inv_freed h hp hi (some none) (some .ok) (Or.inr ⟨rfl, rfl⟩)
          have hh : (match p with
              | none => m
              | some q => { m with heap := m.heap.set q none }).heap[q]? =
              some (some (rep c msg)) := by
            cases p with
            | none => exact hheap
            | some p =>
              simp only
              rw [List.getElem?_set_ne (by intro e'; exact hpq (by rw [e'])), hheap]
          have hcs := CopyState_rep _ q c msg hlen hh
          have h2 := inv_fresh h1 i c msg hlen (by simp [upd_same])
          have e1 : upd (upd e i (some .ok)) i (some (.err c msg)) =
              upd e i (some (.err c msg)) := by
            funext k
            by_cases hk : k = i
            · subst hk; rw [upd_same, upd_same]
            · rw [upd_other _ _ hk, upd_other _ _ hk, upd_other _ _ hk]
          rw [e1] at h2
          have e2 (x : Option (Option Nat)) : upd (upd m.objs i (some none)) i x = upd m.objs i x := by
            funext k
            by_cases hk : k = i
            · subst hk; rw [upd_same, upd_same]
            · rw [upd_other _ _ hk, upd_other _ _ hk, upd_other _ _ hk]
          cases p <;>
            (simp only at hcs ⊢; rw [hcs]
             exact ⟨_, rfl, by simp only [alloc, e2] at h2 ⊢; exact h2⟩)
    · simp at hs
  | moveAssign i j =>
    simp only [sstep] at hs
    split at hs
    · rename_i u v hi hj
      cases hs
      obtain ⟨p, hp, hrp⟩ := h.obj hi
      obtain ⟨q, hq, hrq⟩ := h.obj hj
      simp only [step, hget hp, hget hq, bind, Except.bind]
      refine ⟨_, rfl, ?_⟩
      by_cases hij : i = j
      · subst hij
        rw [hi] at hj; cases hj
        rw [hp] at hq; cases hq
        have e1 : upd (upd e i (some u)) i (some u) = e := by
          funext k
          by_cases hk : k = i
          · subst hk; rw [upd_same, hi]
          · rw [upd_other _ _ hk, upd_other _ _ hk]
        have e2 : upd (upd m.objs i (some p)) i (some p) = m.objs := by
          funext k
          by_cases hk : k = i
          · subst hk; rw [upd_same, hp]
          · rw [upd_other _ _ hk, upd_other _ _ hk]
        rw [e1]
        simp only [e2]
        exact h
      · constructor
        · intro k
          by_cases hk : k = j
          · subst hk; simp [upd_same]
          · simp only [upd_other _ _ hk]
            by_cases hk2 : k = i
            · subst hk2; simp [upd_same]
            · simp only [upd_other _ _ hk2]; exact h.dead k
        · intro k r w hr hw
          by_cases hk : k = j
          · subst hk
            simp only [upd_same, Option.some.injEq] at hr hw
            subst hr hw; exact hrp
          · simp only [upd_other _ _ hk] at hr hw
            by_cases hk2 : k = i
            · subst hk2
              simp only [upd_same, Option.some.injEq] at hr hw
              subst hr hw; exact hrq
            · simp only [upd_other _ _ hk2] at hr hw
              exact h.val k r w hr hw
        · -- ownership: translate through the swap of i and j
          have tr (k r : Nat) (hk : upd (upd m.objs i (some q)) j (some p) k = some (some r)) :
              m.objs (if k = i then j else if k = j then i else k) = some (some r) := by
            by_cases ek : k = j
            · subst ek
              rw [upd_same] at hk
              rw [if_neg (Ne.symm hij), if_pos rfl, hp]; exact hk
            · rw [upd_other _ _ ek] at hk
              by_cases ek2 : k = i
              · subst ek2
                rw [upd_same] at hk
                rw [if_pos rfl, hq]; exact hk
              · rw [upd_other _ _ ek2] at hk
                rw [if_neg ek2, if_neg ek]; exact hk
          intro k l r hk hl
          have := h.own _ _ r (tr k r hk) (tr l r hl)
          split at this <;> split at this <;> (try split at this) <;> (try split at this) <;> omega
        · intro r b hr
          obtain ⟨k, hk⟩ := h.noleak r b hr
          by_cases ek : k = j
          · subst ek
            refine ⟨i, ?_⟩
            rw [hq] at hk
            simp only [upd_other _ _ hij, upd_same]; exact hk
          · by_cases ek2 : k = i
            · subst ek2
              refine ⟨j, ?_⟩
              rw [hp] at hk
              simp only [upd_same]; exact hk
            · exact ⟨k, by simp only [upd_other _ _ ek, upd_other _ _ ek2]; exact hk⟩
    · simp at hs
  | destroy i =>
    simp only [sstep] at hs
    split at hs
    · rename_i u hi
      cases hs
      obtain ⟨p, hp, hrp⟩ := h.obj hi
      simp only [step, hget hp, bind, Except.bind, free_eq h hp hi]
      refine ⟨_, rfl, ?_⟩
      have := inv_freed h hp hi none none (Or.inl ⟨rfl, rfl⟩)
      cases p <;> exact this
    · simp at hs

theorem run_inv {m : Mem} {e e' : SEnv} (h : Inv m e) (os : List Op) (hs : srun e os = some e') :
    ∃ m', run m os = .ok m' ∧ Inv m' e' := by
  induction os generalizing m e with
  | nil => cases hs; exact ⟨m, rfl, h⟩
  | cons o os ih =>
    simp only [srun] at hs
    split at hs
    · rename_i e1 h1
      obtain ⟨m1, r1, i1⟩ := step_inv h o h1
      obtain ⟨m2, r2, i2⟩ := ih i1 hs
      exact ⟨m2, by simp [run, r1, r2, bind, Except.bind], i2⟩
    · simp at hs

/-! ## Observers -/

theorem observe {m : Mem} {e : SEnv} (h : Inv m e) {i : Nat} {v : SVal} (hv : e i = some v) :
    isOk m i = .ok (v == .ok) ∧
    (∀ c, isCode m i c = .ok (v.isKind c)) ∧
    ToString m i = .ok v.text := by
  obtain ⟨p, hp, hr⟩ := h.obj hv
  have hget : get m i = .ok p := by simp [get, hp]
  cases p with
  | none =>
    cases hr
    refine ⟨by simp [isOk, hget, bind, Except.bind, pure, Except.pure], ?_, ?_⟩
    · intro c
      simp only [isCode, code, hget, bind, Except.bind, pure, Except.pure]
      cases c <;> rfl
    · simp only [ToString, hget, bind, Except.bind, pure, Except.pure]; rfl
  | some p =>
    obtain ⟨k, msg, rfl, hlen, hheap⟩ := hr
    have hl : load m p = .ok (rep k msg) := by rw [load, hheap]
    have hc4 : cells (rep k msg) 4 1 = .ok [some k.num] := by
      rw [rep, cells_map _ _ _ (by rw [repBytes_length]; omega)]
      congr 1
    have hcode : code m i = .ok k.num := by
      simp only [code, hget, bind, Except.bind, hl, hc4, values, pure, Except.pure]
      rfl
    refine ⟨by simp [isOk, hget, bind, Except.bind, pure, Except.pure], ?_, ?_⟩
    · intro c
      simp only [isCode, hcode, bind, Except.bind, pure, Except.pure]
      cases c <;> cases k <;> rfl
    · have hc5 : cells (rep k msg) 5 msg.length = .ok (msg.map some) := by
        rw [rep, cells_map _ _ _ (by rw [repBytes_length]; omega)]
        congr 1
        rw [repBytes, List.drop_left' (by simp [leBytes_length]), List.take_of_length_le (Nat.le_refl _)]
      have hn : (UInt32.ofNat msg.length).toNat = msg.length := by
        rw [UInt32.toNat_ofNat']; omega
      simp only [ToString, hget, bind, Except.bind, hcode, hl, readSize_rep k msg (by omega), hn, hc5,
        values_some, pure, Except.pure, SVal.text]
      cases k <;> rfl

end Status
end Lsmdb
