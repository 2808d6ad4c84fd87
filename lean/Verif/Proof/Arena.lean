import Verif.Spec.Arena

namespace Lsmdb
namespace Arena
open Spec

def sumSizes (log : List Alloc) : Nat := (log.map (·.size)).sum

structure Inv (s : State) (log : List Alloc) : Prop where
  /-- the unused part of the current block lies in an owned block (or is empty) -/
  free_in : s.remaining = 0 ∨ ∃ b ∈ s.blocks, Inside s.alloc_ptr s.remaining b.1 b.2
  blocks_disj : s.blocks.Pairwise (fun b c => Disjoint b.1 b.2 c.1 c.2)
  blocks_pos : ∀ b ∈ s.blocks, 0 < b.2
  log_in : ∀ x ∈ log, ∃ b ∈ s.blocks, Inside x.addr x.size b.1 b.2
  log_free : ∀ x ∈ log, Disjoint x.addr x.size s.alloc_ptr s.remaining
  log_disj : log.Pairwise (fun x y => Disjoint x.addr x.size y.addr y.size)
  log_pos : ∀ x ∈ log, 0 < x.size
  aligned : ∀ x ∈ log, x.aligned = true → x.addr % 8 = 0
  usage : s.usage = (s.blocks.map (fun b => b.2 + 8)).sum
  enough : sumSizes log + s.remaining ≤ (s.blocks.map (·.2)).sum

theorem inv_init : Inv init [] := by
  constructor <;> simp [init, sumSizes]

theorem pairwise_append_one {α : Type} {R : α → α → Prop} {l : List α} {a : α}
    (h : l.Pairwise R) (ha : ∀ x ∈ l, R x a) : (l ++ [a]).Pairwise R := by
  rw [List.pairwise_append]
  exact ⟨h, by simp, fun x hx y hy => by simp at hy; subst hy; exact ha x hx⟩

theorem sum_append_one (l : List Nat) (x : Nat) : (l ++ [x]).sum = l.sum + x := by simp

/-- Carving `n` bytes (after skipping `slop`) from the free region. -/
theorem inv_carve {s : State} {log : List Alloc} (h : Inv s log) (slop n : Nat) (al : Bool)
    (hn : 0 < n) (hle : n + slop ≤ s.remaining)
    (hal : al = true → (s.alloc_ptr + slop) % 8 = 0) :
    Inv { s with alloc_ptr := s.alloc_ptr + (n + slop), remaining := s.remaining - (n + slop) }
      (log ++ [⟨s.alloc_ptr + slop, n, al⟩]) := by
  have hfree : ∃ b ∈ s.blocks, Inside s.alloc_ptr s.remaining b.1 b.2 := by
    rcases h.free_in with h0 | h0
    · omega
    · exact h0
  obtain ⟨b, hb, hin⟩ := hfree
  unfold Inside at hin
  constructor
  · right; exact ⟨b, hb, by unfold Inside; simp only; omega⟩
  · exact h.blocks_disj
  · exact h.blocks_pos
  · intro x hx
    rcases List.mem_append.mp hx with hx | hx
    · exact h.log_in x hx
    · simp only [List.mem_singleton] at hx; subst hx
      exact ⟨b, hb, by unfold Inside; simp only; omega⟩
  · intro x hx
    rcases List.mem_append.mp hx with hx | hx
    · intro i h1 h2 h3 h4
      simp only at h3 h4
      exact h.log_free x hx i h1 h2 (by omega) (by omega)
    · simp only [List.mem_singleton] at hx; subst hx
      intro i h1 h2 h3 h4
      simp only at h1 h2 h3 h4; omega
  · refine pairwise_append_one h.log_disj (fun x hx => ?_)
    intro i h1 h2 h3 h4
    simp only at h3 h4
    exact h.log_free x hx i h1 h2 (by omega) (by omega)
  · intro x hx
    rcases List.mem_append.mp hx with hx | hx
    · exact h.log_pos x hx
    · simp only [List.mem_singleton] at hx; subst hx; exact hn
  · intro x hx hxa
    rcases List.mem_append.mp hx with hx | hx
    · exact h.aligned x hx hxa
    · simp only [List.mem_singleton] at hx; subst hx; exact hal hxa
  · exact h.usage
  · have := h.enough
    simp only [sumSizes, List.map_append, List.map_cons, List.map_nil, sum_append_one] at *
    omega

/-- A fresh block of `n` bytes whose first `m` bytes are handed out; the rest is either dropped from
consideration (`keep = false`: the free region stays what it was) or becomes the free region. -/
theorem inv_new {s : State} {log : List Alloc} (h : Inv s log) (a n m : Nat) (al keep : Bool)
    (hm : 0 < m) (hmn : m ≤ n) (hnew : NewOK s.blocks a n) :
    Inv { alloc_ptr := if keep then a + m else s.alloc_ptr,
          remaining := if keep then n - m else s.remaining,
          blocks := s.blocks ++ [(a, n)], usage := s.usage + (n + 8) }
      (log ++ [⟨a, m, al⟩]) := by
  have mem {b : Nat × Nat} (hb : b ∈ s.blocks) : b ∈ s.blocks ++ [(a, n)] :=
    List.mem_append.mpr (Or.inl hb)
  have mem2 : (a, n) ∈ s.blocks ++ [(a, n)] := by simp
  constructor
  · cases keep
    · rcases h.free_in with h0 | ⟨b, hb, hin⟩
      · exact Or.inl h0
      · exact Or.inr ⟨b, mem hb, hin⟩
    · exact Or.inr ⟨_, mem2, by unfold Inside; simp; omega⟩
  · refine pairwise_append_one h.blocks_disj (fun x hx => ?_)
    intro i h1 h2 h3 h4
    exact hnew.2 x hx i h3 h4 h1 h2
  · intro b hb
    rcases List.mem_append.mp hb with hb | hb
    · exact h.blocks_pos b hb
    · simp only [List.mem_singleton] at hb; subst hb; simp only; omega
  · intro x hx
    rcases List.mem_append.mp hx with hx | hx
    · obtain ⟨b, hb, hin⟩ := h.log_in x hx
      exact ⟨b, mem hb, hin⟩
    · simp only [List.mem_singleton] at hx; subst hx
      exact ⟨_, mem2, by unfold Inside; simp only; omega⟩
  · intro x hx
    rcases List.mem_append.mp hx with hx | hx
    · cases keep
      · exact h.log_free x hx
      · intro i h1 h2 h3 h4
        simp only [if_true] at h3 h4
        obtain ⟨b, hb, hin⟩ := h.log_in x hx
        unfold Inside at hin
        exact hnew.2 b hb i (by omega) (by omega) (by omega) (by omega)
    · simp only [List.mem_singleton] at hx; subst hx
      intro i h1 h2 h3 h4
      cases keep
      · simp only [Bool.false_eq_true, if_false] at h1 h2 h3 h4
        rcases h.free_in with h0 | ⟨b, hb, hin⟩
        · omega
        · unfold Inside at hin
          exact hnew.2 b hb i (by omega) (by omega) (by omega) (by omega)
      · simp only [if_true] at h1 h2 h3 h4; omega
  · refine pairwise_append_one h.log_disj (fun x hx => ?_)
    intro i h1 h2 h3 h4
    simp only at h3 h4
    obtain ⟨b, hb, hin⟩ := h.log_in x hx
    unfold Inside at hin
    exact hnew.2 b hb i (by omega) (by omega) (by omega) (by omega)
  · intro x hx
    rcases List.mem_append.mp hx with hx | hx
    · exact h.log_pos x hx
    · simp only [List.mem_singleton] at hx; subst hx; exact hm
  · intro x hx hxa
    rcases List.mem_append.mp hx with hx | hx
    · exact h.aligned x hx hxa
    · simp only [List.mem_singleton] at hx; subst hx; exact hnew.1
  · simp only [List.map_append, List.map_cons, List.map_nil, sum_append_one, h.usage]
  · have := h.enough
    cases keep <;>
    · simp only [sumSizes, List.map_append, List.map_cons, List.map_nil, sum_append_one, if_true,
        Bool.false_eq_true, if_false] at *
      omega

theorem fallback_inv {s : State} {log : List Alloc} (h : Inv s log) (n : Nat) (al : Bool)
    (new : Option Nat) (hn : 0 < n)
    (hnew : ∀ a, new = some a → NewOK s.blocks a (if n > 1024 then n else 4096)) {p : Nat}
    {s' : State} (hs : AllocateFallback s n new = some (p, s')) :
    Inv s' (log ++ [⟨p, n, al⟩]) ∧ p % 8 = 0 := by
  unfold AllocateFallback AllocateNewBlock kBlockSize at hs
  cases new with
  | none => split at hs <;> simp at hs
  | some a =>
    have hna := hnew a rfl
    split at hs
    · rename_i hbig
      rw [if_pos hbig] at hna
      cases hs
      exact ⟨inv_new h p n n al false hn (Nat.le_refl _) hna, hna.1⟩
    · rename_i hsmall
      rw [if_neg hsmall] at hna
      cases hs
      exact ⟨inv_new h a 4096 n al true hn (by omega) hna, hna.1⟩

theorem fallback_usage {s s' : State} {n p : Nat} {new : Option Nat}
    (hs : AllocateFallback s n new = some (p, s')) : s.usage ≤ s'.usage := by
  unfold AllocateFallback AllocateNewBlock at hs
  cases new with
  | none => split at hs <;> simp at hs
  | some a =>
    split at hs <;> (cases hs; simp)

theorem step_inv {s : State} {log : List Alloc} (h : Inv s log) (c : Call) (new : Option Nat)
    (hc : 0 < c.bytes ∧ c.bytes + 8 ≤ 2 ^ 64)
    (hnew : ∀ a, new = some a → NewOK s.blocks a (if c.bytes > 1024 then c.bytes else 4096)) :
    (step s c new = .ok none ∧ new = none) ∨
    ∃ p s', step s c new = .ok (some (p, s')) ∧ Inv s' (log ++ [⟨p, c.bytes, c.aligned⟩]) ∧
      s.usage ≤ s'.usage := by
  obtain ⟨n, al⟩ := c
  simp only at hc hnew ⊢
  unfold step
  have hfall (hs : AllocateFallback s n new = none) : new = none := by
    cases new with
    | none => rfl
    | some a =>
      unfold AllocateFallback AllocateNewBlock at hs
      split at hs <;> simp at hs
  cases al with
  | false =>
    simp only [Bool.false_eq_true, if_false]
    unfold Allocate cassert
    simp only [decide_eq_true_eq.mpr hc.1, gt_iff_lt, if_true, bind, Except.bind, pure, Except.pure]
    by_cases hle : n ≤ s.remaining
    · right
      rw [if_pos hle]
      have := inv_carve h 0 n false hc.1 (by omega) (by simp)
      exact ⟨_, _, rfl, this, Nat.le_refl _⟩
    · rw [if_neg hle]
      cases hf : AllocateFallback s n new with
      | none => exact Or.inl ⟨rfl, hfall hf⟩
      | some r =>
        right
        obtain ⟨p, s'⟩ := r
        exact ⟨p, s', rfl, (fallback_inv h n false new hc.1 hnew hf).1, fallback_usage hf⟩
  | true =>
    simp only [if_true]
    unfold AllocateAligned cassert
    simp only [bind, Except.bind, pure, Except.pure]
    have hslop : (if s.alloc_ptr % 8 = 0 then 0 else 8 - s.alloc_ptr % 8) < 8 ∧
        (s.alloc_ptr + (if s.alloc_ptr % 8 = 0 then 0 else 8 - s.alloc_ptr % 8)) % 8 = 0 := by
      split <;> omega
    generalize (if s.alloc_ptr % 8 = 0 then 0 else 8 - s.alloc_ptr % 8) = slop at hslop
    have hmod : (n + slop) % 2 ^ 64 = n + slop := Nat.mod_eq_of_lt (by omega)
    rw [hmod]
    by_cases hle : n + slop ≤ s.remaining
    · right
      rw [if_pos hle]
      simp only [hslop.2, decide_true, if_true]
      exact ⟨_, _, rfl, inv_carve h slop n true hc.1 hle (fun _ => hslop.2), Nat.le_refl _⟩
    · rw [if_neg hle]
      cases hf : AllocateFallback s n new with
      | none => exact Or.inl ⟨rfl, hfall hf⟩
      | some r =>
        right
        obtain ⟨p, s'⟩ := r
        have hi := fallback_inv h n true new hc.1 hnew hf
        simp only [hi.2, decide_true, if_true]
        exact ⟨p, s', rfl, hi.1, fallback_usage hf⟩

theorem run_inv {s : State} {log : List Alloc} (h : Inv s log) (hist : List (Call × Option Nat))
    (he : EnvOK s hist) : ∃ s' log', run s log hist = .ok (s', log') ∧ Inv s' log' ∧
      (∃ l, log' = log ++ l) ∧ s.usage ≤ s'.usage := by
  induction hist generalizing s log with
  | nil => exact ⟨s, log, rfl, h, ⟨[], by simp⟩, Nat.le_refl _⟩
  | cons x rest ih =>
    obtain ⟨c, new⟩ := x
    obtain ⟨hc, hnew, hrest⟩ := he
    rcases step_inv h c new hc hnew with ⟨hs, _⟩ | ⟨p, s', hs, hi, hus⟩
    · rw [hs] at hrest
      obtain ⟨s2, log2, hr, hi2, hl, hu⟩ := ih h hrest
      exact ⟨s2, log2, by simp [run, hs, hr, bind, Except.bind], hi2, hl, hu⟩
    · rw [hs] at hrest
      obtain ⟨s2, log2, hr, hi2, ⟨l, hl⟩, hu⟩ := ih hi hrest
      refine ⟨s2, log2, by simp [run, hs, hr, bind, Except.bind], hi2,
        ⟨[⟨p, c.bytes, c.aligned⟩] ++ l, by rw [hl]; simp⟩, ?_⟩
      exact Nat.le_trans hus hu

/-- Sum of the requested sizes, each with at most 7 bytes of alignment. -/
def sumPadded (log : List Alloc) : Nat := (log.map (fun x => x.size + 7)).sum

structure Waste (s : State) (log : List Alloc) : Prop where
  rem : s.remaining ≤ 4096
  bound : 3066 * (s.blocks.map (·.2)).sum ≤ 4096 * (sumPadded log + s.remaining)

theorem waste_fallback {s s' : State} {log : List Alloc} (h : Waste s log) {n p : Nat} {al : Bool}
    {new : Option Nat} (hr : s.remaining < n + 7) (hs : AllocateFallback s n new = some (p, s')) :
    Waste s' (log ++ [⟨p, n, al⟩]) := by
  unfold AllocateFallback AllocateNewBlock kBlockSize at hs
  have hb := h.bound
  have hrm := h.rem
  cases new with
  | none => split at hs <;> simp at hs
  | some a =>
    split at hs
    · cases hs
      constructor
      · exact h.rem
      · simp only [sumPadded, List.map_append, List.map_cons, List.map_nil, sum_append_one] at *
        omega
    · cases hs
      constructor
      · simp only; omega
      · simp only [sumPadded, List.map_append, List.map_cons, List.map_nil, sum_append_one] at *
        omega

theorem waste_step {s s' : State} {log : List Alloc} (h : Waste s log) (c : Call) (new : Option Nat)
    (hc : 0 < c.bytes ∧ c.bytes + 8 ≤ 2 ^ 64) {p : Nat}
    (hs : step s c new = .ok (some (p, s'))) :
    Waste s' (log ++ [⟨p, c.bytes, c.aligned⟩]) := by
  obtain ⟨n, al⟩ := c
  simp only at hc ⊢
  unfold step at hs
  have carve (slop q : Nat) (hsl : slop < 8) (hle : n + slop ≤ s.remaining) : Waste
      { s with alloc_ptr := s.alloc_ptr + (n + slop), remaining := s.remaining - (n + slop) }
      (log ++ [⟨q, n, al⟩]) := by
    have hb := h.bound
    have hrm := h.rem
    constructor
    · simp only; omega
    · simp only [sumPadded, List.map_append, List.map_cons, List.map_nil, sum_append_one] at *
      omega
  cases al with
  | false =>
    simp only [Bool.false_eq_true, if_false] at hs
    unfold Allocate cassert at hs
    simp only [decide_eq_true_eq.mpr hc.1, gt_iff_lt, if_true, bind, Except.bind, pure, Except.pure] at hs
    by_cases hle : n ≤ s.remaining
    · rw [if_pos hle] at hs
      cases hs
      exact carve 0 _ (by omega) hle
    · rw [if_neg hle] at hs
      exact waste_fallback h (by omega) (Except.ok.inj hs)
  | true =>
    simp only [if_true] at hs
    unfold AllocateAligned cassert at hs
    simp only [bind, Except.bind, pure, Except.pure] at hs
    have hslop : (if s.alloc_ptr % 8 = 0 then 0 else 8 - s.alloc_ptr % 8) < 8 := by
      split <;> omega
    generalize (if s.alloc_ptr % 8 = 0 then 0 else 8 - s.alloc_ptr % 8) = slop at hslop hs
    have hmod : (n + slop) % 2 ^ 64 = n + slop := Nat.mod_eq_of_lt (by omega)
    rw [hmod] at hs
    by_cases hle : n + slop ≤ s.remaining
    · rw [if_pos hle] at hs
      split at hs
      · cases hs
      · cases hs
        exact carve slop _ hslop hle
    · rw [if_neg hle] at hs
      cases hf : AllocateFallback s n new with
      | none => rw [hf] at hs; cases hs
      | some r =>
        obtain ⟨q, s2⟩ := r
        rw [hf] at hs
        simp only at hs
        split at hs
        · cases hs
        · cases hs
          exact waste_fallback h (by omega) hf

theorem waste_run {s : State} {log : List Alloc} (h : Waste s log) (hi : Inv s log)
    (hist : List (Call × Option Nat))
    (he : EnvOK s hist) {s' : State} {log' : List Alloc} (hr : run s log hist = .ok (s', log')) :
    Waste s' log' := by
  induction hist generalizing s log with
  | nil => cases hr; exact h
  | cons x rest ih =>
    obtain ⟨c, new⟩ := x
    obtain ⟨hc, hnew, hrest⟩ := he
    rcases step_inv hi c new hc hnew with ⟨hs, _⟩ | ⟨p, s', hs, hi', hus⟩
    · rw [hs] at hrest
      rw [run, hs] at hr
      exact ih h hi hrest hr
    · rw [hs] at hrest
      rw [run, hs] at hr
      exact ih (waste_step h c new hc hs) hi' hrest hr

end Arena
end Lsmdb
