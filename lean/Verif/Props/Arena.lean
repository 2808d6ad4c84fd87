import Verif.Proof.Arena

/-!
# C17–C19: the arena
-/

namespace Lsmdb
namespace Props
open Spec Arena

/-- C17: after any history of calls (of at least one byte, and less than 2^64-8) under any placement of
blocks by `new[]` (which may also throw), the history has run without a fault, every range handed out
lies inside one of the blocks the arena owns (and has not freed), and any two ranges handed out at
different times have no address in common. -/
theorem C17_no_overlap (hist : List (Call × Option Nat)) (he : EnvOK init hist) :
    ∃ s log, run init [] hist = .ok (s, log) ∧
      (∀ x ∈ log, ∃ b ∈ s.blocks, Inside x.addr x.size b.1 b.2) ∧
      log.Pairwise (fun x y => Disjoint x.addr x.size y.addr y.size) := by
  obtain ⟨s, log, hr, hi, _, _⟩ := run_inv inv_init hist he
  exact ⟨s, log, hr, hi.log_in, hi.log_disj⟩

/-- C17, the calls really are all served: a call whose `new[]` does not throw hands out a range of
exactly the requested size, appended to what was handed out before (which is never moved). -/
theorem C17_served (hist : List (Call × Option Nat)) (c : Call) (a : Nat)
    (he : EnvOK init (hist ++ [(c, some a)])) :
    ∃ s log s' p, run init [] hist = .ok (s, log) ∧
      run init [] (hist ++ [(c, some a)]) = .ok (s', log ++ [⟨p, c.bytes, c.aligned⟩]) := by
  have gen : ∀ (hist : List (Call × Option Nat)) (s : State) (log : List Alloc), Inv s log →
      EnvOK s (hist ++ [(c, some a)]) →
      ∃ s1 log1 s' p, run s log hist = .ok (s1, log1) ∧
        run s log (hist ++ [(c, some a)]) = .ok (s', log1 ++ [⟨p, c.bytes, c.aligned⟩]) := by
    intro hist
    induction hist with
    | nil =>
      intro s log hi he
      obtain ⟨hc, hnew, _⟩ := he
      rcases step_inv hi c (some a) hc hnew with ⟨_, h0⟩ | ⟨p, s', hs, _, _⟩
      · cases h0
      · exact ⟨s, log, s', p, rfl, by simp [run, hs, bind, Except.bind]⟩
    | cons x rest ih =>
      intro s log hi he
      obtain ⟨c', new⟩ := x
      obtain ⟨hc, hnew, hrest⟩ := he
      rcases step_inv hi c' new hc hnew with ⟨hs, _⟩ | ⟨p, s', hs, hi', _⟩
      · rw [hs] at hrest
        obtain ⟨s1, l1, s2, p2, h1, h2⟩ := ih s log hi hrest
        exact ⟨s1, l1, s2, p2, by simp [run, hs, h1, bind, Except.bind],
          by simp [run, hs, h2, bind, Except.bind]⟩
      · rw [hs] at hrest
        obtain ⟨s1, l1, s2, p2, h1, h2⟩ := ih s' _ hi' hrest
        exact ⟨s1, l1, s2, p2, by simp [run, hs, h1, bind, Except.bind],
          by simp [run, hs, h2, bind, Except.bind]⟩
  exact gen hist init [] inv_init he

/-- C18: after any history every pointer returned by an aligned call is a multiple of 8 (and the
assertion in `AllocateAligned` has not failed). -/
theorem C18_aligned (hist : List (Call × Option Nat)) (he : EnvOK init hist) :
    ∃ s log, run init [] hist = .ok (s, log) ∧ ∀ x ∈ log, x.aligned = true → x.addr % 8 = 0 := by
  obtain ⟨s, log, hr, hi, _, _⟩ := run_inv inv_init hist he
  exact ⟨s, log, hr, hi.aligned⟩

/-- C19: after any history `MemoryUsage` is the number of bytes obtained from `new[]` plus 8 (one
pointer) per block; it is at least the sum of the requested sizes; the destructor frees each block the
arena obtained exactly once. -/
theorem C19_accounting (hist : List (Call × Option Nat)) (he : EnvOK init hist) :
    ∃ s log, run init [] hist = .ok (s, log) ∧
      MemoryUsage s = (s.blocks.map (fun b => b.2 + 8)).sum ∧
      (log.map (fun x => x.size)).sum ≤ MemoryUsage s ∧
      destroy s = s.blocks.map (fun b => b.1) ∧ (destroy s).Nodup := by
  obtain ⟨s, log, hr, hi, _, _⟩ := run_inv inv_init hist he
  refine ⟨s, log, hr, hi.usage, ?_, rfl, ?_⟩
  · have h1 := hi.enough
    have h2 : (s.blocks.map (fun b => b.2)).sum ≤ (s.blocks.map (fun b => b.2 + 8)).sum := by
      induction s.blocks with
      | nil => exact Nat.le_refl _
      | cons b bs ih => simp only [List.map_cons, List.sum_cons]; omega
    have h3 := hi.usage
    simp only [MemoryUsage, sumSizes] at *
    omega
  · unfold destroy List.Nodup
    rw [List.pairwise_map]
    refine List.Pairwise.imp_of_mem ?_ hi.blocks_disj
    intro b c hb hc hd heq
    exact hd b.1 (Nat.le_refl _) (by have := hi.blocks_pos b hb; omega) (by omega)
      (by have := hi.blocks_pos c hc; omega)

/-- C19: `MemoryUsage` never decreases: it is at most what it is after any continuation. -/
theorem C19_monotone (h1 h2 : List (Call × Option Nat)) (he : EnvOK init (h1 ++ h2)) :
    ∃ s log s' log', run init [] h1 = .ok (s, log) ∧ run init [] (h1 ++ h2) = .ok (s', log') ∧
      MemoryUsage s ≤ MemoryUsage s' := by
  have gen : ∀ (h1 : List (Call × Option Nat)) (s : State) (log : List Alloc), Inv s log →
      EnvOK s (h1 ++ h2) →
      ∃ s1 l1 s2 l2, run s log h1 = .ok (s1, l1) ∧ run s log (h1 ++ h2) = .ok (s2, l2) ∧
        MemoryUsage s1 ≤ MemoryUsage s2 := by
    intro h1
    induction h1 with
    | nil =>
      intro s log hi he
      obtain ⟨s2, l2, hr, _, _, hu⟩ := run_inv hi h2 he
      exact ⟨s, log, s2, l2, rfl, hr, hu⟩
    | cons x rest ih =>
      intro s log hi he
      obtain ⟨c', new⟩ := x
      obtain ⟨hc, hnew, hrest⟩ := he
      rcases step_inv hi c' new hc hnew with ⟨hs, _⟩ | ⟨p, s', hs, hi', _⟩
      · rw [hs] at hrest
        obtain ⟨s1, l1, s2, p2, h1, h2, h3⟩ := ih s log hi hrest
        exact ⟨s1, l1, s2, p2, by simp [run, hs, h1, bind, Except.bind],
          by simp [run, hs, h2, bind, Except.bind], h3⟩
      · rw [hs] at hrest
        obtain ⟨s1, l1, s2, p2, h1, h2, h3⟩ := ih s' _ hi' hrest
        exact ⟨s1, l1, s2, p2, by simp [run, hs, h1, bind, Except.bind],
          by simp [run, hs, h2, bind, Except.bind], h3⟩
  exact gen h1 init [] inv_init he

/-- C19, bounded waste: counting at most 7 bytes of alignment per request, the memory obtained from the
system is at most 4096/3066 (about 4/3) of what was requested plus one standard block. -/
theorem C19_bounded_waste (hist : List (Call × Option Nat)) (he : EnvOK init hist) :
    ∃ s log, run init [] hist = .ok (s, log) ∧
      3066 * (s.blocks.map (fun b => b.2)).sum ≤
        4096 * ((log.map (fun x => x.size + 7)).sum + 4096) := by
  obtain ⟨s, log, hr, _, _, _⟩ := run_inv inv_init hist he
  have hw := waste_run ⟨by simp [init], by simp [init]⟩ inv_init hist he hr
  have h1 := hw.bound
  have h2 := hw.rem
  exact ⟨s, log, hr, by simp only [sumPadded] at h1; omega⟩

/-- A concrete history meeting the hypotheses: an odd unaligned request, an aligned one, a large one, a
failing `new[]`, and a request that opens a second block. -/
def exHist : List (Call × Option Nat) :=
  [(⟨13, false⟩, some 8000), (⟨100, true⟩, none), (⟨5000, true⟩, some 16000), (⟨4000, false⟩, none),
   (⟨1000, false⟩, none), (⟨1000, true⟩, none), (⟨1000, true⟩, none), (⟨1000, true⟩, some 32000)]

example : EnvOK init exHist := by
  simp [exHist, EnvOK, NewOK, Spec.Disjoint, init, step, Allocate, AllocateAligned, AllocateFallback,
    AllocateNewBlock, kBlockSize, cassert, bind, Except.bind, pure, Except.pure]
  refine ⟨?_, ?_, ?_⟩ <;> (intros; omega)

example : run init [] exHist = .ok
    (⟨33000, 3096, [(8000, 4096), (16000, 5000), (32000, 4096)], 13216⟩,
     [⟨8000, 13, false⟩, ⟨8016, 100, true⟩, ⟨16000, 5000, true⟩, ⟨8116, 1000, false⟩,
      ⟨9120, 1000, true⟩, ⟨10120, 1000, true⟩, ⟨32000, 1000, true⟩]) := by
  decide +kernel

/-- Why C17 bounds the request: `bytes + slop` is computed modulo 2^64, so an aligned request of
2^64-7 bytes after an allocation of one byte is "served" from the current block: the code hands out a
range that is not inside any block it owns. -/
theorem C17_huge_aligned_request_escapes :
    ∃ s log, run init [] [(⟨1, false⟩, some 8000), (⟨2 ^ 64 - 7, true⟩, none)] = .ok (s, log) ∧
      ¬ ∀ x ∈ log, ∃ b ∈ s.blocks, Inside x.addr x.size b.1 b.2 := by
  refine ⟨⟨8001, 4095, [(8000, 4096)], 4104⟩, [⟨8000, 1, false⟩, ⟨8008, 2 ^ 64 - 7, true⟩], ?_, ?_⟩
  · decide +kernel
  · intro h
    obtain ⟨b, hb, hin⟩ := h ⟨8008, 2 ^ 64 - 7, true⟩ (by simp)
    simp only [List.mem_singleton] at hb
    subst hb
    simp [Inside] at hin

end Props
end Lsmdb
