import Verif.Proof.ArenaConc

/-!
# C111: `MemoryUsage` read while another thread allocates
-/

namespace Lsmdb
namespace ArenaConc
open Arena Spec

/-- C111: one thread allocates from an arena while any others call `MemoryUsage`, whose loads are relaxed.  Every value that a load
returns is the usage of the arena after some number of the calls: no more than were begun by then, no fewer than had returned in a way
that happens before the load, and no fewer than any load that happens before it has seen (so the value is not smaller either).  Only
the messages of the threads order steps of different threads; the loads do not. -/
theorem C111_read {N : Nat} (x : Exec N) (he : EnvOK init (calls x.ev N)) :
    ∃ seen : Nat → Nat, ∀ j t v, j < N → x.ev j = some (.load t v) →
      v = usageAfter ((calls x.ev N).take (seen j)) ∧ seen j ≤ (calls x.ev j).length ∧
      (∀ i p, x.ev i = some (.ret p) → HappensBefore x.sync i j → (calls x.ev i).length ≤ seen j) ∧
      (∀ i u v', x.ev i = some (.load u v') → HappensBefore x.sync i j → seen i ≤ seen j ∧ v' ≤ v) := by
  refine ⟨fun j => match x.ev j with
    | some (.load _ v) => x.seen j v
    | _ => 0, fun j t v hj h => ?_⟩
  have hval := load_known hj h
  have below : ∀ k, k ≤ (calls x.ev j).length → usageAfter ((calls x.ev N).take k) ≤ v → k ≤ x.seen j v :=
    fun k hk hu => Nat.le_findGreatest hk hu
  simp only [h]
  refine ⟨(seen_eq he hj h).symm, Nat.findGreatest_le _, fun i p hi hb => ?_, fun i u v' hi hb => ?_⟩
  · obtain ⟨hiN, _, hle⟩ := known_mono he hb
    have hlt := hb.lt
    have hr := mods_later he (j := j) (by omega) (by omega) (ret_known he hiN hi)
    obtain ⟨r, hpre⟩ := calls_prefix x.ev (i := i) (j := j) (by omega)
    have hlen : (calls x.ev i).length ≤ (calls x.ev j).length := by rw [hpre, List.length_append]; omega
    refine below _ hlen ?_
    rw [calls_take x (by omega) (Nat.le_refl _), List.take_length]
    exact sorted_get (good_at he j (by omega)).sorted hle hr hval
  · obtain ⟨hiN, _, hle⟩ := known_mono he hb
    have hlt := hb.lt
    have hr := mods_later he (j := j) (by omega) (by omega) (load_known hiN hi)
    have hv := sorted_get (good_at he j (by omega)).sorted hle hr hval
    obtain ⟨r, hpre⟩ := calls_prefix x.ev (i := i) (j := j) (by omega)
    have hlen : (calls x.ev i).length ≤ (calls x.ev j).length := by rw [hpre, List.length_append]; omega
    simp only [hi]
    refine ⟨below _ (Nat.le_trans (Nat.findGreatest_le _) hlen) ?_, hv⟩
    rw [seen_eq he hiN hi]
    exact hv

/-- C111: when a load happens after the return of every call that was begun, it returns the usage after all of them; in particular
what the allocating thread itself reads is exact. -/
theorem C111_exact {N : Nat} (x : Exec N) (he : EnvOK init (calls x.ev N)) {i j : Nat} {p : Option Nat} {t : Tid} {v : Nat} (hj : j < N)
    (hi : x.ev i = some (.ret p)) (hl : x.ev j = some (.load t v)) (hb : HappensBefore x.sync i j) (hc : calls x.ev j = calls x.ev i) :
    v = usageAfter (calls x.ev j) := by
  obtain ⟨seen, hs⟩ := C111_read x he
  obtain ⟨h1, h2, h3, _⟩ := hs j t v hj hl
  have h4 := h3 i p hi hb
  rw [← hc] at h4
  rw [h1, calls_take x (by omega) h2, Nat.le_antisymm h2 h4, List.take_length]

/-- C111: no assertion of the allocating thread fails while others read. -/
theorem C111_no_fault {N : Nat} (x : Exec N) (he : EnvOK init (calls x.ev N)) {n : Nat} (hn : n ≤ N) : (x.w n).pc ≠ some .fault := by
  obtain ⟨last, _, hp⟩ := (good_at he n hn).pos
  intro h
  rcases hp with ⟨hp, _⟩ | ⟨_, _, hp, _⟩ | ⟨_, _, _, hp, _⟩ <;> · rw [h] at hp; cases hp

namespace Example111

/-- Thread 0 allocates 100 bytes and tells thread 1; thread 1 reads before it hears of it, and after. -/
def ev : Nat → Option Ev
  | 0 => some (.call ⟨100, false⟩ (some 8))
  | 2 => some (.ret (some 8))
  | 3 => some (.load 1 0)
  | 4 => some (.send 0)
  | 5 => some (.receive 1 0)
  | 6 => some (.load 1 4104)
  | _ => none

def w1 : World := { World.init with pc := some (.add 4104 (.ret (some 8) ⟨108, 3996, [(8, 4096)]⟩)) }
def w2 : World := { w1 with pc := some (.ret (some 8) ⟨108, 3996, [(8, 4096)]⟩), mods := [0] ++ [0 + 4104] }.see 0 1
def w3 : World := { w2 with pc := none, mem := ⟨108, 3996, [(8, 4096)]⟩ }
def w4 : World := w3.see 1 0
def w5 : World := { w4 with sent := [] ++ [1] }
def w6 : World := w5.see 1 1
def w7 : World := w6.see 1 1

def w : Nat → World
  | 0 => World.init
  | 1 => w1
  | 2 => w2
  | 3 => w3
  | 4 => w4
  | 5 => w5
  | 6 => w6
  | _ => w7

theorem step : ∀ i, i < 7 → Step (w i) (ev i) (w (i + 1))
  | 0, _ => .call ⟨100, false⟩ (some 8) rfl
  | 1, _ => .add (w := w1) rfl rfl
  | 2, _ => .ret (w := w2) rfl
  | 3, _ => .load (w := w3) (t := 1) (m := 0) (fun _ => rfl) (Nat.le_refl _) rfl
  | 4, _ => .send (w := w4) (t := 0) (fun _ => rfl)
  | 5, _ => .receive (w := w5) (t := 1) (i := 0) (m := 1) (fun _ => rfl) rfl
  | 6, _ => .load (w := w6) (t := 1) (m := 1) (fun _ => rfl) (Nat.le_refl _) rfl
  | n + 7, h => absurd h (by omega)

def x : Exec 7 := ⟨w, ev, rfl, step⟩

theorem envOK : EnvOK init (calls x.ev 7) := by
  refine ⟨⟨by decide, by decide⟩, fun a h => ?_, ?_⟩
  · cases h
    exact ⟨rfl, fun b hb => absurd hb (by simp [init])⟩
  · trivial

theorem before : HappensBefore x.sync 2 6 :=
  .trans (.program (t := 0) (j := 4) (by decide) ⟨by decide, rfl⟩ ⟨by decide, rfl⟩)
    (.trans (.mutex (m := 0) (j := 5) (by decide) ⟨by decide, ⟨0, rfl⟩, rfl⟩ ⟨by decide, 1, rfl⟩)
      (.program (t := 1) (by decide) ⟨by decide, rfl⟩ ⟨by decide, rfl⟩))

end Example111

/-- The hypotheses of `C111_exact` are met: the second load is exact; the first one, which nothing orders after the call, is not. -/
example : EnvOK init (calls Example111.x.ev 7) ∧ HappensBefore Example111.x.sync 2 6 ∧ Example111.x.ev 2 = some (.ret (some 8)) ∧
    Example111.x.ev 3 = some (.load 1 0) ∧ Example111.x.ev 6 = some (.load 1 4104) ∧ usageAfter (calls Example111.x.ev 6) = 4104 ∧
    calls Example111.x.ev 6 = calls Example111.x.ev 2 :=
  ⟨Example111.envOK, Example111.before, rfl, rfl, rfl, rfl, rfl⟩

end ArenaConc
end Lsmdb
