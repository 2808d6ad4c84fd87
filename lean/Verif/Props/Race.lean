import Verif.Proof.MemRace3
import Verif.Proof.CacheRace2
import Verif.Props.MemEnvConc
import Verif.Props.CacheConc

/-!
# C84: no data races

What a statement reads and writes is defined by what it does (`Spec/Race.lean`).
-/

namespace Lsmdb

namespace MemConc
open MemEnv
open CacheConc (Tid)

/-- C84: in no run of the in-memory Env are two threads ever about to access the same memory (the map of names, the reference count of a
file, the blocks and size of a file, the members of a file object, a mutex) where one of them writes or frees it. -/
theorem C84_memenv_no_race {w : World} {H : Hist} (r : Run w H) (d : Disciplined H) : ¬ DataRace w :=
  no_race r fun r' => C81_no_fault r' d

/-! ### The hypotheses are met -/

/-- What a thread is about to do. -/
def nextStep (w : World) (t : Tid) : Option ((β : Type) × (Env → M (Env × β))) := match w.pc t with
  | .run (.act (β := β) f _) => some ⟨β, f⟩
  | _ => none

theorem nextStep_act {w : World} {t : Tid} {β : Type} {f : Env → M (Env × β)} (h : nextStep w t = some ⟨β, f⟩) :
    ∃ next, w.pc t = .run (.act f next) := by
  unfold nextStep at h
  split at h
  · rename_i p
    injection h with h
    injection h with h1 h2
    subst h1
    cases h2
    exact ⟨_, p⟩
  · cases h

/-- As `sizeMoves`, one step of thread 1 earlier. -/
def raceMoves : List Move :=
  .call 1 (.newWritable [97]) :: go 1 13 ++ .call 1 (.append 0 bytes3) :: .call 2 (.getFileSize [97]) :: go 1 2 ++ go 2 3

theorem raceRun : ∃ w, play World.init [] raceMoves = some (w, sizeHist) ∧ w.owner .env = some 2 ∧
    (∃ next, w.pc 1 = .run (.act (onContent 0 makeRoom) next)) ∧ w.env.files = [some ⟨2, [], 0⟩] := by
  obtain ⟨w, h1, h2⟩ := play_of (α := Option Tid × Option ((β : Type) × (Env → M (Env × β))) × List (Option FileState)) (ms := raceMoves) (w0 := World.init) (H0 := []) (H := sizeHist)
    (f := fun w => (w.owner .env, nextStep w 1, w.env.files))
    (y := (some 2, some (Sigma.mk (Nat × Nat) (onContent 0 makeRoom)), [some (FileState.mk 2 [] 0)])) rfl
  injection h2 with h2 h3
  injection h3 with h3 h4
  exact ⟨w, h1, h2, nextStep_act h3, h4⟩

/-- One thread is about to change the content of a file, with `blocks_mutex_`, while another is inside `GetFileSize` of that file. -/
example : ∃ w, Run w sizeHist ∧ Disciplined sizeHist ∧ WritesNext w 1 (.content 0) ∧ w.owner .env = some 2 := by
  obtain ⟨w, h, h2, ⟨n, h4⟩, h5⟩ := raceRun
  refine ⟨w, (play_run .init h sizeHist_permitted).1, sizeHist_careful.disciplined sizeHist_permitted, ?_, h2⟩
  refine .act h4 ⟨w.env, { w.env with files := [some ⟨2, [List.replicate kBlockSize none], 0⟩] }, (0, kBlockSize), ⟨rfl, fun _ _ => rfl⟩, ?_, ?_⟩
  · simp [onContent, getFile, h5, makeRoom, setFile, bind, Except.bind, pure, Except.pure]
  · simp [memory, valueAt, fileAt, h5]

/-- Without the mutexes the definition has a race: two threads that both decrement the reference count. -/
def twoUnrefs : World :=
  ⟨{ Env.init with files := [some ⟨2, [], 0⟩] }, true, fun _ => none,
    fun t => if t = 1 ∨ t = 2 then .run (.act (decRefs 0) fun _ => .ret .unit) else .idle⟩

example : DataRace twoUnrefs := by
  have h : ∀ t, t = 1 ∨ t = 2 → WritesNext twoUnrefs t (.refs 0) := fun t ht =>
    .act (if_pos ht) ⟨twoUnrefs.env, { twoUnrefs.env with files := [some ⟨1, [], 0⟩] }, (), ⟨rfl, fun _ _ => rfl⟩, rfl, by
      simp [memory, valueAt, fileAt, twoUnrefs]⟩
  exact ⟨1, 2, .refs 0, by decide, h 1 (.inl rfl), .inr (h 2 (.inr rfl))⟩

end MemConc

namespace CacheConc
open Cache Spec Props

/-- C84: in no run of the cache are two threads ever about to access the same memory where one of them writes or frees it; handles are
read without a mutex (`Value`, and the `hash` in `Release`) while other threads change the shard. -/
theorem C84_cache_no_race {hf : Slice → M UInt32} {capacity : UInt64} {w : World} {H : Hist} (hH : HashFn hf)
    (r : Run hf code capacity w H) (hlen : H.length < 2 ^ 31) : ¬ Race.DataRace w := Race.no_race hH r hlen

/-! ### The hypotheses are met -/

theorem race_run : ∃ w, Run HashSlice code 1600 w (.call 1 (.erase keyA) :: .call 2 (.value ⟨12, 0⟩) :: tornBefore) ∧
    w.pc 2 = .readValue ⟨12, 0⟩ ∧ w.pc 1 = .inside 12 (.erase keyA hashA) (code (.erase keyA hashA)) .unit := by
  obtain ⟨s0, s1, s2, s3, s4, e0, e1, e2, e3, e4, u0, u1, u2, u3⟩ := torn_shards
  obtain ⟨hA, hB, iA, iB⟩ := hashes
  have hc : newSharded 1600 = .ok ⟨List.replicate 16 s0, 0⟩ := by
    unfold newSharded
    rw [e0]; rfl
  have rep : (List.replicate 16 s0)[12]? = some s0 := by
    rw [List.getElem?_replicate, if_pos (by decide)]
  have q0 := Path.start (hf := HashSlice) (body := code) (P := fun _ => True)
    (w0 := ⟨⟨List.replicate 16 s0, 0⟩, fun _ => none, none, fun _ => .idle⟩) (H0 := []) trivial
  have q1 := Path.insert (t := 2) code_implements q0 rfl (k := keyA) (by decide) hA rfl (by rw [iA]; exact rep) e1 (fun _ _ => trivial)
  rw [iA] at q1
  have r1 := q1.run (.init hc)
  have r2 := Run.call r1 (.call (t := 2) (.value ⟨12, 0⟩) rfl) (show begun _ _ < got _ _ by decide)
  have r3 := Run.call r2 (.call (t := 1) (.erase keyA) rfl) (show keyA.WF by decide)
  have r4 := Run.internal r3 (.hash (t := 1) rfl rfl hA)
  rw [show dispatch hashA (.erase keyA) = .enter 12 (.erase keyA hashA) .unit by simp [dispatch, iA]] at r4
  have r5 := Run.internal r4 (.lock (t := 1) rfl (by simp [World.at, World.to, setShard]) rfl)
  exact ⟨_, r5, rfl, rfl⟩

/-- One thread is about to read the value of an entry through its handle, without a mutex, while another is erasing the entry. -/
example : ∃ w H, Run HashSlice code 1600 w H ∧ H.length < 2 ^ 31 ∧ Race.ReadsNext w 2 (.value 12 0) ∧
    w.pc 1 = .inside 12 (.erase keyA hashA) (code (.erase keyA hashA)) .unit := by
  obtain ⟨w, r, h2, h1⟩ := race_run
  exact ⟨w, _, r, by decide, .value h2, h1⟩

/-- Without `id_mutex_` the definition has a race: two threads that both increment `last_id_`. -/
example : Race.DataRace ⟨⟨[], 0⟩, fun _ => none, none, fun _ => .idInside⟩ := ⟨1, 2, .lastId, by decide, .id rfl, .inr (.id rfl)⟩

end CacheConc

end Lsmdb
