import Verif.Model.CacheReent

/-!
# Deleters that use the cache (C105)
-/

namespace Lsmdb
namespace CacheReent
open Cache CacheConc

/-- What happens after, in any number of steps. -/
inductive Later (hf : Slice → M UInt32) (react : Nat → Deletion → Script) (w : World) : World → Prop
  | refl : Later hf react w w
  | step {w' w'' : World} {t : Tid} (h : Later hf react w w') (s : Step hf react w' t w'') : Later hf react w w''

/-- A new cache, any number of threads, none of them in the cache. -/
def Fresh (capacity : UInt64) (w : World) : Prop :=
  newSharded capacity = .ok w.cache ∧ (∀ i, w.owner i = none) ∧ w.idOwner = none ∧ ∀ t, w.stk t = []

/-- The level is in a method of shard `i` and holds its mutex. -/
def Level.holds (i : Nat) (l : Level) : Prop := ∃ m p a k, l = .busy (.inside i m p a) k

/-- The thread waits for the mutex of shard `i`. -/
def World.wants (w : World) (t : Tid) (i : Nat) : Prop := ∃ m a k rest, w.stk t = .busy (.enter i m a) k :: rest

/-- The thread waits for a mutex that somebody holds. -/
def World.blocked (w : World) (t : Tid) : Prop :=
  (∃ i, w.wants t i ∧ w.owner i ≠ none) ∨ ((∃ k rest, w.stk t = .busy .idEnter k :: rest) ∧ w.idOwner ≠ none)

/-- The call uses only shards with `P`. -/
def About (hf : Slice → M UInt32) (P : Nat → Prop) : Call → Prop
  | .insert k _ _ _ => ∀ h, hf k = .ok h → P (shardIndex h)
  | .lookup k => ∀ h, hf k = .ok h → P (shardIndex h)
  | .erase k => ∀ h, hf k = .ok h → P (shardIndex h)
  | .release h => P h.shard
  | .value _ => True
  | .newId => True
  | .prune => ∀ i, i < kNumShards → P i
  | .totalCharge => ∀ i, i < kNumShards → P i

/-- All calls the code makes do. -/
def Script.About (hf : Slice → M UInt32) (P : Nat → Prop) : Script → Prop
  | .done => True
  | .call c k => CacheReent.About hf P c ∧ ∀ r, (k r).About hf P

/-- Deleters use only larger shards than the one of their entry. -/
def Upward (hf : Slice → M UInt32) (react : Nat → Deletion → Script) : Prop := ∀ i d, (react i d).About hf (i < ·)

/-- A set of threads each of which waits for one in the set. -/
def Circle (w : World) (S : Tid → Prop) : Prop := ∀ t, S t → ∃ i u, w.wants t i ∧ w.owner i = some u ∧ S u

/-- The next step of the thread is undefined behaviour or a failed assertion. -/
def World.faulty (hf : Slice → M UInt32) (w : World) (t : Tid) : Prop :=
  ∃ p k rest, w.stk t = .busy p k :: rest ∧ CacheConc.Faulty hf (w.seen t p)

/-- The call uses shard `i`. -/
def Uses (hf : Slice → M UInt32) (i : Nat) : Call → Prop
  | .insert k _ _ _ => ∃ h, hf k = .ok h ∧ shardIndex h = i
  | .lookup k => ∃ h, hf k = .ok h ∧ shardIndex h = i
  | .erase k => ∃ h, hf k = .ok h ∧ shardIndex h = i
  | .release h => h.shard = i
  | .value _ => False
  | .newId => False
  | .prune => i < kNumShards
  | .totalCharge => i < kNumShards

end CacheReent
end Lsmdb
