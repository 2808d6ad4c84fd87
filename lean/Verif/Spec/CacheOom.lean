import Verif.Model.CacheOom
import Verif.Spec.Cache

/-!
# The cache when memory runs out (C88)
-/

namespace Lsmdb.Spec
open Cache

/-- A call and what came of it: `none`: it threw; otherwise the handle it returned, if any. -/
structure OEvent where
  op : COp
  outcome : Option (Option Handle)

/-- The calls so far, newest first. -/
abbrev OTrace := List OEvent

/-- The calls that did not throw. -/
def completed : OTrace → CTrace
  | [] => []
  | ⟨op, some r⟩ :: tr => ⟨op, r⟩ :: completed tr
  | ⟨_, none⟩ :: tr => completed tr

/-- The values the key may have: that of the last Insert of it that returned and those of the Inserts of it that threw since; none
of these after an Erase. -/
def mayHold : OTrace → Bytes → List Nat
  | [], _ => []
  | ⟨.insert k v _ _, some _⟩ :: tr, kb => if k.bytes = kb then [v] else mayHold tr kb
  | ⟨.insert k v _ _, none⟩ :: tr, kb => if k.bytes = kb then v :: mayHold tr kb else mayHold tr kb
  | ⟨.erase k, _⟩ :: tr, kb => if k.bytes = kb then [] else mayHold tr kb
  | _ :: tr, kb => mayHold tr kb

/-- No Insert of the key has thrown since it was last inserted or erased. -/
def Undisturbed : OTrace → Bytes → Prop
  | [], _ => True
  | ⟨.insert k _ _ _, some _⟩ :: tr, kb => k.bytes = kb ∨ Undisturbed tr kb
  | ⟨.insert k _ _ _, none⟩ :: tr, kb => k.bytes ≠ kb ∧ Undisturbed tr kb
  | ⟨.erase k, _⟩ :: tr, kb => k.bytes = kb ∨ Undisturbed tr kb
  | _ :: tr, kb => Undisturbed tr kb

/-- The rules of `Allowed`, for clients that catch exceptions: handles come from calls that returned; keys whose Insert threw may be in
use. -/
def AllowedO (tr : OTrace) : COp → Prop
  | .insert k _ _ _ => k.WF ∧ ∀ ks : List Bytes, ks.Nodup → (∀ k ∈ ks, mayHold tr k ≠ []) → ks.length < 2 ^ 31
  | .lookup k => k.WF ∧ ∀ h, outstanding (completed tr) h + 4 ≤ 2 ^ 32
  | .release h => released (completed tr) h < obtained (completed tr) h
  | .erase k => k.WF
  | .pruneShard i => i < 16

/-- One call, with the allocations that fail. -/
def cstepO (hf : Slice → M UInt32) (c : Sharded) (op : COp) (o : Oom) : M (Sharded × Option (Option Handle)) :=
  match op with
  | .insert k v ch d => do
    let (c, h) ← Sharded.InsertO hf c k v ch d o
    return (c, h.map some)
  | op => do
    let (c, r) ← cstep hf c op
    return (c, some r)

/-- `c` is the state of a cache created with the given capacity after the calls in `tr`, every one of them allowed, whatever
allocations failed in them. -/
inductive ReachO (hf : Slice → M UInt32) (capacity : UInt64) : Sharded → OTrace → Prop where
  | init {c} : newSharded capacity = .ok c → ReachO hf capacity c []
  | step {c tr op o c' r} : ReachO hf capacity c tr → AllowedO tr op → cstepO hf c op o = .ok (c', r) →
      ReachO hf capacity c' (⟨op, r⟩ :: tr)

/-- The same, from a given state on. -/
inductive LaterO (hf : Slice → M UInt32) (c0 : Sharded) (tr0 : OTrace) : Sharded → OTrace → Prop where
  | here : LaterO hf c0 tr0 c0 tr0
  | step {c tr op o c' r} : LaterO hf c0 tr0 c tr → AllowedO tr op → cstepO hf c op o = .ok (c', r) →
      LaterO hf c0 tr0 c' (⟨op, r⟩ :: tr)

end Lsmdb.Spec
