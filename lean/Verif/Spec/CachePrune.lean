import Verif.Spec.CacheConc

/-!
# Words for what clients of a shared cache know about an entry
-/

namespace Lsmdb
namespace CacheConc
open Cache Spec

/-- How many calls that set or remove the entry of the key were made. -/
def writeCalls : Hist → Bytes → Nat
  | [], _ => 0
  | .call _ (.insert k _ _ _) :: H, kb => writeCalls H kb + if k.bytes = kb then 1 else 0
  | .call _ (.erase k) :: H, kb => writeCalls H kb + if k.bytes = kb then 1 else 0
  | _ :: H, kb => writeCalls H kb

/-- How many Lookups of the key were made. -/
def lookupCalls : Hist → Bytes → Nat
  | [], _ => 0
  | .call _ (.lookup k) :: H, kb => lookupCalls H kb + if k.bytes = kb then 1 else 0
  | _ :: H, kb => lookupCalls H kb

/-- A call was made when the history was `H1`; it sets or removes the entry of the key, and no other call that does so was in progress
then or was made since. -/
def OnlyWriter (H1 H : Hist) (kb : Bytes) : Prop :=
  (∀ u c, pending H1 u = some c → ¬ Writes kb c) ∧ writeCalls H kb = writeCalls H1 kb + 1

/-- All references to the entry have been given back: for each there was a Release, and it has returned. -/
def GivenBack (H : Hist) (h : Handle) : Prop := begun H h = got H h ∧ ∀ u, pending H u ≠ some (.release h)

/-- No Lookup of the key was in progress when the history was `H0`, and none was made since. -/
def NoLookup (H0 H : Hist) (kb : Bytes) : Prop :=
  (∀ u k, pending H0 u = some (.lookup k) → k.bytes ≠ kb) ∧ lookupCalls H kb = lookupCalls H0 kb

end CacheConc
end Lsmdb
