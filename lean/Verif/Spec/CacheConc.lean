import Verif.Model.CacheConc
import Verif.Spec.Cache

/-!
# What the clients of a shared cache can rely on

A history is the list of calls and returns in the order in which they happen, newest first.
-/

namespace Lsmdb
namespace CacheConc
open Cache Spec

abbrev Hist := List Ev

/-- The call that thread `t` is in. -/
def pending : Hist → Tid → Option Call
  | [], _ => none
  | .call u c :: H, t => if u = t then some c else pending H t
  | .ret u _ :: H, t => if u = t then none else pending H t

/-- How often a call returned the handle. -/
def got : Hist → Handle → Nat
  | [], _ => 0
  | .ret _ (.handle x) :: H, h => got H h + if x = some h then 1 else 0
  | _ :: H, h => got H h

/-- How often `Release` was called for the handle. -/
def begun : Hist → Handle → Nat
  | [], _ => 0
  | .call _ (.release x) :: H, h => begun H h + if x = h then 1 else 0
  | _ :: H, h => begun H h

/-- The rules for clients: Slices point at readable memory; `Release` and `Value` are called with a handle that some call has
returned and of which a reference is left; while a thread is in `Value`, one reference is kept. -/
def Permitted (H : Hist) : Call → Prop
  | .insert k _ _ _ => k.WF
  | .lookup k => k.WF
  | .erase k => k.WF
  | .release h => begun H h < got H h ∧ ∀ t, pending H t = some (.value h) → begun H h + 1 < got H h
  | .value h => begun H h < got H h
  | _ => True

/-- Runs of any number of threads on a new cache, with clients that follow the rules. -/
inductive Run (hf : Slice → M UInt32) (body : Method → Prog Shard MRes) (capacity : UInt64) : World → Hist → Prop
  | init {c : Sharded} (h : newSharded capacity = .ok c) : Run hf body capacity ⟨c, fun _ => none, none, fun _ => .idle⟩ []
  | internal {w w' : World} {H : Hist} (r : Run hf body capacity w H) (s : Step hf body w none w') : Run hf body capacity w' H
  | call {w w' : World} {H : Hist} {t : Tid} {c : Call} (r : Run hf body capacity w H) (s : Step hf body w (some (.call t c)) w')
      (p : Permitted H c) : Run hf body capacity w' (.call t c :: H)
  | ret {w w' : World} {H : Hist} {t : Tid} {x : Res} (r : Run hf body capacity w H) (s : Step hf body w (some (.ret t x)) w') :
      Run hf body capacity w' (.ret t x :: H)

/-- The continuation of a run, with `P` at every moment. -/
inductive Path (hf : Slice → M UInt32) (body : Method → Prog Shard MRes) (P : World → Prop) (w0 : World) (H0 : Hist) :
    World → Hist → Prop
  | start (h : P w0) : Path hf body P w0 H0 w0 H0
  | internal {w w' : World} {H : Hist} (r : Path hf body P w0 H0 w H) (s : Step hf body w none w') (h : P w') :
      Path hf body P w0 H0 w' H
  | call {w w' : World} {H : Hist} {t : Tid} {c : Call} (r : Path hf body P w0 H0 w H) (s : Step hf body w (some (.call t c)) w')
      (p : Permitted H c) (h : P w') : Path hf body P w0 H0 w' (.call t c :: H)
  | ret {w w' : World} {H : Hist} {t : Tid} {x : Res} (r : Path hf body P w0 H0 w H) (s : Step hf body w (some (.ret t x)) w')
      (h : P w') : Path hf body P w0 H0 w' (.ret t x :: H)

/-! ## Bodies

The theorems hold for every way to cut the methods into steps that satisfies the following two conditions; `code` is one. -/

/-- The steps of each body together do what the method does when it runs alone. -/
def Implements (body : Method → Prog Shard MRes) : Prop := ∀ m s, (body m).run s = m.run s

/-- `s'` is a state in which `p`, started in `s`, can be interrupted. -/
inductive Mid : Prog Shard MRes → Shard → Shard → Prop
  | here (p : Prog Shard MRes) (s : Shard) : Mid p s s
  | step {β : Type} {f : Shard → M (Shard × β)} {next : β → Prog Shard MRes} {s s1 s2 : Shard} {b : β}
      (e : f s = .ok (s1, b)) (h : Mid (next b) s1 s2) : Mid (.step f next) s s2

/-- In the middle of a body, an entry that is there before and after it is there, with the same hash and value. -/
def Steady (body : Method → Prog Shard MRes) : Prop :=
  ∀ m s s1 s2 r, Mid (body m) s s1 → (body m).run s = .ok (s2, r) → ∀ a, a < s.heap.fresh → s2.heap.live a = true →
    s1.heap.live a = true ∧ s1.heap.hash a = s.heap.hash a ∧ s1.heap.value a = s.heap.value a

/-- The record of the deleter runs only grows, in every step of a body. -/
def Recorded (body : Method → Prog Shard MRes) : Prop :=
  ∀ m s s1 s2 r, Mid (body m) s s1 → (body m).run s = .ok (s2, r) → s.log <+: s1.log ∧ s1.log <+: s2.log

/-! ## The atomic cache

A cache in which every call takes effect at one moment between its call and its return; `Prune` and `TotalCharge` visit one shard
after the other, each at one moment. -/

/-- What happens at a moment. -/
inductive Effect where
  /-- the call has its effect and its result is fixed -/
  | op (e : CEvent)
  /-- the value of the handle is read -/
  | value (h : Handle) (v : Nat)
  /-- an id is taken -/
  | id (n : UInt64)
  /-- the charge of shard `i` is read -/
  | charge (i : Nat) (n : UInt64)

/-- The effects of a complete call, in order, and its result. -/
def Complete : Call → List Effect → Res → Prop
  | .insert k v ch d, es, r => ∃ h, es = [.op ⟨.insert k v ch d, some h⟩] ∧ r = .handle (some h)
  | .lookup k, es, r => ∃ x, es = [.op ⟨.lookup k, x⟩] ∧ r = .handle x
  | .release h, es, r => es = [.op ⟨.release h, none⟩] ∧ r = .unit
  | .erase k, es, r => es = [.op ⟨.erase k, none⟩] ∧ r = .unit
  | .value h, es, r => ∃ v, es = [.value h v] ∧ r = .value v
  | .newId, es, r => ∃ n, es = [.id n] ∧ r = .id n
  | .prune, es, r => es = (List.range 16).map (fun i => Effect.op ⟨.pruneShard i, none⟩) ∧ r = .unit
  | .totalCharge, es, r => ∃ n : Nat → UInt64, es = (List.range 16).map (fun i => Effect.charge i (n i)) ∧
      r = .charge (((List.range 16).map n).foldl (· + ·) 0)

/-- The effect may come next in a call that has had the effects `es`. -/
def Next (c : Call) (es : List Effect) (e : Effect) : Prop := ∃ es' r, Complete c (es ++ e :: es') r

/-- The cache, the calls on it so far (in the order of their effects, newest first), the last id, and for each thread in a call the
effects of that call so far. -/
structure Atom where
  cache : Sharded
  tr : CTrace
  lastId : UInt64
  now : Tid → Option (Call × List Effect)

/-- Thread `t` changes. -/
def Atom.at (a : Atom) (t : Tid) (x : Option (Call × List Effect)) : Atom :=
  { a with now := fun u => if u = t then x else a.now u }

/-- The effect on the cache. -/
inductive Occurs (hf : Slice → M UInt32) (a : Atom) : Effect → Atom → Prop
  | op {o : COp} {c' : Sharded} {x : Option Handle} (ha : Allowed a.tr o) (e : cstep hf a.cache o = .ok (c', x)) :
      Occurs hf a (.op ⟨o, x⟩) { a with cache := c', tr := ⟨o, x⟩ :: a.tr }
  | value {h : Handle} {v : Nat} (ho : 0 < outstanding a.tr h) (e : Sharded.Value a.cache h = .ok v) : Occurs hf a (.value h v) a
  | id : Occurs hf a (.id (a.lastId + 1)) { a with lastId := a.lastId + 1 }
  | charge {i : Nat} {s : Shard} (hs : a.cache.shards[i]? = some s) : Occurs hf a (.charge i (TotalCharge s)) a

/-- Runs of the atomic cache. -/
inductive Atomic (hf : Slice → M UInt32) (capacity : UInt64) : Atom → Hist → Prop
  | init {c : Sharded} (h : newSharded capacity = .ok c) : Atomic hf capacity ⟨c, [], 0, fun _ => none⟩ []
  | call {a : Atom} {H : Hist} {t : Tid} {c : Call} (r : Atomic hf capacity a H) (h : a.now t = none) :
      Atomic hf capacity (a.at t (some (c, []))) (.call t c :: H)
  | effect {a a' : Atom} {H : Hist} {t : Tid} {c : Call} {es : List Effect} {e : Effect} (r : Atomic hf capacity a H)
      (h : a.now t = some (c, es)) (n : Next c es e) (o : Occurs hf a e a') :
      Atomic hf capacity (a'.at t (some (c, es ++ [e]))) H
  | ret {a : Atom} {H : Hist} {t : Tid} {c : Call} {es : List Effect} {x : Res} (r : Atomic hf capacity a H)
      (h : a.now t = some (c, es)) (d : Complete c es x) : Atomic hf capacity (a.at t none) (.ret t x :: H)

/-! ## What a history says -/

/-- The call that thread `t` is in, and the history before that call. -/
def pendingAt : Hist → Tid → Option (Call × Hist)
  | [], _ => none
  | .call u c :: H, t => if u = t then some (c, H) else pendingAt H t
  | .ret u _ :: H, t => if u = t then none else pendingAt H t

/-- A call `c`, made when the history was `H0`, has returned `x`. -/
inductive Returned : Hist → Call → Hist → Res → Prop
  | now {H : Hist} {t : Tid} {x : Res} {c : Call} {H0 : Hist} (p : pendingAt H t = some (c, H0)) : Returned (.ret t x :: H) c H0 x
  | before {H : Hist} {e : Ev} {x : Res} {c : Call} {H0 : Hist} (r : Returned H c H0 x) : Returned (e :: H) c H0 x

/-- The call sets or removes the entry of the key. -/
def Writes (kb : Bytes) : Call → Prop
  | .insert k _ _ _ => k.bytes = kb
  | .erase k => k.bytes = kb
  | _ => False

/-- The handle was known to some client, then a call that sets or removes the entry of the key began, and that call has returned. -/
def Stale (H : Hist) (kb : Bytes) (h : Handle) : Prop := ∃ c H0 x, Returned H c H0 x ∧ Writes kb c ∧ 0 < got H0 h

/-- The handles that the calls of `Insert` have returned. -/
def newHandles : Hist → List Handle
  | [] => []
  | .ret t (.handle (some h)) :: H =>
    match pending H t with
    | some (.insert _ _ _ _) => h :: newHandles H
    | _ => newHandles H
  | _ :: H => newHandles H

/-- The ids that the calls of `NewId` have returned. -/
def newIds : Hist → List UInt64
  | [] => []
  | .ret _ (.id n) :: H => n :: newIds H
  | _ :: H => newIds H

/-- The call can change the total charge. -/
def Changes : Call → Prop
  | .insert _ _ _ _ => True
  | .erase _ => True
  | .prune => True
  | _ => False

/-- Since thread `t` began the call it is in, no call that can change the total charge was in progress. -/
def Undisturbed : Hist → Tid → Prop
  | [], _ => False
  | .call u c :: H, t => if u = t then ∀ v c', pending H v = some c' → ¬ Changes c' else ¬ Changes c ∧ Undisturbed H t
  | .ret u _ :: H, t => u ≠ t ∧ Undisturbed H t

/-- No thread is in a call. -/
def Quiet (w : World) : Prop := ∀ t, w.pc t = .idle

end CacheConc
end Lsmdb
