import Verif.Model.CacheConc

/-!
# The cache with deleters that use it (util/cache.cc)

`Unref` runs the deleter of an entry while it holds the mutex of the shard (util/cache.cc:261-273; all its callers hold it,
util/cache.cc:301, 308, 369, 374).  The deleter is the client's code (`std::function`, include/lsmdb/cache.h:41-43) and may call the cache: the
thread is then in several calls, one within the other.  `std::mutex` is not recursive (port/port_stdcxx.h:37-56).
-/

namespace Lsmdb
namespace CacheReent
open Cache CacheConc

/-- Code of a client, or of a deleter: calls of the cache one after the other; what comes next may depend on the answers. -/
inductive Script where
  | done
  | call (c : Call) (k : Res → Script)

/-- One level of the stack of a thread: code about to go on, or in a call of the cache (`p` as in `Model/CacheConc`). -/
inductive Level : Type 1 where
  | ready (s : Script)
  | busy (p : Pc) (k : Res → Script)

/-- The cache, who holds the mutexes, and the stacks of the threads, innermost level first; an empty stack: outside of the cache. -/
structure World : Type 1 where
  cache : Sharded
  owner : Nat → Option Tid
  idOwner : Option Tid
  stk : Tid → List Level

/-- The stack of a thread changes. -/
def World.put (w : World) (t : Tid) (l : List Level) : World := { w with stk := fun u => if u = t then l else w.stk u }

/-- What a call at `p` sees, as in `Model/CacheConc`. -/
def World.seen (w : World) (t : Tid) (p : Pc) : CacheConc.World := ⟨w.cache, w.owner, w.idOwner, fun u => if u = t then p else .idle⟩

/-- No deleter runs in this step. -/
def NoDeleter (c c' : Sharded) : Prop := ∀ i : Nat, (c'.shards[i]?).map (·.log) = (c.shards[i]?).map (·.log)

/-- A deleter runs in shard `i`. -/
def Deletes (c c' : Sharded) (i : Nat) (d : Deletion) : Prop :=
  ∃ s s', c.shards[i]? = some s ∧ c'.shards[i]? = some s' ∧ s'.log = s.log ++ [d]

/-- After a step of a call. -/
def World.after (w : World) (t : Tid) (w' : CacheConc.World) (k : Res → Script) (rest : List Level) : World :=
  ⟨w'.cache, w'.owner, w'.idOwner, fun u => if u = t then .busy (w'.pc t) k :: rest else w.stk u⟩

/-- One step of thread `t`.  `react i d`: the code of the deleter of the entry `d` of shard `i`. -/
inductive Step (hf : Slice → M UInt32) (react : Nat → Deletion → Script) : World → Tid → World → Prop
  /-- a client starts to use the cache -/
  | client {w : World} {t : Tid} (s : Script) (h : w.stk t = []) : Step hf react w t (w.put t [.ready s])
  /-- it, or a deleter, makes a call -/
  | call {w : World} {t : Tid} {c : Call} {k : Res → Script} {rest : List Level} (h : w.stk t = .ready (.call c k) :: rest) :
      Step hf react w t (w.put t (.busy (begin c) k :: rest))
  /-- the call returns -/
  | ret {w : World} {t : Tid} {r : Res} {k : Res → Script} {rest : List Level} (h : w.stk t = .busy (.leave r) k :: rest) :
      Step hf react w t (w.put t (.ready (k r) :: rest))
  /-- the client, or the deleter, is done -/
  | back {w : World} {t : Tid} {rest : List Level} (h : w.stk t = .ready .done :: rest) : Step hf react w t (w.put t rest)
  /-- a step of a call -/
  | work {w : World} {t : Tid} {p : Pc} {k : Res → Script} {rest : List Level} {w' : CacheConc.World} (h : w.stk t = .busy p k :: rest)
      (s : CacheConc.Step hf code (w.seen t p) none w') (q : NoDeleter w.cache w'.cache) : Step hf react w t (w.after t w' k rest)
  /-- a step of a call that calls a deleter (util/cache.cc:266) -/
  | deleter {w : World} {t : Tid} {p : Pc} {k : Res → Script} {rest : List Level} {w' : CacheConc.World} {i : Nat} {d : Deletion}
      (h : w.stk t = .busy p k :: rest) (s : CacheConc.Step hf code (w.seen t p) none w') (q : Deletes w.cache w'.cache i d) :
      Step hf react w t (((w.after t w' k rest).put t (.ready (react i d) :: .busy (w'.pc t) k :: rest)))

end CacheReent
end Lsmdb
