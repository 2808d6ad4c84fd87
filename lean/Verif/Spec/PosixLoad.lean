import Verif.Spec.PosixCreate

/-!
# Opening a file for reading in a program with many threads (C97)
-/

namespace Lsmdb
namespace Posix
namespace Conc

open MemEnv (St)

/-- What a read of at most `n` bytes at `offset` of a file that contains `D` may return: some of the bytes that are there, in a buffer;
or all the bytes asked for, as a view of a mapping (whose bytes count if it is still `valid`).  None if it fails. -/
inductive ReadOf (k : Kernel) (valid : Prop) (D : Bytes) (offset n : Nat) : PRes → Prop
  | data (st : St) (d : Option Bytes)
      (ok : st = .ok → d.getD [] <+: D.drop offset ∧ (d.getD []).length ≤ n ∧ (d.getD [] = [] ↔ n = 0 ∨ D.length ≤ offset))
      (failed : st ≠ .ok → d.getD [] = []) : ReadOf k valid D offset n (.data st d)
  | view (st : St) (v : MmapSlice) (ok : st = .ok ↔ offset + n ≤ D.length)
      (bytes : valid → viewBytes k v = some (if st = .ok then (D.drop offset).take n else [])) : ReadOf k valid D offset n (.view st v)

/-- The calls only look at the file, or are about others. -/
def Gentle (name : Bytes) (es : List Ev) : Prop := ∀ t op, Ev.call t op ∈ es → Elsewhere name op ∨ LooksOnly op

end Conc
end Posix
end Lsmdb
