import Verif.Spec.PosixConc

/-!
# Calls of the POSIX Env return (C104)

The loops of the Env go on for as long as the system interrupts them (`EINTR`), a `write` writes something but not everything, or `readdir`
has more entries.  `fuel` is how long the model looks at a loop; no bound of the code.
-/

namespace Lsmdb
namespace Posix
namespace Conc

/-- A step a thread took, and the answer it got. -/
structure Took where
  cmd : Cmd
  resp : cmd.Resp

/-- The step has to be repeated: the system call was interrupted, or nothing was written. -/
def Took.inVain : Took → Bool
  | ⟨.read _ _, (r : Except Errno Bytes)⟩ =>
    match r with
    | .error e => e = EINTR
    | .ok _ => false
  | ⟨.write _ _, (r : Except Errno Nat)⟩ =>
    match r with
    | .error e => e = EINTR
    | .ok n => n = 0
  | _ => false

/-- How many entries a directory had that was opened. -/
def Took.entries : Took → Nat
  | ⟨.opendir _, (r : Except Errno (Int × List Bytes))⟩ =>
    match r with
    | .error _ => 0
    | .ok (_, l) => l.length
  | _ => 0

/-- How many of the steps had to be repeated. -/
def inVain (as : List Took) : Nat := (as.filter Took.inVain).length

/-- How many entries the directory had that was listed. -/
def entriesOf (as : List Took) : Nat := (as.map Took.entries).sum

/-- How many bytes the call has to write: what was appended before and is in the buffer, and what the call appends. -/
def toWrite : POp → Option Obj → Nat
  | .write _ op, some (.wr f) =>
    f.pos + match op with
      | .append d => d.len
      | _ => 0
  | .delete _, some (.wr f) => f.pos
  | _, _ => 0

/-- `During t c as c'`: a run from `c` to `c'` in which thread `t` neither makes a call nor returns from one; `as` are the steps it takes.
The other threads do what they like. -/
inductive During (strerror : Strerror) (full : Bool) (t : Nat) : Conf → List Took → Conf → Prop
  | nil (c : Conf) : During strerror full t c [] c
  | mine {c c' : Conf} {as : List Took} (h : During strerror full t c as c') (home : Home) (cmd : Cmd) (k : cmd.Resp → Prog Fin)
      (r : cmd.Resp) (sh : Shared) (w : World) (ht : c'.th[t]? = some (.run home (.call cmd k)))
      (he : cmd.exec c'.sh c'.w = .done (r, sh) w) :
      During strerror full t c (as ++ [⟨cmd, r⟩]) { c' with w := w, sh := sh, th := c'.th.set t (.run home (k r)) }
  | others {c c' c'' : Conf} {as : List Took} {e : Option Ev} (h : During strerror full t c as c')
      (h' : Step strerror full c' e c'') (ht : c''.th[t]? = c'.th[t]?) : During strerror full t c as c''

end Conc
end Posix
end Lsmdb
