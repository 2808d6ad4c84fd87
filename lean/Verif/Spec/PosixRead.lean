import Verif.Spec.PosixEnv

/-!
# Specification vocabulary for reading POSIX files
-/

namespace Lsmdb
namespace Posix

open MemEnv (St)

/-- Descriptor `fd` reads regular file `ino`, whose contents are `D`, at position `p`. -/
def ReadableAt (k : Kernel) (fd : Int) (ino : Nat) (D : Bytes) (p : Nat) : Prop :=
  ∃ o n, k.ofd fd = some o ∧ o.ino = ino ∧ o.rd = true ∧ o.off = p ∧
    k.inodes[ino]? = some n ∧ n.dir = false ∧ n.data = D

/-- Before the system call, others may append to file `ino`, but do not change what it holds; they do not
touch descriptor `fd`.  (A log file that is being written.) -/
def Grows (ino : Nat) (fd : Int) (c : Choice) : Prop :=
  ∀ k, (c.other k).ofd fd = k.ofd fd ∧ ∀ n, k.inodes[ino]? = some n →
    ∃ n', (c.other k).inodes[ino]? = some n' ∧ n'.dir = n.dir ∧ n.data <+: n'.data

/-- What a client does with a sequential file. -/
inductive SOp where
  | read (n : Nat)
  | skip (n : Nat)
  deriving DecidableEq

/-- A client reads and skips; the results with the data returned.  The scratch buffer has the `n` bytes
the interface asks for. -/
def SeqFile.run (strerror : Strerror) (f : SeqFile) : List SOp → P (List (St × Option Bytes))
  | [] => pure []
  | .read n :: os => do
    let r ← f.Read strerror n n
    let rs ← f.run strerror os
    return r :: rs
  | .skip n :: os => do
    let s ← f.Skip strerror n
    let rs ← f.run strerror os
    return (s, none) :: rs

/-- Reading a file whose contents were `D` at the beginning and `D'` at the end, from position `p` to
position `q`: every successful read returns the bytes at the current position, at most as many as asked
for, and returns none only if none were asked for or the position is at the end; it moves the position
behind what it returned.  A successful skip moves the position.  A failing call does not. -/
inductive Walk (D D' : Bytes) : Nat → List SOp → List (St × Option Bytes) → Nat → Prop
  | nil (p : Nat) : Walk D D' p [] [] p
  | read (p n q : Nat) (d : Bytes) (os : List SOp) (rs : List (St × Option Bytes))
      (hd : d <+: D'.drop p) (hl : d.length ≤ n) (he : d = [] → n = 0 ∨ D.length ≤ p)
      (h : Walk D D' (p + d.length) os rs q) : Walk D D' p (.read n :: os) ((.ok, some d) :: rs) q
  | readErr (p n q : Nat) (s : St) (os : List SOp) (rs : List (St × Option Bytes)) (hs : s ≠ .ok)
      (h : Walk D D' p os rs q) : Walk D D' p (.read n :: os) ((s, none) :: rs) q
  | skip (p n q : Nat) (os : List SOp) (rs : List (St × Option Bytes))
      (h : Walk D D' (p + n) os rs q) : Walk D D' p (.skip n :: os) ((.ok, none) :: rs) q
  | skipErr (p n q : Nat) (s : St) (os : List SOp) (rs : List (St × Option Bytes)) (hs : s ≠ .ok)
      (h : Walk D D' p os rs q) : Walk D D' p (.skip n :: os) ((s, none) :: rs) q

/-- All data returned. -/
def received : List (St × Option Bytes) → Bytes
  | [] => []
  | (_, d) :: rs => d.getD [] ++ received rs

/-- The bytes a slice into a mapping shows: those of the mapped file.  `none`: some of it is outside of the
mapping or beyond the end of the file. -/
def viewBytes (k : Kernel) : MmapSlice → Option Bytes
  | .empty => some []
  | .view m offset n =>
    match (k.maps[m]?).join with
    | none => none
    | some (ino, len) =>
      if offset + n ≤ len ∧ offset + n ≤ (k.data ino).length then some (((k.data ino).drop offset).take n) else none

/-- The slice lies inside an existing mapping. -/
def InMapping (k : Kernel) : MmapSlice → Prop
  | .empty => True
  | .view m offset n => ∃ ino len, k.maps[m]? = some (some (ino, len)) ∧ offset + n ≤ len

/-- Others do not change what the name means or what file `ino` contains if it exists, and do not touch the descriptors and
mappings of this process. -/
def Steady (name : Bytes) (ino : Nat) (c : Choice) : Prop :=
  ∀ k, (c.other k).lookup (cstr name) = k.lookup (cstr name) ∧ (∀ n, k.inodes[ino]? = some n → (c.other k).inodes[ino]? = some n) ∧
    (c.other k).fds = k.fds ∧ (c.other k).maps = k.maps

/-- File `ino` is a regular file with contents `D`. -/
def RegularFile (k : Kernel) (ino : Nat) (D : Bytes) : Prop :=
  ∃ n, k.inodes[ino]? = some n ∧ n.dir = false ∧ n.data = D

/-- The random-access file object `o` (opened under `name`) reads file `ino`, which contains `D`. -/
def Serves (k : Kernel) (name : Bytes) (ino : Nat) (D : Bytes) : Obj → Prop
  | .rand f => RegularFile k ino D ∧ f.filename = name ∧
      if f.has_permanent_fd then f.fd ≠ -1 ∧ ∃ o, k.ofd f.fd = some o ∧ o.ino = ino ∧ o.rd = true
      else f.fd = -1 ∧ k.lookup (cstr name) = some ino ∧ cstr name ≠ []
  | .mmap f => RegularFile k ino D ∧ f.filename = name ∧ k.maps[f.mmap_base]? = some (some (ino, f.length)) ∧
      f.length = D.length
  | _ => False

/-- The data in the result of a random-access read, seen in `k`: `none` if it cannot be looked at. -/
def readBytes (k : Kernel) : PRes → Option Bytes
  | .data _ d => some (d.getD [])
  | .view _ v => viewBytes k v
  | _ => none

/-- Others do not touch this process's mappings. -/
def KeepsMaps (c : Choice) : Prop := ∀ k, (c.other k).maps = k.maps

end Posix
end Lsmdb
