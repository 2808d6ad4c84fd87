import Verif.Proof.PosixSolo2

/-! One object in a run of threads: what happens to it is what one thread would do, in a world in which the others are part of
the environment. -/

namespace Lsmdb
namespace Posix

open MemEnv (St lit)

namespace Conc

open Prog

/-- What the others do before a system call: file `ino` changes only as `R` allows, descriptor `i` stays. -/
def Lets (R : Option Inode → Option Inode → Prop) (ino i : Nat) (x : Choice) : Prop :=
  ∀ y, (∀ n, y.inodes[ino]? = some n → R (some n) ((x.other y).inodes[ino]?)) ∧ (x.other y).ofd (i : Int) = y.ofd (i : Int)

section
variable (strerror : Strerror) (full : Bool)

/-- One call after the other on one object, with choices of which all satisfy `C`. -/
inductive Serial (C : Choice → Prop) (o0 : Obj) (k0 : Kernel) : List POp → List PRes → Option Obj → Kernel → List Choice → Prop
  | nil : Serial C o0 k0 [] [] (some o0) k0 []
  | snoc {ops : List POp} {rs : List PRes} {o : Obj} {k k' : Kernel} {all : List Choice} (h : Serial C o0 k0 ops rs (some o) k all)
      (op : POp) (fuel : Nat) (cs : List Choice) (o' : Option Obj) (r : PRes) (hf : Fits op o) (hc : ∀ x ∈ cs, C x)
      (ht : Trail (body strerror full fuel op (some o)) k cs (.ret (.back o' r)) k') :
      Serial C o0 k0 (ops ++ [op]) (rs ++ [r]) o' k' (all ++ cs)

/-- Where a run is, as far as object `h` on descriptor `i` is concerned. -/
inductive Track (R : Option Inode → Option Inode → Prop) (ino h i : Nat) (o0 : Obj) (k0 : Kernel) (c : Conf) (fo : Nat → Owner) :
    List POp → Option Nat × List PRes → Prop
  | idle {ops : List POp} {rs : List PRes} {o : Obj} {k : Kernel} {all : List Choice}
      (hs : Serial strerror full (Lets R ino i) o0 k0 ops rs (some o) k all) (ho : c.objs[h]? = some (some o)) (hp : Plain o)
      (hi : o.ownsFd i) (hR : R (k.inodes[ino]?) (c.w.k.inodes[ino]?)) (hfd : c.w.k.ofd (i : Int) = k.ofd (i : Int)) :
      Track R ino h i o0 k0 c fo ops (none, rs)
  | busy {ops : List POp} {rs : List PRes} {o : Obj} {k k2 : Kernel} {all cs : List Choice} {t fuel : Nat} {op : POp} {p : Prog Fin}
      (hs : Serial strerror full (Lets R ino i) o0 k0 ops rs (some o) k all) (hf : Fits op o)
      (hth : c.th[t]? = some (.run (.own h) p)) (hc : ∀ x ∈ cs, Lets R ino i x)
      (ht : Trail (body strerror full fuel op (some o)) k cs p k2) (hk : p.Keeps i (Closing op)) (hfo : fo i = .thr t)
      (hR : R (k2.inodes[ino]?) (c.w.k.inodes[ino]?)) (hfd : c.w.k.ofd (i : Int) = k2.ofd (i : Int)) :
      Track R ino h i o0 k0 c fo (ops ++ [op]) (some t, rs)
  | closing {ops : List POp} {rs : List PRes} {o : Obj} {k k2 : Kernel} {all cs : List Choice} {t fuel : Nat} {op : POp}
      {o' : Option Obj} {r : PRes}
      (hs : Serial strerror full (Lets R ino i) o0 k0 ops rs (some o) k all) (hf : Fits op o)
      (hth : c.th[t]? = some (.run (.own h) (.ret (.back o' r)))) (hc : ∀ x ∈ cs, Lets R ino i x)
      (ht : Trail (body strerror full fuel op (some o)) k cs (.ret (.back o' r)) k2) (hcl : Closing op)
      (hR : R (k2.inodes[ino]?) (c.w.k.inodes[ino]?)) : Track R ino h i o0 k0 c fo (ops ++ [op]) (some t, rs)
  | closed {ops : List POp} {rs : List PRes} {o : Option Obj} {k : Kernel} {all : List Choice} {op : POp}
      (hs : Serial strerror full (Lets R ino i) o0 k0 (ops ++ [op]) rs o k all) (hcl : Closing op) (ho : c.objs[h]? = some o)
      (hno : ∀ (t : Nat) p, c.th[t]? ≠ some (.run (.own h) p))
      (hR : R (k.inodes[ino]?) (c.w.k.inodes[ino]?)) : Track R ino h i o0 k0 c fo (ops ++ [op]) (none, rs)
  | over {a b : List POp} {op : POp} {x : Option Nat × List PRes} (hcl : Closing op) (hb : b ≠ []) :
      Track R ino h i o0 k0 c fo (a ++ op :: b) x

end

theorem exec_choices {cmd : Cmd} {sh sh' : Shared} {w w' : World} {r : cmd.Resp} (h : cmd.exec sh w = .done (r, sh') w') :
    ∀ x ∈ w'.choices, x ∈ w.choices := by
  intro x hx
  by_cases hs : cmd.onShared = false
  · obtain ⟨y, calls, h1, _⟩ := exec_again hs h
    rw [h1]; exact List.mem_cons_of_mem _ hx
  · cases cmd with
    | fetchSub l => injection h with _ h; rw [h]; exact hx
    | fetchAdd l => injection h with _ h; rw [h]; exact hx
    | insert l => injection h with _ h; rw [h]; exact hx
    | remove l => injection h with _ h; rw [h]; exact hx
    | _ => exact absurd rfl hs

section
variable {ext extm : Nat → Prop} {L : Lim → Int} {c : Conf} {fo mo : Nat → Owner} {lo : Bytes → Owner} {gs : List Ghost}

/-- Only the owner of a descriptor moves or closes it. -/
theorem Inv.moves (H : Inv ext extm L c fo mo lo gs) {t : Nat} {home : Home} {cmd : Cmd} {k : cmd.Resp → Prog Fin}
    (ht : c.th[t]? = some (.run home (.call cmd k))) {i : Nat} (hm : cmd.moves = some (i : Int)) : fo i = .thr t := by
  obtain ⟨g, hg⟩ := H.ghost ht
  have hp : cmd.spec (fun r g => (k r).wp (Done home) g) g := H.run t home _ g ht hg
  have ok : g.ok (i : Int) → fo i = .thr t := by
    rintro (h | ⟨j, h, hj⟩)
    · omega
    · have : j = i := by omega
      subst this
      exact (H.F.thr t j).2 ⟨g, hg, hj⟩
  cases cmd with
  | close fd =>
    injection hm with hm
    subst hm
    rcases hp with ⟨h, _⟩ | ⟨j, h, hj, _⟩
    · omega
    · exact ok (.inr ⟨j, h, hj⟩)
  | read fd n => injection hm with hm; subst hm; exact ok hp.1
  | lseek fd n => injection hm with hm; subst hm; exact ok hp.1
  | write fd n => injection hm with hm; subst hm; exact ok hp.1
  | _ => exact nomatch hm

/-- A descriptor that is in use is not opened again. -/
theorem Inv.newFd (H : Inv ext extm L c fo mo lo gs) {cmd : Cmd} {r : cmd.Resp} {sh' : Shared} {w' : World}
    (he : cmd.exec c.sh c.w = .done (r, sh') w') {i : Nat} (hi : fo i ≠ .free) : cmd.newFd r ≠ some (i : Int) := by
  intro hn
  cases cmd with
  | «open» m path =>
    rcases sat_done (sysOpen_res H.res m path) (keep_done he).1 with ⟨e, rfl, h1⟩ | ⟨j, rfl, hj, h1⟩
    · exact nomatch hn
    · have hn : (j : Int) = i := Option.some.inj hn
      have : j = i := by omega
      exact hj (this ▸ hi)
  | opendir path =>
    rcases sat_done (sysOpendir_res H.res path) (keep_done he).1 with ⟨e, rfl, h1⟩ | ⟨j, l, rfl, hj, h1⟩
    · exact nomatch hn
    · have hn : (j : Int) = i := Option.some.inj hn
      have : j = i := by omega
      exact hj (this ▸ hi)
  | _ => exact nomatch hn

/-- A descriptor that is in use is open. -/
theorem Inv.ofd (H : Inv ext extm L c fo mo lo gs) {i : Nat} (hi : fo i ≠ .free) : ∃ o, c.w.k.ofd (i : Int) = some o :=
  (isOpen_iff_ofd _ _).1 ((H.res.fds i).2 hi)

/-- What a step of somebody else does to a descriptor in use: nothing. -/
theorem Inv.foreign (H : Inv ext extm L c fo mo lo gs) {t : Nat} {home : Home} {cmd : Cmd} {k : cmd.Resp → Prog Fin} {r : cmd.Resp}
    {sh' : Shared} {w' : World} (ht : c.th[t]? = some (.run home (.call cmd k))) (he : cmd.exec c.sh c.w = .done (r, sh') w')
    {R : Option Inode → Option Inode → Prop} {ino i : Nat} (hx : ∀ x ∈ c.w.choices, Lets R ino i x) (hi : fo i ≠ .free)
    (hn : fo i ≠ .thr t) : w'.k.ofd (i : Int) = c.w.k.ofd (i : Int) ∧ cmd ≠ .close (i : Int) := by
  obtain ⟨o, ho⟩ := H.ofd hi
  have hm : cmd.moves ≠ some (i : Int) := fun e => hn (H.moves ht e)
  refine ⟨?_, fun e => hm (by rw [e]; rfl)⟩
  rw [ho]
  exact exec_ofd hm (fun x hm => (hx x hm c.w.k).2) ho he

end

end Conc
end Posix
end Lsmdb
