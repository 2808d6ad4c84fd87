import Verif.Proof.PosixPres

/-!
# What the calls on files leave alone

`Frame π`: the part `π` of the kernel is not changed by the system calls that the code makes on files it has opened.
-/

namespace Lsmdb
namespace Posix

open MemEnv (St lit)

/-- Writing, reading and opening for reading do not change `π`. -/
structure WFrame {β : Type} (π : Kernel → β) : Prop where
  write : ∀ fd d, Pres (SameAt π) (sysWrite fd d)
  sync : ∀ fd, Pres (SameAt π) (sysSync fd)
  close : ∀ fd, Pres (SameAt π) (sysClose fd)
  openRd : ∀ p, Pres (SameAt π) (sysOpen .rdonly p)
  read : ∀ fd n, Pres (SameAt π) (sysRead fd n)

theorem kopen_rdonly (p : Bytes) (k : Kernel) : ∃ fds, (kopen .rdonly p k).2 = { k with fds := fds } := by
  unfold kopen
  dsimp only []
  repeat' split
  all_goals first
    | exact ⟨k.fds, rfl⟩
    | exact ⟨_, rfl⟩
    | (rename_i h; exact nomatch h)
    | skip

/-- The meaning of a name. -/
theorem lookup_frame (p : Bytes) : WFrame (fun k => k.lookup p) where
  write _ _ := by unfold sysWrite kwrite; sys_pres
  sync _ := by unfold sysSync ksync; sys_pres
  close _ := by unfold sysClose; sys_pres
  openRd q := by
    refine Pres.sys fun c k => ?_
    split
    · rfl
    · obtain ⟨fds, h⟩ := kopen_rdonly (cstr q) k
      rw [h]; rfl
  read _ _ := by unfold sysRead kread; sys_pres

variable {β : Type} {π : Kernel → β} (hπ : WFrame π) (strerror : Strerror) (full : Bool)
include hπ

theorem writeLoop_frame (fd : Int) (name : Bytes) : ∀ (fuel : Nat) (d : Bytes), Pres (SameAt π) (writeLoop strerror fd name fuel d) := by
  intro fuel
  induction fuel with
  | zero => intro d; exact Pres.fault _
  | succ fuel ih =>
    intro d
    unfold writeLoop
    split
    · refine Pres.bind (hπ.write _ _) fun r => ?_
      split
      · split
        · exact ih _
        · exact Pres.pure _
      · exact ih _
    · exact Pres.pure _

theorem WriteUnbuffered_frame (f : WFile) (d : Bytes) : Pres (SameAt π) (f.WriteUnbuffered strerror d) :=
  Pres.dep (g := fun n => writeLoop strerror f.fd f.filename n d) (fun w => w.choices.length + 2)
    fun n => writeLoop_frame hπ strerror f.fd f.filename n d

theorem FlushBuffer_frame (f : WFile) : Pres (SameAt π) (f.FlushBuffer strerror) :=
  Pres.bind (Pres.pureM _) fun _ => Pres.bind (WriteUnbuffered_frame hπ strerror _ _) fun _ => Pres.pure _

theorem Append_frame (f : WFile) (d : Slice) : Pres (SameAt π) (f.Append strerror d) := by
  unfold WFile.Append
  refine Pres.bind (Pres.pureM _) fun _ => Pres.bind (Pres.pureM _) fun _ => ?_
  dsimp only []
  split
  · exact Pres.pure _
  · refine Pres.bind (FlushBuffer_frame hπ strerror _) fun r => ?_
    obtain ⟨s, f⟩ := r
    dsimp only []
    split
    · exact Pres.pure _
    · split
      · exact Pres.bind (Pres.pureM _) fun _ => Pres.pure _
      · exact Pres.bind (WriteUnbuffered_frame hπ strerror _ _) fun _ => Pres.pure _

theorem Close_frame (f : WFile) : Pres (SameAt π) (f.Close strerror) :=
  Pres.bind (FlushBuffer_frame hπ strerror _) fun _ => Pres.bind (hπ.close _) fun _ => Pres.pure _

theorem SyncFd_frame (fd : Int) (p : Bytes) : Pres (SameAt π) (SyncFd strerror full fd p) := by
  unfold SyncFd
  dsimp only []
  repeat' first | exact Pres.pure _ | exact hπ.sync _ | refine Pres.bind ?_ (fun _ => ?_) | split

theorem SyncDir_frame (f : WFile) : Pres (SameAt π) (f.SyncDirIfManifest strerror full) := by
  unfold WFile.SyncDirIfManifest
  split
  · refine Pres.bind (hπ.openRd _) fun r => ?_
    split
    · exact Pres.pure _
    · exact Pres.bind (SyncFd_frame hπ strerror full _ _) fun _ => Pres.bind (hπ.close _) fun _ => Pres.pure _
  · exact Pres.pure _

theorem Sync_frame (f : WFile) : Pres (SameAt π) (f.Sync strerror full) := by
  unfold WFile.Sync
  refine Pres.bind (SyncDir_frame hπ strerror full _) fun st => ?_
  split
  · exact Pres.pure _
  · refine Pres.bind (FlushBuffer_frame hπ strerror _) fun r => ?_
    obtain ⟨s, f⟩ := r
    dsimp only []
    split
    · exact Pres.pure _
    · exact Pres.bind (SyncFd_frame hπ strerror full _ _) fun _ => Pres.pure _

theorem wstep_frame (f : WFile) (op : WOp) : Pres (SameAt π) (f.step strerror full op) := by
  cases op with
  | append d => exact Append_frame hπ strerror f d
  | flush => exact FlushBuffer_frame hπ strerror f
  | sync => exact Sync_frame hπ strerror full f
  | close => exact Close_frame hπ strerror f

theorem wdestroy_frame (f : WFile) : Pres (SameAt π) (f.destroy strerror) := by
  unfold WFile.destroy
  split
  · exact Pres.bind (Close_frame hπ strerror _) fun _ => Pres.pure _
  · exact Pres.pure _

theorem seqReadLoop_frame (f : SeqFile) (n cap : Nat) : ∀ fuel, Pres (SameAt π) (seqReadLoop strerror f n cap fuel) := by
  intro fuel
  induction fuel with
  | zero => exact Pres.fault _
  | succ fuel ih =>
    unfold seqReadLoop
    refine Pres.bind (hπ.read _ _) fun r => ?_
    split
    · split
      · exact ih
      · exact Pres.pure _
    · split
      · exact Pres.pure _
      · exact Pres.pureM _

theorem SeqRead_frame (f : SeqFile) (n cap : Nat) : Pres (SameAt π) (f.Read strerror n cap) :=
  Pres.dep (g := seqReadLoop strerror f n cap) (fun w => w.choices.length + 1) (seqReadLoop_frame hπ strerror f n cap)

end Posix
end Lsmdb
