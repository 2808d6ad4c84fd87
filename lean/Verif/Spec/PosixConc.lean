import Verif.Model.PosixConc
import Verif.Spec.PosixEnv

/-!
# What it means that a POSIX Env used by several threads keeps its accounts (C92)
-/

namespace Lsmdb
namespace Posix

/-- The descriptor a system call is about. -/
def Cmd.fd? : Cmd → Option Int
  | .close fd => some fd
  | .read fd _ => some fd
  | .pread fd _ _ => some fd
  | .lseek fd _ => some fd
  | .write fd _ => some fd
  | .sync fd => some fd
  | .mmap fd _ => some fd
  | .other fd => some fd
  | .readdir fd _ => some fd
  | _ => none

namespace Conc

/-- The Env as its clients have it. -/
def Conf.env (c : Conf) : PEnv := ⟨c.objs, c.sh.locks, c.sh.mmap_limiter, c.sh.fd_limiter⟩

/-- A client has this object. -/
def Conf.has (c : Conf) (h : Nat) (o : Obj) : Prop := c.objs[h]? = some (some o)

/-- Thread `t` is in a call and its next step is `cmd`. -/
def Conf.next (c : Conf) (t : Nat) (cmd : Cmd) : Prop := ∃ home k, c.th[t]? = some (.run home (.call cmd k))

/-- Thread `t` is reading object `h`. -/
def Conf.readsFrom (c : Conf) (t h : Nat) : Prop := ∃ p, c.th[t]? = some (.run (.reads h) p)

/-- Thread `t` is in a call. -/
def Conf.inCall (c : Conf) (t : Nat) : Prop := ∃ home p, c.th[t]? = some (.run home p)

/-- No thread is in a call. -/
def Conf.quiet (c : Conf) : Prop := ∀ t, ¬ c.inCall t

/-- The thread is in a call. -/
def Thread.busy : Thread → Bool
  | .idle => false
  | .run _ _ => true

/-- How many threads are in calls. -/
def Conf.busy (c : Conf) : Nat := (c.th.filter Thread.busy).length

/-- How many objects of a kind the clients have. -/
def Conf.count (c : Conf) (p : Obj → Bool) : Nat := c.env.count p

/-- The accounts at any moment: `w` is the world in which the Env was created. -/
structure Kept (L1 L2 : Int) (w : World) (c : Conf) : Prop where
  /-- what was open before the Env came stays open -/
  foreign_fds : ∀ i, w.k.isOpen i → c.w.k.isOpen i
  foreign_maps : ∀ m, w.k.isMapped m → c.w.k.isMapped m
  /-- the descriptors and mappings of the objects of clients are open, their own, and nobody else's -/
  fds : ∀ h o i, c.has h o → o.ownsFd i → c.w.k.isOpen i ∧ ¬ w.k.isOpen i
  fd_owner : ∀ h h' o o' i, c.has h o → c.has h' o' → o.ownsFd i → o'.ownsFd i → h = h'
  maps : ∀ h o m, c.has h o → o.ownsMap m → c.w.k.isMapped m ∧ ¬ w.k.isMapped m
  map_owner : ∀ h h' o o' m, c.has h o → c.has h' o' → o.ownsMap m → o'.ownsMap m → h = h'
  /-- anything else that is open, is open because a call is running -/
  fd_rest : ∀ i, c.w.k.isOpen i → w.k.isOpen i ∨ (∃ h o, c.has h o ∧ o.ownsFd i) ∨ ∃ t, c.inCall t
  map_rest : ∀ m, c.w.k.isMapped m → w.k.isMapped m ∨ (∃ h o, c.has h o ∧ o.ownsMap m) ∨ ∃ t, c.inCall t
  /-- nobody ever closed a descriptor that was not open -/
  closes : ∀ fd err, Call.close fd err ∈ c.w.calls → 0 ≤ fd → err ≠ some EBADF
  /-- locks: one per name, all of them in the table -/
  locked : ∀ h fd n, c.has h (.lock fd n) → n ∈ c.sh.locks
  lock_owner : ∀ h h' fd fd' n, c.has h (.lock fd n) → c.has h' (.lock fd' n) → h = h'
  lock_rest : ∀ n, n ∈ c.sh.locks → (∃ h fd, c.has h (.lock fd n)) ∨ ∃ t, c.inCall t
  /-- limits -/
  mmap_limit : (c.count Obj.isMmap : Int) ≤ max 0 L1
  fd_limit : (c.count Obj.isPermanent : Int) ≤ max 0 L2
  mmap_slots : L1 - c.count Obj.isMmap - c.busy ≤ c.sh.mmap_limiter ∧ c.sh.mmap_limiter ≤ L1 - c.count Obj.isMmap
  fd_slots : L2 - c.count Obj.isPermanent - c.busy ≤ c.sh.fd_limiter ∧ c.sh.fd_limiter ≤ L2 - c.count Obj.isPermanent

/-- The next steps of the threads touch only what belongs to them: `w` is the world in which the Env was created. -/
structure Safe (w : World) (c : Conf) : Prop where
  /-- no undefined behaviour: every thread in a call goes on -/
  no_fault : ∀ (t : Nat) home f, c.th[t]? ≠ some (.run home (.fault f))
  /-- system calls name open descriptors, never one that was open before the Env came -/
  fd_open : ∀ t cmd (i : Nat), c.next t cmd → cmd.fd? = some (i : Int) → c.w.k.isOpen i ∧ ¬ w.k.isOpen i
  /-- never one of an object, except to read from the object the call was made on -/
  fd_obj : ∀ t cmd (i : Nat) h o, c.next t cmd → cmd.fd? = some (i : Int) → c.has h o → o.ownsFd i →
    (∃ n off, cmd = .pread i n off) ∧ c.readsFrom t h
  /-- two threads name the same descriptor only if both read from the same object -/
  fd_thread : ∀ t u cmd cmd' (i : Nat), t ≠ u → c.next t cmd → c.next u cmd' → cmd.fd? = some (i : Int) → cmd'.fd? = some (i : Int) →
    (∃ n off, cmd = .pread i n off) ∧ (∃ n off, cmd' = .pread i n off) ∧ ∃ h, c.readsFrom t h ∧ c.readsFrom u h
  /-- mappings that go away are nobody else's -/
  unmap : ∀ t m, c.next t (.munmap m) → c.w.k.isMapped m ∧ ¬ w.k.isMapped m ∧ (∀ h o, c.has h o → ¬ o.ownsMap m) ∧
    ∀ u, u ≠ t → ¬ c.next u (.munmap m)
  /-- names that leave the lock table are there and are not of a lock that a client has -/
  unlock : ∀ t n, c.next t (.remove n) → n ∈ c.sh.locks ∧ (∀ h fd, ¬ c.has h (.lock fd n)) ∧ ∀ u, u ≠ t → ¬ c.next u (.remove n)

end Conc
end Posix
end Lsmdb
