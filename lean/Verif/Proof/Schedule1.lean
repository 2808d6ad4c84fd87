import Verif.Spec.Schedule

/-! Invariants of the background queue. -/

namespace Lsmdb
namespace Sched

variable {Job : Type}

def Cpc.crit : Cpc Job → Bool
  | .start _ | .signal _ | .push _ | .unlock _ => true
  | _ => false

def Cpc.late : Cpc Job → Bool
  | .signal _ | .push _ | .unlock _ | .leave _ => true
  | _ => false

def Cpc.isPush : Cpc Job → Bool
  | .push _ => true
  | _ => false

def Bpc.crit : Bpc Job → Bool
  | .check | .wait | .pop | .unlock _ => true
  | _ => false

def Bpc.isRunning : Bpc Job → Bool
  | .running _ => true
  | _ => false

/-- Control: who holds the mutex, and what is true of the queue where. -/
structure Ctl (s : Sys Job) : Prop where
  crit : ∀ t, (s.pc t).crit = true → s.mutex = some t
  bcrit : s.bg.crit = true → s.mutex = some 0
  held : ∀ t, s.mutex = some t → (s.pc t).crit = true ∨ (t = 0 ∧ s.bg.crit = true)
  inner : s.pc 0 ≠ .out → s.bg.isRunning = true
  fresh : s.started = false → s.bg = .none ∧ s.queue = [] ∧ ∀ t, (s.pc t).late = false
  begun : s.started = true → s.bg ≠ .none
  asleep : s.bg = .asleep → s.queue = []
  push : ∀ t, (s.pc t).isPush = true → s.bg ≠ .asleep
  waits : s.bg = .wait → s.queue = []
  pop : s.bg = .pop → s.queue ≠ []
  ok : s.bg ≠ .undefined

theorem at_pc (s : Sys Job) (t u : Nat) (p : Cpc Job) : (s.at t p).pc u = if u = t then p else s.pc u := rfl
@[simp] theorem at_self (s : Sys Job) (t : Nat) (p : Cpc Job) : (s.at t p).pc t = p := by simp [at_pc]
theorem at_ne (s : Sys Job) {t u : Nat} (h : u ≠ t) (p : Cpc Job) : (s.at t p).pc u = s.pc u := by simp [at_pc, h]
@[simp] theorem at_mutex (s : Sys Job) (t : Nat) (p : Cpc Job) : (s.at t p).mutex = s.mutex := rfl
@[simp] theorem at_queue (s : Sys Job) (t : Nat) (p : Cpc Job) : (s.at t p).queue = s.queue := rfl
@[simp] theorem at_started (s : Sys Job) (t : Nat) (p : Cpc Job) : (s.at t p).started = s.started := rfl
@[simp] theorem at_bg (s : Sys Job) (t : Nat) (p : Cpc Job) : (s.at t p).bg = s.bg := rfl
@[simp] theorem at_calls (s : Sys Job) (t : Nat) (p : Cpc Job) : (s.at t p).calls = s.calls := rfl

theorem ctl_init : Ctl (Sys.init : Sys Job) := by
  constructor <;> simp [Sys.init, Cpc.crit, Cpc.late, Cpc.isPush, Bpc.crit]

set_option maxHeartbeats 2000000 in
theorem ctl_step {s s' : Sys Job} {who : Option Nat} {e : Option (Ev Job)} (hc : Ctl s) (h : Step s who e s') : Ctl s' := by
  obtain ⟨h1, h2, h3, h4, h5, h6, h7, h8, h9, h10, h11⟩ := hc
  have h12 : s.bg.isRunning = true → s.bg.crit = false := by cases s.bg <;> simp [Bpc.isRunning, Bpc.crit]
  have h13 : ∀ t, (s.pc t).isPush = true → (s.pc t).crit = true := fun t => by cases s.pc t <;> simp [Cpc.isPush, Cpc.crit]
  have h14 : ∀ t, (s.pc t).crit = true → s.pc t ≠ .out := fun t => by cases s.pc t <;> simp [Cpc.crit]
  cases h with
  | callClient t job ht h =>
    constructor <;> intros <;> grind [at_pc, at_mutex, at_queue, at_started, at_bg, List.isEmpty_iff, Cpc.crit, Cpc.late, Cpc.isPush, Bpc.crit, Bpc.isRunning]
  | callRunning w job hb h =>
    constructor <;> intros <;> grind [at_pc, at_mutex, at_queue, at_started, at_bg, List.isEmpty_iff, Cpc.crit, Cpc.late, Cpc.isPush, Bpc.crit, Bpc.isRunning]
  | lock t w h hm =>
    constructor <;> intros <;> grind [at_pc, at_mutex, at_queue, at_started, at_bg, List.isEmpty_iff, Cpc.crit, Cpc.late, Cpc.isPush, Bpc.crit, Bpc.isRunning]
  | start t w h =>
    cases hst : s.started with
    | true =>
      simp only [Bool.not_true, Bool.false_eq_true, if_false]
      constructor <;> intros <;> grind [at_pc, at_mutex, at_queue, at_started, at_bg, List.isEmpty_iff, Cpc.crit, Cpc.late, Cpc.isPush, Bpc.crit, Bpc.isRunning]
    | false =>
      simp only [Bool.not_false, if_true]
      obtain ⟨g1, g2, g3⟩ := h5 hst
      constructor <;> intros <;> grind [at_pc, at_mutex, at_queue, at_started, at_bg, List.isEmpty_iff, Cpc.crit, Cpc.late, Cpc.isPush, Bpc.crit, Bpc.isRunning]
  | signal t w h =>
    cases hq : s.queue.isEmpty with
    | true =>
      simp only [if_true]
      cases hb : s.bg <;> simp only [Bpc.signal] <;> constructor <;> intros <;> grind [at_pc, at_mutex, at_queue, at_started, at_bg, List.isEmpty_iff, Cpc.crit, Cpc.late, Cpc.isPush, Bpc.crit, Bpc.isRunning, Bpc.signal]
    | false =>
      simp only [Bool.false_eq_true, if_false]
      constructor <;> intros <;> grind [at_pc, at_mutex, at_queue, at_started, at_bg, List.isEmpty_iff, Cpc.crit, Cpc.late, Cpc.isPush, Bpc.crit, Bpc.isRunning]
  | push t w h =>
    constructor <;> intros <;> grind [at_pc, at_mutex, at_queue, at_started, at_bg, List.isEmpty_iff, Cpc.crit, Cpc.late, Cpc.isPush, Bpc.crit, Bpc.isRunning]
  | unlock t w h =>
    constructor <;> intros <;> grind [at_pc, at_mutex, at_queue, at_started, at_bg, List.isEmpty_iff, Cpc.crit, Cpc.late, Cpc.isPush, Bpc.crit, Bpc.isRunning]
  | leave t w h =>
    constructor <;> intros <;> grind [at_pc, at_mutex, at_queue, at_started, at_bg, List.isEmpty_iff, Cpc.crit, Cpc.late, Cpc.isPush, Bpc.crit, Bpc.isRunning]
  | bgLock h hm =>
    constructor <;> intros <;> grind [List.isEmpty_iff, Cpc.crit, Cpc.late, Cpc.isPush, Bpc.crit, Bpc.isRunning]
  | bgCheck h =>
    constructor <;> intros <;> grind [List.isEmpty_iff, Cpc.crit, Cpc.late, Cpc.isPush, Bpc.crit, Bpc.isRunning]
  | bgWait h =>
    constructor <;> intros <;> grind [List.isEmpty_iff, Cpc.crit, Cpc.late, Cpc.isPush, Bpc.crit, Bpc.isRunning]
  | bgWake h =>
    constructor <;> intros <;> grind [List.isEmpty_iff, Cpc.crit, Cpc.late, Cpc.isPush, Bpc.crit, Bpc.isRunning]
  | bgWoken h hm =>
    constructor <;> intros <;> grind [List.isEmpty_iff, Cpc.crit, Cpc.late, Cpc.isPush, Bpc.crit, Bpc.isRunning]
  | bgPop w q h hq =>
    constructor <;> intros <;> grind [List.isEmpty_iff, Cpc.crit, Cpc.late, Cpc.isPush, Bpc.crit, Bpc.isRunning]
  | bgPopEmpty h hq => exact absurd hq (h10 h)
  | bgUnlock w h =>
    constructor <;> intros <;> grind [List.isEmpty_iff, Cpc.crit, Cpc.late, Cpc.isPush, Bpc.crit, Bpc.isRunning]
  | bgCall w h =>
    constructor <;> intros <;> grind [List.isEmpty_iff, Cpc.crit, Cpc.late, Cpc.isPush, Bpc.crit, Bpc.isRunning]
  | bgDone w h h0 =>
    constructor <;> intros <;> grind [List.isEmpty_iff, Cpc.crit, Cpc.late, Cpc.isPush, Bpc.crit, Bpc.isRunning]

end Sched
end Lsmdb
