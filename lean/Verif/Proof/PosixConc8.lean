import Verif.Spec.PosixConc
import Verif.Proof.PosixConc7

/-! The invariant of the machine of threads in the words of the specification. -/

namespace Lsmdb
namespace Posix

open MemEnv (St lit)

namespace Conc

open Prog

variable {ext extm : Nat → Prop} {L : Lim → Int} {c : Conf} {fo mo : Nat → Owner} {lo : Bytes → Owner} {gs : List Ghost}

/-- A thread that owns something is in a call. -/
theorem Inv.inCall (H : Inv ext extm L c fo mo lo gs) {t : Nat} {g : Ghost} (hg : gs[t]? = some g)
    (hn : g.F ≠ [] ∨ g.M ≠ [] ∨ g.N ≠ []) : c.inCall t := by
  have hlt : t < c.th.length := by rw [← H.len]; exact (List.getElem?_eq_some_iff.mp hg).1
  have ht : c.th[t]? = some c.th[t] := List.getElem?_eq_getElem hlt
  cases hx : c.th[t] with
  | run home p => exact ⟨home, p, by rw [ht, hx]⟩
  | idle =>
    have he := H.idle t g (by rw [ht, hx]) hg
    rcases hn with h | h | h
    · exact (h he.F).elim
    · exact (h he.M).elim
    · exact (h he.N).elim

theorem held_cons (f : Ghost → Nat) (g : Ghost) (gs : List Ghost) : held f (g :: gs) = f g + held f gs := by
  simp [held]

theorem held_busy (gr pe : Ghost → Nat) : ∀ (th : List Thread) (gs : List Ghost), gs.length = th.length →
    (∀ g ∈ gs, gr g + pe g ≤ 1) → (∀ (t : Nat) g, th[t]? = some .idle → gs[t]? = some g → gr g = 0 ∧ pe g = 0) →
    held gr gs + held pe gs ≤ (th.filter Thread.busy).length := by
  intro th
  induction th with
  | nil =>
    intro gs hl _ _
    have : gs = [] := List.eq_nil_of_length_eq_zero hl
    subst this
    simp [held]
  | cons x th ih =>
    intro gs hl h1 h2
    cases gs with
    | nil => exact nomatch hl
    | cons g gs =>
      have := ih gs (by simpa using hl) (fun y hy => h1 y (List.mem_cons_of_mem _ hy)) (fun t y ht hy => h2 (t + 1) y ht hy)
      have h3 := h1 g List.mem_cons_self
      rw [held_cons, held_cons]
      cases x with
      | idle =>
        have h4 := h2 0 g rfl rfl
        rw [List.filter_cons_of_neg (by simp [Thread.busy])]
        omega
      | run home p =>
        rw [List.filter_cons_of_pos (by simp [Thread.busy])]
        simp only [List.length_cons]
        omega

theorem Inv.kept (H : Inv ext extm L c fo mo lo gs) {w : World} (he : ∀ i, ext i ↔ w.k.isOpen i) (hm : ∀ m, extm m ↔ w.k.isMapped m) :
    Kept (L .mmap) (L .fd) w c := by
  have openF : ∀ i, fo i ≠ .free → c.w.k.isOpen i := fun i h => (H.res.fds i).2 h
  have openM : ∀ i, mo i ≠ .free → c.w.k.isMapped i := fun i h => (H.res.maps i).2 h
  have slots : ∀ l, L l - cnt (pred l) c.objs - c.busy ≤ c.sh.lim l ∧ c.sh.lim l ≤ L l - cnt (pred l) c.objs := by
    intro l
    have h1 := (H.lim l).val
    have h2 := held_busy (fun g => g.grant l) (fun g => g.pend l) c.th gs H.len (H.lim l).one (fun t g ht hg =>
      ⟨(H.idle t g ht hg).grant l, (H.idle t g ht hg).pend l⟩)
    unfold Conf.busy
    omega
  have limit : ∀ l, (cnt (pred l) c.objs : Int) ≤ max 0 (L l) := by
    intro l
    have := (H.lim l).limit
    omega
  refine ⟨fun i hi => openF i ?_, fun m hi => openM m ?_, fun h o i ho hi => ?_, fun h h' o o' i ho ho' hi hi' => ?_,
    fun h o i ho hi => ?_, fun h h' o o' i ho ho' hi hi' => ?_, fun i hi => ?_, fun i hi => ?_, H.res.calls,
    fun h fd n ho => ?_, fun h h' fd fd' n ho ho' => ?_, fun n hn => ?_, limit .mmap, limit .fd, slots .mmap, slots .fd⟩
  · rw [(H.F.out i).2 ((he i).2 hi)]; simp
  · rw [(H.M.out m).2 ((hm m).2 hi)]; simp
  · have h1 := (H.F.obj h i).2 ⟨o, ho, hi⟩
    refine ⟨openF i (by rw [h1]; simp), fun hx => ?_⟩
    rw [(H.F.out i).2 ((he i).2 hx)] at h1
    exact nomatch h1
  · have h1 := (H.F.obj h i).2 ⟨o, ho, hi⟩
    rw [(H.F.obj h' i).2 ⟨o', ho', hi'⟩] at h1
    injection h1 with h1; exact h1.symm
  · have h1 := (H.M.obj h i).2 ⟨o, ho, hi⟩
    refine ⟨openM i (by rw [h1]; simp), fun hx => ?_⟩
    rw [(H.M.out i).2 ((hm i).2 hx)] at h1
    exact nomatch h1
  · have h1 := (H.M.obj h i).2 ⟨o, ho, hi⟩
    rw [(H.M.obj h' i).2 ⟨o', ho', hi'⟩] at h1
    injection h1 with h1; exact h1.symm
  · have h1 := (H.res.fds i).1 hi
    cases hx : fo i with
    | free => exact (h1 hx).elim
    | ext => exact .inl ((he i).1 ((H.F.out i).1 hx))
    | obj h => exact .inr (.inl ⟨h, (H.F.obj h i).1 hx⟩)
    | thr t =>
      obtain ⟨g, hg, hi'⟩ := (H.F.thr t i).1 hx
      exact .inr (.inr ⟨t, H.inCall hg (.inl (List.ne_nil_of_mem hi'))⟩)
  · have h1 := (H.res.maps i).1 hi
    cases hx : mo i with
    | free => exact (h1 hx).elim
    | ext => exact .inl ((hm i).1 ((H.M.out i).1 hx))
    | obj h => exact .inr (.inl ⟨h, (H.M.obj h i).1 hx⟩)
    | thr t =>
      obtain ⟨g, hg, hi'⟩ := (H.M.thr t i).1 hx
      exact .inr (.inr ⟨t, H.inCall hg (.inr (.inl (List.ne_nil_of_mem hi')))⟩)
  · have h1 := (H.N.obj h n).2 ⟨_, ho, rfl⟩
    exact (H.locks n).2 (by rw [h1]; simp)
  · have h1 := (H.N.obj h n).2 ⟨_, ho, rfl⟩
    rw [(H.N.obj h' n).2 ⟨_, ho', rfl⟩] at h1
    injection h1 with h1; exact h1.symm
  · have h1 := (H.locks n).1 hn
    cases hx : lo n with
    | free => exact (h1 hx).elim
    | ext => exact ((H.N.out n).1 hx).elim
    | obj h =>
      obtain ⟨o, ho, hn'⟩ := (H.N.obj h n).1 hx
      cases o with
      | lock fd m => cases hn'; exact .inl ⟨h, fd, ho⟩
      | seq f => exact hn'.elim
      | rand f => exact hn'.elim
      | mmap f => exact hn'.elim
      | wr f => exact hn'.elim
      | logger f => exact hn'.elim
    | thr t =>
      obtain ⟨g, hg, hi'⟩ := (H.N.thr t n).1 hx
      exact .inr ⟨t, H.inCall hg (.inr (.inr (List.ne_nil_of_mem hi')))⟩

/-- A step that names a descriptor names one of the call's own, or reads from one it may read from. -/
theorem spec_fd {cmd : Cmd} {K : cmd.Resp → Ghost → Prop} {g : Ghost} {i : Nat} (h : cmd.spec K g) (hc : cmd.fd? = some (i : Int)) :
    i ∈ g.F ∨ (i ∈ g.B ∧ ∃ n off, cmd = .pread i n off) := by
  have hok : ∀ fd : Int, g.ok fd → fd = i → i ∈ g.F := by
    rintro fd (h1 | ⟨j, h1, h2⟩) h3
    · omega
    · have : j = i := by omega
      subst this; exact h2
  cases cmd <;> try (cases hc; done)
  all_goals (injection hc with hc)
  case close fd =>
    rcases h with ⟨h1, _⟩ | ⟨j, h1, h2, _⟩
    · omega
    · have : j = i := by omega
      subst this; exact .inl h2
  case pread fd n off =>
    obtain ⟨h1 | ⟨j, h1, h2⟩, _⟩ := h
    · omega
    · have : j = i := by omega
      subst this
      rcases h2 with h2 | h2
      · exact .inl h2
      · exact .inr ⟨h2, n, off, by rw [h1]⟩
  all_goals exact .inl (hok _ h.1 hc)

/-- Who the descriptor of the next step belongs to. -/
theorem Inv.who (H : Inv ext extm L c fo mo lo gs) {t : Nat} {cmd : Cmd} {i : Nat} (hn : c.next t cmd) (hc : cmd.fd? = some (i : Int)) :
    fo i = .thr t ∨ ((∃ n off, cmd = .pread i n off) ∧ ∃ h, fo i = .obj h ∧ c.readsFrom t h) := by
  obtain ⟨home, k, ht⟩ := hn
  obtain ⟨g, hg⟩ := H.ghost ht
  have h1 : cmd.spec _ g := H.run t home _ g ht hg
  rcases spec_fd h1 hc with h2 | ⟨h2, h3⟩
  · exact .inl ((H.F.thr t i).2 ⟨g, hg, h2⟩)
  · right
    refine ⟨h3, ?_⟩
    cases home with
    | reads h =>
      obtain ⟨o, ho, _, hB⟩ := H.reads t h _ g ht hg
      exact ⟨h, (H.F.obj h i).2 ⟨o, ho, hB i h2⟩, _, ht⟩
    | none => rw [H.noB t _ _ g ht (fun _ e => nomatch e) hg] at h2; exact nomatch h2
    | own h => rw [H.noB t _ _ g ht (fun _ e => nomatch e) hg] at h2; exact nomatch h2

theorem Inv.safe (H : Inv ext extm L c fo mo lo gs) {w : World} (he : ∀ i, ext i ↔ w.k.isOpen i) (hm : ∀ m, extm m ↔ w.k.isMapped m) :
    Safe w c := by
  refine ⟨fun t home f ht => ?_, fun t cmd i hn hc => ?_, fun t cmd i h o hn hc ho hi => ?_, fun t u cmd cmd' i hne hn hn' hc hc' => ?_,
    fun t m hn => ?_, fun t n hn => ?_⟩
  · obtain ⟨g, hg⟩ := H.ghost ht
    exact H.run t home _ g ht hg
  · have hfo : fo i ≠ .free ∧ fo i ≠ .ext := by
      rcases H.who hn hc with h1 | ⟨_, h, h1, _⟩ <;> rw [h1] <;> simp
    exact ⟨(H.res.fds i).2 hfo.1, fun hx => hfo.2 ((H.F.out i).2 ((he i).2 hx))⟩
  · have h1 := (H.F.obj h i).2 ⟨o, ho, hi⟩
    rcases H.who hn hc with h2 | ⟨h2, h', h3, h4⟩
    · rw [h1] at h2; exact nomatch h2
    · rw [h1] at h3
      injection h3 with h3
      subst h3
      exact ⟨h2, h4⟩
  · rcases H.who hn hc with h1 | ⟨h1, h, h2, h3⟩ <;> rcases H.who hn' hc' with h1' | ⟨h1', h', h2', h3'⟩
    · rw [h1] at h1'; injection h1' with h1'; exact (hne h1').elim
    · rw [h1] at h2'; exact nomatch h2'
    · rw [h2] at h1'; exact nomatch h1'
    · rw [h2] at h2'
      injection h2' with h2'
      subst h2'
      exact ⟨h1, h1', h, h3, h3'⟩
  · have own : ∀ u, c.next u (.munmap m) → mo m = .thr u := by
      rintro u ⟨home, k, ht⟩
      obtain ⟨g, hg⟩ := H.ghost ht
      have h1 : (Cmd.munmap m).spec _ g := H.run u home _ g ht hg
      exact (H.M.thr u m).2 ⟨g, hg, h1.1⟩
    have h1 := own t hn
    refine ⟨(H.res.maps m).2 (by rw [h1]; simp), fun hx => ?_, fun h o ho hi => ?_, fun u hu hn' => ?_⟩
    · rw [(H.M.out m).2 ((hm m).2 hx)] at h1; exact nomatch h1
    · rw [(H.M.obj h m).2 ⟨o, ho, hi⟩] at h1; exact nomatch h1
    · rw [own u hn'] at h1; injection h1 with h1; exact hu h1
  · have own : ∀ u, c.next u (.remove n) → lo n = .thr u := by
      rintro u ⟨home, k, ht⟩
      obtain ⟨g, hg⟩ := H.ghost ht
      have h1 : (Cmd.remove n).spec _ g := H.run u home _ g ht hg
      exact (H.N.thr u n).2 ⟨g, hg, h1.1⟩
    have h1 := own t hn
    refine ⟨(H.locks n).2 (by rw [h1]; simp), fun h fd ho => ?_, fun u hu hn' => ?_⟩
    · rw [(H.N.obj h n).2 ⟨_, ho, rfl⟩] at h1; exact nomatch h1
    · rw [own u hn'] at h1; injection h1 with h1; exact hu h1

end Conc
end Posix
end Lsmdb
