import Verif.Spec.MemEnv

/-!
# FileState is a byte sequence
-/

namespace Lsmdb
namespace MemEnv
open Spec Status

/-- Representation invariant: all blocks have the full size, and concatenated they are the contents
followed by less than a block of untouched cells. -/
structure FInv (f : FileState) (c : Bytes) : Prop where
  len : ∀ b ∈ f.blocks, b.length = kBlockSize
  size : f.size = c.length
  flat : ∃ pad, pad < kBlockSize ∧ f.blocks.flatten = c.map some ++ List.replicate pad none

theorem kB_pos : 0 < kBlockSize := by simp [kBlockSize]

theorem finv_new : FInv FileState.new [] :=
  ⟨by simp [FileState.new], rfl, 0, kB_pos, rfl⟩

theorem finv_refs {f : FileState} {c : Bytes} (h : FInv f c) (r : Int) :
    FInv { f with refs := r } c := ⟨h.len, h.size, h.flat⟩

theorem finv_truncate {f : FileState} {c : Bytes} (_ : FInv f c) : FInv f.Truncate [] :=
  ⟨by simp [FileState.Truncate], rfl, 0, kB_pos, rfl⟩

theorem flatten_length {bs : List Buf} (h : ∀ b ∈ bs, b.length = kBlockSize) :
    bs.flatten.length = bs.length * kBlockSize := by
  induction bs with
  | nil => simp
  | cons b bs ih =>
    rw [List.flatten_cons, List.length_append, h b (by simp),
      ih (fun x hx => h x (List.mem_cons_of_mem _ hx)), List.length_cons, Nat.succ_mul]
    omega

theorem block_at {bs : List Buf} (h : ∀ b ∈ bs, b.length = kBlockSize) {k : Nat}
    (hk : k < bs.length) :
    ∃ b rest, bs[k]? = some b ∧ b.length = kBlockSize ∧
      bs.flatten.drop (k * kBlockSize) = b ++ rest ∧
      rest = bs.flatten.drop ((k + 1) * kBlockSize) := by
  induction bs generalizing k with
  | nil => cases hk
  | cons b bs ih =>
    have hb := h b (by simp)
    cases k with
    | zero =>
      refine ⟨b, bs.flatten, rfl, hb, by simp, ?_⟩
      rw [List.flatten_cons, Nat.zero_add, Nat.one_mul, ← hb, List.drop_left]
    | succ k =>
      obtain ⟨b', rest, h1, h2, h3, h4⟩ :=
        ih (fun x hx => h x (List.mem_cons_of_mem _ hx)) (k := k) (by simpa using hk)
      refine ⟨b', rest, by simpa using h1, h2, ?_, ?_⟩
      · rw [List.flatten_cons, Nat.succ_mul, Nat.add_comm, ← List.drop_drop, ← hb, List.drop_left,
          hb, h3]
      · rw [List.flatten_cons, Nat.succ_mul, Nat.add_comm, ← List.drop_drop, ← hb, List.drop_left,
          hb, h4]

theorem values_some (l : Bytes) : values (l.map some) = .ok l := by
  induction l with
  | nil => rfl
  | cons x l ih => simp [values, ih, bind, Except.bind, pure, Except.pure]

theorem readLoop_eq {f : FileState} {c : Bytes} (hi : FInv f c) :
    ∀ fuel block off n, off < kBlockSize → n < fuel → block * kBlockSize + off + n ≤ c.length →
      readLoop f fuel block off n = .ok (sub c (block * kBlockSize + off) n) := by
  obtain ⟨hlen, hsz, pad, hpad, hflat⟩ := hi
  intro fuel
  induction fuel with
  | zero => intro _ _ n _ h; omega
  | succ fuel ih =>
    intro block off n hoff hn hle
    rw [readLoop.eq_def]
    simp only []
    by_cases hn0 : n > 0
    · rw [if_pos hn0]
      have hfl := flatten_length hlen
      have hfl2 : f.blocks.flatten.length = c.length + pad := by rw [hflat]; simp
      have hk : block < f.blocks.length := by
        have : block * kBlockSize < f.blocks.length * kBlockSize := by omega
        exact Nat.lt_of_mul_lt_mul_right this
      obtain ⟨b, rest, hb1, hb2, hb3, hb4⟩ := block_at hlen hk
      have hav : ∃ av, (if kBlockSize - off > n then n else kBlockSize - off) = av ∧ 0 < av ∧
          av ≤ n ∧ off + av ≤ kBlockSize ∧ (av = n ∨ off + av = kBlockSize) := by
        by_cases h : kBlockSize - off > n
        · exact ⟨n, by rw [if_pos h], hn0, Nat.le_refl _, by omega, .inl rfl⟩
        · exact ⟨kBlockSize - off, by rw [if_neg h], by omega, by omega, by omega, .inr (by omega)⟩
      obtain ⟨av, hav, hav0, havn, havb, hcase⟩ := hav
      rw [hav, hb1]
      simp only []
      have hc : cells b off av = .ok ((sub c (block * kBlockSize + off) av).map some) := by
        unfold cells
        rw [if_pos (by omega)]
        congr 1
        have e1 : (b.drop off).take av = ((f.blocks.flatten.drop (block * kBlockSize)).drop off).take av := by
          rw [hb3, List.drop_append_of_le_length (by omega), List.take_append_of_le_length]
          simp; omega
        rw [e1, List.drop_drop, hflat, List.drop_append_of_le_length (by simp; omega),
          List.take_append_of_le_length (by simp; omega)]
        simp [sub, List.map_drop, List.map_take]
      rw [hc]
      simp only [bind, Except.bind, values_some]
      have hrest : readLoop f fuel (block + 1) 0 (n - av) =
          .ok (sub c (block * kBlockSize + off + av) (n - av)) := by
        rcases hcase with h | h
        · subst h
          rw [Nat.sub_self, readLoop.eq_def]
          simp [sub]
        · rw [ih (block + 1) 0 (n - av) kB_pos (by omega) (by rw [Nat.succ_mul]; omega)]
          have e : (block + 1) * kBlockSize + 0 = block * kBlockSize + off + av := by
            rw [Nat.succ_mul]; omega
          rw [e]
      rw [hrest]
      simp only [pure, Except.pure]
      congr 1
      unfold sub
      have : n = av + (n - av) := by omega
      conv => rhs; rw [this, List.take_add, List.drop_drop]
    · have : n = 0 := by omega
      subst this
      simp [sub]

theorem Read_eq {f : FileState} {c : Bytes} (hi : FInv f c) (hc : c.length < 2 ^ 64) (off n : Nat) :
    f.Read off n = .ok (if off ≤ c.length then (.ok, some (sub c off n)) else
      (FS.beyond, none)) := by
  unfold FileState.Read
  rw [hi.size]
  by_cases h : off > c.length
  · have h' : ¬ off ≤ c.length := by omega
    rw [if_pos h]; simp only [if_neg h']; rfl
  · have h' : off ≤ c.length := by omega
    rw [if_neg h]; simp only [if_pos h']
    have hmin : (if n > c.length - off then c.length - off else n) = min n (c.length - off) := by
      split <;> omega
    simp only [hmin]
    have hsub : sub c off (min n (c.length - off)) = sub c off n := by
      unfold sub
      rw [Nat.min_comm, ← List.length_drop, ← List.take_take]
      rw [List.take_of_length_le (i := (List.drop off c).length)]
      rw [List.length_take]; omega
    by_cases h0 : min n (c.length - off) = 0
    · rw [if_pos h0]
      rw [← hsub, h0]
      simp [sub, pure, Except.pure]
    · rw [if_neg h0]
      have hq : off / kBlockSize ≤ 2 ^ 64 - 1 := by
        have := Nat.div_le_self off kBlockSize
        omega
      have hk : off / kBlockSize * kBlockSize + off % kBlockSize = off := by
        rw [Nat.mul_comm]; exact Nat.div_add_mod off kBlockSize
      rw [readLoop_eq hi _ _ _ _ (Nat.mod_lt _ kB_pos) (Nat.lt_succ_self _) (by omega), hk, hsub]
      simp only [cassert, hq, decide_true, if_true, bind, Except.bind, pure, Except.pure]

theorem appendLoop_eq (data : Slice) (hw : data.off + data.len ≤ data.buf.length) :
    ∀ fuel (f : FileState) (c : Bytes) src len, FInv f c → len < fuel →
      src + len ≤ data.buf.length →
      ∃ f', appendLoop data fuel f src len = .ok f' ∧ FInv f' (c ++ sub data.buf src len) ∧
        f'.refs = f.refs := by
  intro fuel
  induction fuel with
  | zero => intro _ _ _ len _ h; omega
  | succ fuel ih =>
    intro f c src len hi hlen hsrc
    rw [appendLoop.eq_def]
    simp only []
    by_cases h0 : len > 0
    · rw [if_pos h0]
      obtain ⟨hbl, hsz, pad, hpad, hflat⟩ := hi
      have hfl := flatten_length hbl
      have hfl2 : f.blocks.flatten.length = c.length + pad := by rw [hflat]; simp
      -- the blocks after making room: a last block with room at `offset`
      have key : ∃ front last : _, ∃ room,
          (if f.size % kBlockSize ≠ 0 then (f.blocks, kBlockSize - f.size % kBlockSize)
            else (f.blocks ++ [List.replicate kBlockSize none], kBlockSize)) =
            (front ++ [last], room) ∧
          (∀ b ∈ front, b.length = kBlockSize) ∧ last.length = kBlockSize ∧
          room = kBlockSize - f.size % kBlockSize ∧ 0 < room ∧
          (front ++ [last]).flatten = c.map some ++ List.replicate room none ∧
          front.flatten ++ last.take (f.size % kBlockSize) = c.map some ∧
          last.drop (f.size % kBlockSize) = List.replicate room none := by
        have hB : 0 < kBlockSize := kB_pos
        by_cases ho : f.size % kBlockSize ≠ 0
        · rw [if_pos ho]
          have hne : f.blocks ≠ [] := by
            intro h; rw [h] at hfl2; simp at hfl2; rw [hsz] at ho; have : c.length = 0 := by omega
            rw [this] at ho; simp at ho
          obtain ⟨front, last, hfb⟩ : ∃ front last, f.blocks = front ++ [last] :=
            ⟨f.blocks.dropLast, f.blocks.getLast hne, (List.dropLast_concat_getLast hne).symm⟩
          have hpos : pad = kBlockSize - f.size % kBlockSize := by
            have hm := Nat.mod_lt f.size hB
            have hd := Nat.div_add_mod f.size kBlockSize
            rw [hfl2, ← hsz] at hfl
            have : (f.size + pad) % kBlockSize = 0 := by rw [hfl]; simp
            have h2 : (f.size % kBlockSize + pad) % kBlockSize = 0 := by
              rw [Nat.add_mod] at this; rw [Nat.add_mod, Nat.mod_mod]; exact this
            have h3 : f.size % kBlockSize + pad < 2 * kBlockSize := by omega
            have h4 : f.size % kBlockSize + pad = kBlockSize := by
              rcases Nat.lt_or_ge (f.size % kBlockSize + pad) kBlockSize with h | h
              · rw [Nat.mod_eq_of_lt h] at h2; omega
              · rw [Nat.mod_eq_sub_mod h, Nat.mod_eq_of_lt (by omega)] at h2; omega
            omega
          have hm := Nat.mod_lt f.size hB
          have hlast : last.length = kBlockSize := hbl last (by rw [hfb]; simp)
          have hfront : ∀ b ∈ front, b.length = kBlockSize := fun b hb => hbl b (by rw [hfb]; simp [hb])
          have hff := flatten_length hfront
          have htot : front.flatten.length + last.length = c.length + pad := by
            rw [← hfl2, hfb]; simp
          have hsplit : front.flatten ++ (last.take (f.size % kBlockSize) ++ last.drop (f.size % kBlockSize))
              = c.map some ++ List.replicate pad none := by
            rw [List.take_append_drop, ← hflat, hfb]; simp
          rw [← List.append_assoc] at hsplit
          have hsp := List.append_inj hsplit (by simp only [List.length_append, List.length_take, List.length_map]; omega)
          refine ⟨front, last, pad, by rw [hfb, hpos], hfront, hlast, hpos, by omega,
            by rw [← hfb, hflat], hsp.1, hsp.2⟩
        · rw [if_neg ho]
          have ho : f.size % kBlockSize = 0 := by omega
          have hp0 : pad = 0 := by
            rw [hfl2, ← hsz] at hfl
            have h1 : (f.size + pad) % kBlockSize = 0 := by rw [hfl]; simp
            rw [Nat.add_mod, ho, Nat.zero_add, Nat.mod_mod, Nat.mod_eq_of_lt hpad] at h1
            exact h1
          subst hp0
          refine ⟨f.blocks, List.replicate kBlockSize none, kBlockSize, rfl, hbl, by simp, by omega,
            hB, ?_, ?_, ?_⟩
          · simp [hflat]
          · rw [ho]; simpa using hflat
          · rw [ho]; simp
      obtain ⟨front, last, room, hk, hfront, hlast, hroom, hr0, hfl3, hl1, hl2⟩ := key
      rw [hk]
      simp only []
      have hav : ∃ av, (if room > len then len else room) = av ∧ 0 < av ∧
          av ≤ len ∧ av ≤ room := by
        by_cases h : room > len
        · exact ⟨len, by rw [if_pos h], h0, Nat.le_refl _, by omega⟩
        · exact ⟨room, by rw [if_neg h], by omega, by omega, by omega⟩
      obtain ⟨av, hav, hav0, havn, havr⟩ := hav
      rw [hav]
      simp only [List.getLast?_concat, List.dropLast_concat]
      have hcell : sliceCells ⟨data.buf, src, av⟩ av = .ok ((sub data.buf src av).map some) := by
        unfold sliceCells; rw [if_pos (by simp only []; omega)]; rfl
      have hslen : (sub data.buf src av).length = av := by unfold sub; simp; omega
      have hm := Nat.mod_lt f.size kB_pos
      have hst : store last (f.size % kBlockSize) ((sub data.buf src av).map some) =
          .ok (last.take (f.size % kBlockSize) ++ (sub data.buf src av).map some ++
            List.replicate (room - av) none) := by
        unfold store
        rw [if_pos (by simp only [List.length_map, hslen]; omega)]
        congr 1
        rw [List.length_map, hslen, ← List.drop_drop, hl2, List.drop_replicate]
      rw [hcell]
      simp only [bind, Except.bind, hst]
      have hi' : FInv { f with
            blocks := front ++ [last.take (f.size % kBlockSize) ++ (sub data.buf src av).map some ++
              List.replicate (room - av) none], size := f.size + av } (c ++ sub data.buf src av) := by
        refine ⟨?_, by simp [hsz, hslen], room - av, by omega, ?_⟩
        · intro b hb
          rcases List.mem_append.1 hb with hb | hb
          · exact hfront b hb
          · rw [List.mem_singleton.1 hb]
            simp only [List.length_append, List.length_take, List.length_map, List.length_replicate,
              hslen, hlast]
            omega
        · simp only [List.flatten_append, List.flatten_cons, List.flatten_nil, List.append_nil]
          rw [← List.append_assoc, ← List.append_assoc, hl1]
          simp
      obtain ⟨f', h1, h2, h3⟩ := ih _ _ (src + av) (len - av) hi' (by omega) (by omega)
      refine ⟨f', h1, ?_, h3⟩
      have : sub data.buf src len = sub data.buf src av ++ sub data.buf (src + av) (len - av) := by
        unfold sub
        rw [← List.drop_drop]
        have : len = av + (len - av) := by omega
        conv => lhs; rw [this, List.take_add]
      rw [this, ← List.append_assoc]
      exact h2
    · have : len = 0 := by omega
      subst this
      rw [if_neg h0]
      exact ⟨f, rfl, by simpa [sub] using hi, rfl⟩

theorem Append_eq {f : FileState} {c : Bytes} (hi : FInv f c) {d : Slice} (hw : d.WF) :
    ∃ f', f.Append d = .ok f' ∧ FInv f' (c ++ d.bytes) ∧ f'.refs = f.refs := by
  have := appendLoop_eq d hw (d.len + 1) f c d.off d.len hi (Nat.lt_succ_self _) hw
  exact this

end MemEnv
end Lsmdb
