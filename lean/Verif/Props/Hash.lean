import Verif.Proof.Hash

/-!
# C07, C08: the hash function
-/

namespace Lsmdb
namespace Props
open Spec Hash

/-- C07: `Hash` of any bytes lying anywhere in memory reads only those bytes (it does not fault even
when they end exactly at the end of the storage, and the result does not depend on what surrounds
them) and equals the specified function of the bytes and the seed. -/
theorem C07_hash (pre bs post : Bytes) (seed : UInt32) :
    Hash (pre ++ bs ++ post) pre.length bs.length seed =
      .ok (UInt32.ofNat (Spec.hash seed.toNat bs)) := by
  rw [Hash_eq32]
  congr 1
  apply UInt32.toNat_inj.mp
  have e : (seed ^^^ (UInt32.ofNat bs.length * m)).toNat =
      seed.toNat ^^^ ((bs.length * hashM) % 2 ^ 32) := by
    rw [UInt32.toNat_xor, UInt32.toNat_mul, UInt32.toNat_ofNat']
    rw [show m.toNat = hashM from by decide, Nat.mod_mul_mod]
  have h := hashBytes32_toNat (seed ^^^ (UInt32.ofNat bs.length * m)) bs
  rw [e] at h
  have h2 := (hashBytes32 (seed ^^^ (UInt32.ofNat bs.length * m)) bs).toNat_lt
  rw [UInt32.toNat_ofNat', Spec.hash, ← h, Nat.mod_eq_of_lt h2]

/-- C07, the tight case: the storage is exactly the data, so reading any other byte would be a
fault. -/
theorem C07_exact_range (bs : Bytes) (seed : UInt32) :
    Hash bs 0 bs.length seed = .ok (UInt32.ofNat (Spec.hash seed.toNat bs)) := by
  have := C07_hash [] bs [] seed
  simpa using this

/-- C08: for fixed data the hash is a bijection of the seed. -/
theorem C08_seed_bijective (pre bs post : Bytes) :
    (∀ s s' : UInt32, Hash (pre ++ bs ++ post) pre.length bs.length s =
        Hash (pre ++ bs ++ post) pre.length bs.length s' → s = s') ∧
    (∀ y : UInt32, ∃ s, Hash (pre ++ bs ++ post) pre.length bs.length s = .ok y) := by
  constructor
  · intro s s' h
    rw [Hash_eq32, Hash_eq32] at h
    have := hashBytes32_inj bs (Except.ok.inj h)
    exact UInt32.xor_left_inj _ |>.mp this
  · intro y
    obtain ⟨h, e⟩ := hashBytes32_surj bs y
    refine ⟨h ^^^ (UInt32.ofNat bs.length * m), ?_⟩
    rw [Hash_eq32, UInt32.xor_assoc, UInt32.xor_self, UInt32.xor_zero, e]

/-- C08: two strings of equal length that differ only inside one aligned 4-byte block (`post`
arbitrary), or only in the trailing 1–3 bytes (`post` empty), have different hashes. -/
theorem C08_no_collision_in_block (pre w w' post : Bytes) (seed : UInt32)
    (hp : pre.length % 4 = 0) (hl : w.length = w'.length)
    (h4 : w.length = 4 ∨ (w.length < 4 ∧ post = []))
    (h : Hash (pre ++ w ++ post) 0 (pre ++ w ++ post).length seed =
      Hash (pre ++ w' ++ post) 0 (pre ++ w' ++ post).length seed) : w = w' := by
  have e (bs : Bytes) := Hash_eq32 [] bs [] seed
  simp only [List.nil_append, List.append_nil, List.length_nil] at e
  rw [e, e] at h
  have hlen : (pre ++ w ++ post).length = (pre ++ w' ++ post).length := by simp [hl]
  have h := Except.ok.inj h
  rw [hlen] at h
  generalize (seed ^^^ _ : UInt32) = h0 at h
  rw [List.append_assoc, List.append_assoc, hashBytes32_append _ _ _ hp,
    hashBytes32_append _ _ _ hp] at h
  rcases h4 with h4 | ⟨h4, rfl⟩
  · rw [hashBytes32_append _ _ _ (by rw [h4]), hashBytes32_append _ _ _ (by rw [← hl, h4])] at h
    exact hashBytes32_piece_inj _ w w' hl (by omega) (hashBytes32_inj post h)
  · rw [List.append_nil, List.append_nil] at h
    exact hashBytes32_piece_inj _ w w' hl (by omega) h

/-- C08: in particular all four-byte keys have distinct hashes. -/
theorem C08_four_byte_keys (k k' : Bytes) (seed : UInt32) (h : k.length = 4) (h' : k'.length = 4)
    (e : Hash k 0 4 seed = Hash k' 0 4 seed) : k = k' := by
  refine C08_no_collision_in_block [] k k' [] seed rfl (by omega) (Or.inl h) ?_
  simpa [h, h'] using e

example : ([1, 2, 3, 4] : Bytes).length % 4 = 0 ∧ ([7, 8, 9] : Bytes).length = ([7, 8, 1] : Bytes).length ∧
    (([7, 8, 9] : Bytes).length = 4 ∨ (([7, 8, 9] : Bytes).length < 4 ∧ ([] : Bytes) = [])) := by
  decide

/-- Test vectors of util/hash_test.cc:23-35 (tests, not proofs of anything general). -/
example : Spec.hash 0xbc9f1d34 [] = 0xbc9f1d34 ∧ Spec.hash 0xbc9f1d34 [0x62] = 0xef1345c4 ∧
    Spec.hash 0xbc9f1d34 [0xc3, 0x97] = 0x5b663814 ∧
    Spec.hash 0xbc9f1d34 [0xe2, 0x99, 0xa5] = 0x323c078f ∧
    Spec.hash 0xbc9f1d34 [0xe1, 0x80, 0xb9, 0x32] = 0xed21633a := by decide +kernel

end Props
end Lsmdb
