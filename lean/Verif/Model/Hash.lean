import Verif.Model.Coding

/-!
# Model of `util/hash.cc`
-/

namespace Lsmdb
namespace Hash

/-- `const uint32_t m` (util/hash.cc:22). -/
def m : UInt32 := 0xc6a4a793

/-- The `while (data + 4 <= limit)` loop (util/hash.cc:28-34); returns the final `data` and `h`. -/
def hashLoop (buf : Bytes) (data limit : Nat) (h : UInt32) : M (Nat × UInt32) :=
  if data + 4 ≤ limit then do
    let w ← Coding.DecodeFixed32 buf data
    let h := h + w
    let h := h * m
    let h := h ^^^ (h >>> 16)
    hashLoop buf (data + 4) limit h
  else return (data, h)
termination_by limit - data

/-- The `switch (limit - data)` with its fall-throughs (util/hash.cc:37-49).  Each `if` is one case
label; a case is executed when the scrutinee is its label or any label above it that falls
through. -/
def hashTail (buf : Bytes) (data limit : Nat) (h : UInt32) : M UInt32 := do
  let k := limit - data
  let h ← if k = 3 then do
      let b ← rd buf (data + 2)
      pure (h + (b.toUInt32 <<< 16))
    else pure h
  let h ← if k = 3 ∨ k = 2 then do
      let b ← rd buf (data + 1)
      pure (h + (b.toUInt32 <<< 8))
    else pure h
  if k = 3 ∨ k = 2 ∨ k = 1 then do
    let b ← rd buf data
    let h := h + b.toUInt32
    let h := h * m
    return h ^^^ (h >>> 24)
  else return h

/-- `Hash(const char* data, size_t n, uint32_t seed)` (util/hash.cc:20-51).  `n * m` is computed in
`size_t` and truncated to 32 bits by the assignment to `h`, i.e. it is the 32-bit product. -/
def Hash (buf : Bytes) (data n : Nat) (seed : UInt32) : M UInt32 := do
  let limit := data + n
  let h := seed ^^^ (UInt32.ofNat n * m)
  let (data, h) ← hashLoop buf data limit h
  hashTail buf data limit h

end Hash
end Lsmdb
