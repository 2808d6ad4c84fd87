import Verif.Model.Coding
import Verif.Model.Hash
import Verif.Model.Logging
import Verif.Model.Status
import Verif.Model.Cache

/-!
# The unit tests of /repo/util, run on the model

Evidence that the model does what the code does; not proofs of anything general.  `expect` is `ASSERT_TRUE`.
-/

namespace Lsmdb
namespace RepoTests

/-- The bytes of a string literal. -/
def str (s : String) : Bytes := s.toUTF8.data.toList

/-- `ASSERT_TRUE`. -/
def expect (c : Bool) : M Unit := if c then .ok () else .error .assertFail

/-- A test passes if it runs to its end: no assertion of the test or of the code fails and nothing undefined happens. -/
def passes (t : M Unit) : Bool := match t with | .ok () => true | .error _ => false

/-! ## util/hash_test.cc -/

def hashTest : M Unit := do
  let h (d : Bytes) (seed : UInt32) := Hash.Hash d 0 d.length seed
  expect ((← h [] 0xbc9f1d34) == 0xbc9f1d34)
  expect ((← h [0x62] 0xbc9f1d34) == 0xef1345c4)
  expect ((← h [0xc3, 0x97] 0xbc9f1d34) == 0x5b663814)
  expect ((← h [0xe2, 0x99, 0xa5] 0xbc9f1d34) == 0x323c078f)
  expect ((← h [0xe1, 0x80, 0xb9, 0x32] 0xbc9f1d34) == 0xed21633a)
  let data5 : Bytes := [
      0x01, 0xc0, 0x00, 0x00, 0x00, 0x00, 0x00, 0x00, 0x00, 0x00, 0x00, 0x00,
      0x00, 0x00, 0x00, 0x00, 0x14, 0x00, 0x00, 0x00, 0x00, 0x00, 0x04, 0x00,
      0x00, 0x00, 0x00, 0x14, 0x00, 0x00, 0x00, 0x18, 0x28, 0x00, 0x00, 0x00,
      0x00, 0x00, 0x00, 0x00, 0x02, 0x00, 0x00, 0x00, 0x00, 0x00, 0x00, 0x00]
  expect ((← h data5 0x12345678) == 0xf333dabb)

example : passes hashTest = true := by decide +kernel

/-! ## util/logging_test.cc -/

def numberToStringTest : M Unit :=
  let t (s : String) (n : UInt64) : M Unit := expect (Logging.NumberToString n == str s)
  do
    t "0" 0; t "1" 1; t "9" 9; t "10" 10; t "11" 11; t "19" 19; t "99" 99
    t "100" 100; t "109" 109; t "199" 199; t "123" 123; t "12345678" 12345678
    t "18446744073709551000" 18446744073709551000
    t "18446744073709551600" 18446744073709551600
    t "18446744073709551610" 18446744073709551610
    t "18446744073709551614" 18446744073709551614
    t "18446744073709551615" 18446744073709551615

/-- `ConsumeDecimalNumberRoundtripTest`. -/
def roundtrip (number : UInt64) (padding : Bytes := []) : M Unit := do
  let decimal_number := Logging.NumberToString number
  let input := Slice.ofBytes (decimal_number ++ padding)
  let (ok, output, result) ← Logging.ConsumeDecimalNumber input 0
  expect ok
  expect (number == result)
  expect (decimal_number.length == output.off - input.off)
  expect (padding.length == output.len)

def roundtripTest : M Unit := do
  for n in ([0, 1, 9, 10, 11, 19, 99, 100, 109, 190, 123] : List UInt64) do roundtrip n
  for i in List.range 100 do roundtrip (0xffffffffffffffff - UInt64.ofNat i)

def roundtripPaddingTest : M Unit := do
  roundtrip 0 (str " "); roundtrip 1 (str "abc"); roundtrip 9 (str "x"); roundtrip 10 (str "_"); roundtrip 11 [0, 0, 0]
  roundtrip 19 (str "abc"); roundtrip 99 (str "padding"); roundtrip 100 (str " ")
  for i in List.range 100 do roundtrip (0xffffffffffffffff - UInt64.ofNat i) (str "padding")

/-- `ConsumeDecimalNumberOverflowTest`. -/
def overflow (s : String) : M Unit := do
  let (ok, _, _) ← Logging.ConsumeDecimalNumber (Slice.ofBytes (str s)) 0
  expect (!ok)

def overflowTest : M Unit := do
  for s in ["18446744073709551616", "18446744073709551617", "18446744073709551618", "18446744073709551619", "18446744073709551620",
      "18446744073709551621", "18446744073709551622", "18446744073709551623", "18446744073709551624", "18446744073709551625",
      "18446744073709551626", "18446744073709551700", "99999999999999999999"] do overflow s

/-- `ConsumeDecimalNumberNoDigitsTest`. -/
def noDigits (s : Bytes) : M Unit := do
  let input := Slice.ofBytes s
  let (ok, output, _) ← Logging.ConsumeDecimalNumber input 0
  expect (!ok)
  expect (input.off == output.off)
  expect (input.len == output.len)

def noDigitsTest : M Unit := do
  noDigits []; noDigits (str " "); noDigits (str "a"); noDigits (str " 123"); noDigits (str "a123")
  noDigits (0 :: str "123"); noDigits (127 :: str "123"); noDigits (255 :: str "123")

example : passes numberToStringTest = true := by decide +kernel
example : passes roundtripTest = true := by decide +kernel
example : passes roundtripPaddingTest = true := by decide +kernel
example : passes overflowTest = true := by decide +kernel
example : passes noDigitsTest = true := by decide +kernel

/-! ## util/status_test.cc -/

def statusTest1 : M Unit := do
  let m ← Status.run .init [.mkOk 0, .moveCtor 1 0]
  expect (← Status.isOk m 1)
  let m ← Status.run m [.destroy 1, .destroy 0]
  expect (m.heap.all (·.isNone))

def statusTest2 : M Unit := do
  let m ← Status.run .init [.mkErr 0 .notFound (Slice.ofBytes (str "custom NotFound status message")) .empty, .moveCtor 1 0]
  expect (← Status.isCode m 1 .notFound)
  let s ← Status.ToString m 1
  expect (s == "NotFound: ".toUTF8.toList ++ str "custom NotFound status message")
  let m ← Status.run m [.destroy 1, .destroy 0]
  expect (m.heap.all (·.isNone))

/-- Self-move, and destruction frees everything. -/
def statusTest3 : M Unit := do
  let m ← Status.run .init [.mkErr 0 .ioError (Slice.ofBytes (str "custom IOError status message")) .empty, .moveAssign 0 0, .destroy 0]
  expect (m.heap.all (·.isNone))

example : passes statusTest1 = true := by decide +kernel
example : passes statusTest2 = true := by decide +kernel
example : passes statusTest3 = true := by decide +kernel

/-! ## util/cache_test.cc

The fixture: the cache, and the keys and values given to the deleter so far. -/

structure Fix where
  cache : Cache.Sharded
  deleted : List (Bytes × Nat)

abbrev T := StateT Fix M

def EncodeKey (k : Nat) : Slice := Slice.ofBytes (Coding.PutFixed32 [] (UInt32.ofNat k))

/-- Run an operation; what the deleter was called with in it is appended to `deleted_keys_` and `deleted_values_` (an operation of
these tests runs deleters in one shard only). -/
def op {α : Type} (f : Cache.Sharded → M (α × Cache.Sharded)) : T α := do
  let s ← get
  let (a, c) ← f s.cache
  let new := (List.zipWith (fun (x y : Cache.Shard) => y.log.drop x.log.length) s.cache.shards c.shards).flatten
  set (⟨c, s.deleted ++ new.map (fun d => (d.key, d.value))⟩ : Fix)
  return a

def lookupH (key : Nat) : T (Option Cache.Handle) := op fun c => do
  let (c, h) ← c.Lookup Cache.HashSlice (EncodeKey key)
  return (h, c)

def release (h : Cache.Handle) : T Unit := op fun c => return ((), ← c.Release h)

def value (h : Cache.Handle) : T Nat := op fun c => return (← c.Value h, c)

/-- `CacheTest::Lookup`. -/
def lookup (key : Nat) : T Int := do
  match ← lookupH key with
  | none => return -1
  | some h =>
    let r ← value h
    release h
    return r

/-- `CacheTest::InsertAndReturnHandle`. -/
def insertH (key v : Nat) (charge : UInt64 := 1) : T Cache.Handle := op fun c => do
  let (c, h) ← c.Insert Cache.HashSlice (EncodeKey key) v charge 0
  return (h, c)

/-- `CacheTest::Insert`. -/
def insert (key v : Nat) (charge : UInt64 := 1) : T Unit := do release (← insertH key v charge)

/-- `CacheTest::Erase`. -/
def erase (key : Nat) : T Unit := op fun c => return ((), ← c.Erase Cache.HashSlice (EncodeKey key))

def prune : T Unit := op fun c => return ((), ← c.Prune)

def check (c : Bool) : T Unit := StateT.lift (expect c)

/-- `ASSERT_EQ(n, deleted_keys_.size())` and the deleted pairs from `from` on. -/
def deletedAre (l : List (Nat × Nat)) : T Unit := do
  check ((← get).deleted == l.map (fun p => ((EncodeKey p.1).buf, p.2)))

/-- Set up, run, tear down. -/
def cacheTest (size : UInt64) (t : T Unit) : M Unit := do
  let c ← Cache.newSharded size
  let ((), f) ← t.run ⟨c, []⟩
  let _ ← Cache.destroyShards f.cache.shards
  return ()

def simple : T Unit := do
  check ((← lookup 100) == -1)
  insert 100 101
  check ((← lookup 100) == 101)
  insert 100 201
  check ((← lookup 100) == 201)
  erase 100
  check ((← lookup 100) == -1)
  insert 200 201
  check ((← lookup 200) == 201)
  erase 200
  check ((← lookup 200) == -1)
  let h ← insertH 100 101
  check ((← lookup 100) == 101)
  erase 100
  check ((← lookup 100) == -1)
  deletedAre [(100, 101), (100, 201), (200, 201)]
  release h
  deletedAre [(100, 101), (100, 201), (200, 201), (100, 101)]

def hitAndMiss : T Unit := do
  check ((← lookup 100) == -1)
  insert 100 101
  check ((← lookup 100) == 101)
  check ((← lookup 200) == -1)
  check ((← lookup 300) == -1)
  insert 200 201
  check ((← lookup 100) == 101)
  check ((← lookup 200) == 201)
  check ((← lookup 300) == -1)
  insert 100 102
  check ((← lookup 100) == 102)
  check ((← lookup 200) == 201)
  check ((← lookup 300) == -1)
  deletedAre [(100, 101)]

def eraseTest : T Unit := do
  erase 200
  deletedAre []
  insert 400 401
  check ((← lookup 400) == 401)
  insert 100 101
  insert 200 201
  erase 100
  check ((← lookup 100) == -1)
  check ((← lookup 200) == 201)
  deletedAre [(100, 101)]
  erase 100
  check ((← lookup 100) == -1)
  check ((← lookup 200) == 201)
  deletedAre [(100, 101)]

/-- The handle a lookup that must succeed returns (the test dereferences it without checking). -/
def lookupH! (key : Nat) : T Cache.Handle := do
  match ← lookupH key with
  | some h => return h
  | none => StateT.lift (.error .nullDeref)

def entriesArePinned : T Unit := do
  insert 100 101
  let h1 ← lookupH! 100
  check ((← value h1) == 101)
  insert 100 102
  let h2 ← lookupH! 100
  check ((← value h2) == 102)
  deletedAre []
  release h1
  deletedAre [(100, 101)]
  erase 100
  check ((← lookup 100) == -1)
  deletedAre [(100, 101)]
  release h2
  deletedAre [(100, 101), (100, 102)]

/-- Scaled down: `n` insertions (the test: `kCacheSize + 100`). -/
def evictionPolicy (n : Nat) : T Unit := do
  insert 100 101
  insert 200 201
  insert 300 301
  let h ← lookupH! 300
  for i in List.range n do
    insert (1000 + i) (2000 + i)
    check ((← lookup (1000 + i)) == 2000 + i)
    check ((← lookup 100) == 101)
  check ((← lookup 100) == 101)
  check ((← lookup 200) == -1)
  check ((← lookup 300) == 301)
  release h

/-- Scaled down as well. -/
def useExceedsCacheSize (n : Nat) : T Unit := do
  let mut h : List Cache.Handle := []
  for i in List.range n do
    h := h ++ [← insertH (1000 + i) (2000 + i)]
  for i in List.range n do
    check ((← lookup (1000 + i)) == 2000 + i)
  for x in h do release x

/-- Scaled down as well: `m` entries; `limit` is `kCacheSize + kCacheSize/10`. -/
def heavyEntries (m limit : Nat) : T Unit := do
  for i in List.range m do
    insert i (1000 + i) (if i % 2 = 1 then 1 else 10)
  let mut cached := 0
  for i in List.range m do
    let r ← lookup i
    if r ≥ 0 then
      cached := cached + (if i % 2 = 1 then 1 else 10)
      check (r == 1000 + i)
  check (cached ≤ limit)

def newId : T Unit := do
  let a ← op fun c => return (c.NewId.2, c.NewId.1)
  let b ← op fun c => return (c.NewId.2, c.NewId.1)
  check (a != b)

def pruneTest : T Unit := do
  insert 1 100
  insert 2 100
  let h ← lookupH! 1
  prune
  release h
  check ((← lookup 1) == 100)
  check ((← lookup 2) == -1)

def zeroSizeCache : T Unit := do
  insert 1 100
  check ((← lookup 1) == -1)

example : passes (cacheTest 1000 simple) = true := by decide +kernel
example : passes (cacheTest 1000 hitAndMiss) = true := by decide +kernel
example : passes (cacheTest 1000 eraseTest) = true := by decide +kernel
example : passes (cacheTest 1000 entriesArePinned) = true := by decide +kernel
example : passes (cacheTest 1000 newId) = true := by decide +kernel
example : passes (cacheTest 1000 pruneTest) = true := by decide +kernel
example : passes (cacheTest 0 zeroSizeCache) = true := by decide +kernel
example : passes (cacheTest 32 (evictionPolicy 40)) = true := by decide +kernel
example : passes (cacheTest 32 (useExceedsCacheSize 40)) = true := by decide +kernel
example : passes (cacheTest 160 (heavyEntries 60 176)) = true := by decide +kernel

end RepoTests
end Lsmdb
