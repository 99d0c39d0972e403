import Verif.Model.BtcCore
/-!
# Model of lib/python-bitcoinlib/bitcoin/bloom.py

`BB` abbreviates `lib/python-bitcoinlib/bitcoin/bloom.py`.

Simplifications:
* A filter is any byte string with any number of hash functions; `CBloomFilter.__init__` (BB:97-120), which computes these numbers with
  floats, is in `BloomNew.lean`.
* The seed of `MurmurHash3` is not negative (BB:123 is the only call).
* `ZeroDivisionError` is `PyErr.other`.
* An element is a byte string or a `COutPoint`, as documented (BB:129, BB:145).
-/
namespace Verif.Btc
open Verif

/-- `_ROTL32`, BB:23-25. -/
def rotl32 (x r : Nat) : Py Nat := do
  pyAssert (decide (x ≤ 0xFFFFFFFF))
  return ((x <<< r) &&& 0xFFFFFFFF) ||| (x >>> (32 - r))

/-- BB:46-48 and BB:72-74: `k1` multiplied, rotated, multiplied. -/
def murmurK (k1 : Nat) : Py Nat := do
  let k1 := (k1 * 0xcc9e2d51) &&& 0xFFFFFFFF
  let k1 ← rotl32 k1 15
  return (k1 * 0x1b873593) &&& 0xFFFFFFFF

/-- The loop BB:41-54; the first argument counts how often it may run. -/
def murmurLoop (data : Bytes) : Nat → Nat → Nat → Py Nat
  | 0, _, _ => .error .other
  | fuel + 1, i, h1 =>
    if i < data.length - data.length % 4 ∧ data.length - i ≥ 4 then do
      let k1 ← murmurK (leNat ((data.drop i).take 4))
      let h1 := h1 ^^^ k1
      let h1 ← rotl32 h1 13
      let h1 := (((h1 * 5) &&& 0xFFFFFFFF) + 0xe6546b64) &&& 0xFFFFFFFF
      murmurLoop data fuel (i + 4) h1
    else return h1

/-- `vDataToHash[j]` -/
def byteAt (data : Bytes) (j : Nat) : Py Nat :=
  match data[j]? with
  | some b => .ok b.toNat
  | none => .error .indexError

/-- The tail, BB:57-71. -/
def murmurTail (data : Bytes) : Py Nat := do
  let j := data.length / 4 * 4
  let k1 := 0
  let k1 ← (if data.length &&& 3 ≥ 3 then do let b ← byteAt data (j + 2); return k1 ^^^ (b <<< 16) else return k1 : Py Nat)
  let k1 ← (if data.length &&& 3 ≥ 2 then do let b ← byteAt data (j + 1); return k1 ^^^ (b <<< 8) else return k1 : Py Nat)
  let k1 ← (if data.length &&& 3 ≥ 1 then do let b ← byteAt data j; return k1 ^^^ b else return k1 : Py Nat)
  return k1 &&& 0xFFFFFFFF

/-- `MurmurHash3`, BB:27-85. -/
def murmurHash3 (seed : Nat) (data : Bytes) : Py Nat := do
  pyAssert (decide (seed ≤ 0xFFFFFFFF))
  let h1 ← murmurLoop data (data.length + 1) 0 seed
  let k1 ← murmurTail data
  let k1 ← murmurK k1
  let h1 := h1 ^^^ k1
  let h1 := h1 ^^^ (data.length &&& 0xFFFFFFFF)
  let h1 := h1 ^^^ ((h1 &&& 0xFFFFFFFF) >>> 16)
  let h1 := h1 * 0x85ebca6b
  let h1 := h1 ^^^ ((h1 &&& 0xFFFFFFFF) >>> 13)
  let h1 := h1 * 0xc2b2ae35
  let h1 := h1 ^^^ ((h1 &&& 0xFFFFFFFF) >>> 16)
  return h1 &&& 0xFFFFFFFF

/-- `CBloomFilter`, BB:88-120. -/
structure CBloomFilter where
  vData : Bytes
  nHashFuncs : Int
  nTweak : Int
  nFlags : Int
deriving DecidableEq, Repr

/-- `CBloomFilter.bloom_hash`, BB:122-123; `x & 0xFFFFFFFF` of any integer is its remainder modulo 2³². -/
def CBloomFilter.bloomHash (f : CBloomFilter) (nHashNum : Nat) (data : Bytes) : Py Nat := do
  let h ← murmurHash3 (((nHashNum * 0xFBA4C795 : Nat) + f.nTweak) % 2 ^ 32).toNat data
  if f.vData.length * 8 = 0 then .error .other else return h % (f.vData.length * 8)

/-- `__bit_mask`, BB:125. -/
def bitMask : List Byte := [0x01#8, 0x02#8, 0x04#8, 0x08#8, 0x10#8, 0x20#8, 0x40#8, 0x80#8]

/-- `COutPoint` or bytes. -/
inductive Elem where
  | bytes (b : Bytes)
  | outpoint (o : COutPoint)
deriving DecidableEq, Repr

/-- BB:131-132, BB:147-148. -/
def Elem.data : Elem → Py Bytes
  | bytes b => .ok b
  | outpoint o => o.ser

/-- The loop of `insert`, BB:137-140, for the values of `i` given. -/
def insertLoop (data : Bytes) : List Nat → CBloomFilter → Py CBloomFilter
  | [], f => .ok f
  | i :: is, f => do
    let n ← f.bloomHash i data
    match f.vData[n >>> 3]?, bitMask[7 &&& n]? with
    | some b, some m => insertLoop data is { f with vData := f.vData.set (n >>> 3) (b ||| m) }
    | _, _ => .error .indexError

/-- `CBloomFilter.insert`, BB:126-140: the filter afterwards. -/
def CBloomFilter.insert (f : CBloomFilter) (elem : Elem) : Py CBloomFilter := do
  let data ← elem.data
  if f.vData.length = 1 ∧ f.vData.head? = some 0xff#8 then return f
  else insertLoop data (List.range f.nHashFuncs.toNat) f

/-- The loop of `contains`, BB:153-157, for the values of `i` given. -/
def containsLoop (f : CBloomFilter) (data : Bytes) : List Nat → Py Bool
  | [] => .ok true
  | i :: is => do
    let n ← f.bloomHash i data
    match f.vData[n >>> 3]?, bitMask[7 &&& n]? with
    | some b, some m => if b &&& m = 0#8 then return false else containsLoop f data is
    | _, _ => .error .indexError

/-- `CBloomFilter.contains`, BB:142-157. -/
def CBloomFilter.contains (f : CBloomFilter) (elem : Elem) : Py Bool := do
  let data ← elem.data
  if f.vData.length = 1 ∧ f.vData.head? = some 0xff#8 then return true
  else containsLoop f data (List.range f.nHashFuncs.toNat)

/-- `CBloomFilter.IsWithinSizeConstraints`, BB:159-160, with BB:90-91. -/
def CBloomFilter.isWithinSizeConstraints (f : CBloomFilter) : Bool := f.vData.length ≤ 36000 && decide (f.nHashFuncs ≤ 50)

/-- `CBloomFilter.stream_deserialize`, BB:167-178: the name `self` (BB:172) is used before it is given a value (BB:173). -/
def CBloomFilter.deser : P CBloomFilter := do
  let _ ← deserBytes
  P.fail .nameError

/-- `CBloomFilter.stream_serialize`, BB:180-186. -/
def CBloomFilter.ser (f : CBloomFilter) : Py Bytes := do
  let v ← serBytes f.vData
  let a ← packU 4 f.nHashFuncs
  let b ← packU 4 f.nTweak
  let c ← packU 1 f.nFlags
  return v ++ (a ++ b ++ c)

end Verif.Btc
