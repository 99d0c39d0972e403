import Verif.Model.Serialize
/-!
# Model of lib/python-bitcoinlib/bitcoin/core/serialize.py

`BS` abbreviates `lib/python-bitcoinlib/bitcoin/core/serialize.py`.  `struct.pack`/`struct.unpack` belong to
CPython; they are modelled by little-endian two's complement with `struct.error` out of range.
-/
namespace Verif.Btc
open Verif

/-- `MAX_SIZE`, BS:34. -/
def MAX_SIZE : Nat := 0x02000000

/-- `Hash`, BS:37-39. -/
def _root_.Verif.HashFns.hash256 (H : HashFns) (m : Bytes) : Bytes := H.sha256 (H.sha256 m)

/-- `Hash160`, BS:41-45. -/
def _root_.Verif.HashFns.hash160 (H : HashFns) (m : Bytes) : Bytes := H.ripemd160 (H.sha256 m)

/-- `ser_read`, BS:70-82.  (`f.read(n)` on a `BytesIO` returns all that is left when that is less than `n`.) -/
def serRead (n : Nat) : P Bytes := fun s =>
  if n > MAX_SIZE then .error .btcSer
  else
    let r := s.take n
    if r.length < n then .error .btcTrunc else .ok (r, s.drop n)

/-- The `k` little-endian bytes of `n`. -/
def leBytes : Nat → Nat → Bytes
  | 0, _ => []
  | k + 1, n => BitVec.ofNat 8 (n % 256) :: leBytes k (n / 256)

/-- The number written by little-endian bytes. -/
def leNat : Bytes → Nat
  | [] => 0
  | b :: bs => b.toNat + 256 * leNat bs

/-- `struct.pack('<B/H/I/Q', i)` with `k` = 1/2/4/8 bytes. -/
def packU (k : Nat) (i : Int) : Py Bytes :=
  if 0 ≤ i ∧ i < 2 ^ (8 * k) then .ok (leBytes k i.toNat) else .error .structError

/-- `struct.pack('<b/h/i/q', i)` with `k` = 1/2/4/8 bytes. -/
def packS (k : Nat) (i : Int) : Py Bytes :=
  if -(2 ^ (8 * k - 1)) ≤ i ∧ i < 2 ^ (8 * k - 1) then .ok (leBytes k (i % 2 ^ (8 * k)).toNat)
  else .error .structError

/-- `struct.unpack('<H/I/Q', b)[0]`; the length of `b` is right at every call site. -/
def unpackU (b : Bytes) : Int := leNat b

/-- `struct.unpack('<i/q', b)[0]` -/
def unpackS (k : Nat) (b : Bytes) : Int :=
  if leNat b < 2 ^ (8 * k - 1) then leNat b else (leNat b : Int) - 2 ^ (8 * k)

/-- `VarIntSerializer.stream_serialize`, BS:192-206. -/
def serVarInt (i : Int) : Py Bytes :=
  if i < 0 then .error .valueError
  else if i < 0xfd then .ok [BitVec.ofNat 8 i.toNat]
  else if i ≤ 0xffff then do let b ← packU 2 i; return 0xfd#8 :: b
  else if i ≤ 0xffffffff then do let b ← packU 4 i; return 0xfe#8 :: b
  else do let b ← packU 8 i; return 0xff#8 :: b

/-- `VarIntSerializer.stream_deserialize`, BS:208-218. -/
def deserVarInt : P Nat := do
  let r ← serRead 1
  match r with
  | [r] =>
    if r.toNat < 0xfd then pure r.toNat
    else if r = 0xfd#8 then do let b ← serRead 2; return leNat b
    else if r = 0xfe#8 then do let b ← serRead 4; return leNat b
    else do let b ← serRead 8; return leNat b
  | _ => P.fail .indexError  -- unreachable: ser_read(f, 1) returned one byte

/-- `BytesSerializer.stream_serialize`, BS:223-226. -/
def serBytes (b : Bytes) : Py Bytes := do
  let l ← serVarInt b.length
  return l ++ b

/-- `BytesSerializer.stream_deserialize`, BS:228-231. -/
def deserBytes : P Bytes := do
  let l ← deserVarInt
  serRead l

/-- The loop of `VectorSerializer.stream_serialize`, BS:239-240. -/
def serEach {α} (ser : α → Py Bytes) : List α → Py Bytes
  | [] => .ok []
  | x :: xs => do
    let b ← ser x
    let bs ← serEach ser xs
    return b ++ bs

/-- `VectorSerializer.stream_serialize`, BS:236-240. -/
def serVector {α} (ser : α → Py Bytes) (xs : List α) : Py Bytes := do
  let l ← serVarInt xs.length
  let bs ← serEach ser xs
  return l ++ bs

/-- The loop of `VectorSerializer.stream_deserialize`, BS:245-248. -/
def deserEach {α} (de : P α) : Nat → P (List α)
  | 0 => pure []
  | n + 1 => do
    let x ← de
    let xs ← deserEach de n
    return x :: xs

/-- `VectorSerializer.stream_deserialize`, BS:242-248. -/
def deserVector {α} (de : P α) : P (List α) := do
  let n ← deserVarInt
  deserEach de n

/-- `Serializable.deserialize` with `allow_padding=False`, BS:105-121. -/
def deserializeAll {α} (de : P α) (buf : Bytes) : Py α :=
  match de buf with
  | .error e => .error e
  | .ok (a, rest) => if rest.length ≠ 0 then .error .btcExtra else .ok a

end Verif.Btc
