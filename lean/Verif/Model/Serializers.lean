import Verif.Model.Net
/-!
# Model of the subclasses of `Serializer`

`BS` abbreviates `lib/python-bitcoinlib/bitcoin/core/serialize.py`.  The methods `stream_serialize` and `stream_deserialize` of
`VarIntSerializer`, `BytesSerializer`, `VectorSerializer` are in `BtcSer.lean`.

Simplification: a value has the type that its serializer is for.
-/
namespace Verif.Btc
open Verif

/-- `Serializer.deserialize`, BS:183-185: what is left in the buffer is not looked at. -/
def serializerDeserialize {α} (de : P α) (buf : Bytes) : Py α := do
  let r ← de buf
  return r.1

/-- `uint256VectorSerializer.stream_serialize`, BS:253-258. -/
def serUint256s (uints : List Bytes) : Py Bytes := serVector serUint256 uints

/-- `uint256VectorSerializer.stream_deserialize`, BS:260-266. -/
def deserUint256s : P (List Bytes) := deserVector (serRead 32)

/-- `intVectorSerialzer.stream_serialize`, BS:270-275. -/
def serInts (ints : List Int) : Py Bytes := serVector (packS 4) ints

/-- The loop of `intVectorSerialzer.stream_deserialize`, BS:281-282: `struct.unpack` gives tuples. -/
def deserIntTuples : Nat → P (List (List Int))
  | 0 => pure []
  | n + 1 => do
    let b ← serRead 4
    let ts ← deserIntTuples n
    return [unpackS 4 b] :: ts

/-- `intVectorSerialzer.stream_deserialize`, BS:277-282: there is no `return`, so that the result is `None`. -/
def deserInts : P (Option (List Int)) := do
  let l ← deserVarInt
  let _ ← deserIntTuples l
  return none

/-- `VarStringSerializer.stream_serialize`, BS:288-291. -/
def serVarString (s : Bytes) : Py Bytes := do
  let l ← serVarInt s.length
  return l ++ s

/-- `VarStringSerializer.stream_deserialize`, BS:293-296. -/
def deserVarString : P Bytes := do
  let l ← deserVarInt
  serRead l

/-- `VectorSerializer.serialize`, BS:177-181 with BS:237: `stream_serialize` is called with one argument less than it takes. -/
def vectorSerialize {α} (_ : List α) : Py Bytes := .error .typeError

/-- `VectorSerializer.deserialize`, BS:183-185 with BS:243: likewise. -/
def vectorDeserialize {α} (_ : Bytes) : Py (List α) := .error .typeError

end Verif.Btc
