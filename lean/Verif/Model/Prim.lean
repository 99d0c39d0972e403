import Verif.Model.Bits
import Verif.Model.BtcCore
/-!
# The serializers that can appear in a `SERIALIZED_ATTRS` list, except proofs themselves

`S` is `lib/python-proofmarshal/proofmarshal/serialize.py`, `B` is `.../bits.py`, `PB` is
`proofchains/core/bitcoin.py`.
-/
namespace Verif
open Btc

/-- The Python values that can occur.  A `Bits` object is represented by its bit sequence: by C09–C17 nothing the
code does with it depends on anything else.  `other` stands for an instance of any class not listed. -/
inductive PVal where
  | bool (b : Bool)
  | int (i : Int)
  | bytes (b : Bytes)
  | bits (xs : List Bool)
  | tx (t : CTransaction)
  | outpoint (o : COutPoint)
  | other
deriving DecidableEq, Repr

/-- A serializer class: `SerBool` S:284, `FixedBytes(n)` S:299 (`Digest` S:383 is `fixed 32`), `VarBytes(min,max)`
S:332, `UInt8..64` S:386-414 (`uint MAX_INT`), `BitsSerializer` B:295, `CTransactionSerializer` PB:20,
`COutPointSerializer` PB:41. -/
inductive PrimTy where
  | bool
  | fixed (n : Nat)
  | varBytes (min max : Nat)
  | uint (max : Nat)
  | bits
  | tx
  | outpoint
deriving DecidableEq, Repr

namespace PrimTy

/-- `FixedBytes.__new__`, S:303-314, on an int. -/
def mkFixed (n : Int) : Py PrimTy := if n < 0 then .error .valueError else .ok (.fixed n.toNat)

/-- `VarBytes.__new__`, S:337-359, with both bounds given. -/
def mkVarBytes (min max : Int) : Py PrimTy :=
  if ¬ (0 ≤ min ∧ min < max) then .error .valueError else .ok (.varBytes min.toNat max.toNat)

/-- `UInt8`, `UInt16`, `UInt32`, `UInt64`, S:407-414. -/
def uint8 : PrimTy := .uint (2 ^ 8 - 1)
def uint16 : PrimTy := .uint (2 ^ 16 - 1)
def uint32 : PrimTy := .uint (2 ^ 32 - 1)
def uint64 : PrimTy := .uint (2 ^ 64 - 1)

/-- `check_instance`: S:286-289, S:316-322, S:361-368, S:388-394, B:296-298 (returns a bool, never raises),
PB:22-25 and PB:43-46 (the message refers to an undefined name, so the failure is a `NameError`). -/
def check : PrimTy → PVal → Py Unit
  | bool, .bool _ => .ok ()
  | bool, _ => .error .serType
  | fixed n, .bytes b => if b.length ≠ n then .error .serValue else .ok ()
  | fixed _, _ => .error .serType
  | varBytes min max, .bytes b => if ¬ (min ≤ b.length ∧ b.length ≤ max) then .error .serValue else .ok ()
  | varBytes _ _, _ => .error .serType
  | uint max, .int i => if ¬ (0 ≤ i ∧ i ≤ max) then .error .serValue else .ok ()
  | uint _, _ => .error .serType
  | bits, _ => .ok ()
  | tx, .tx _ => .ok ()
  | tx, _ => .error .nameError
  | outpoint, .outpoint _ => .ok ()
  | outpoint, _ => .error .nameError

/-- The length-prefixed bytes of PB:28-33 and PB:49-54. -/
def lenPrefixed (b : Bytes) : Bytes := writeVaruint b.length ++ b

/-- `serialize`: S:291-293 and S:144-153; S:324-326; S:370-373; S:396-398; B:300-306; PB:27-33; PB:48-54.
A value of a wrong class raises `TypeError`/`AttributeError` (a bool is an int for `write_varuint`, and any
bitcoinlib object has a `serialize` method). -/
def ser : PrimTy → PVal → Py Bytes
  | bool, .bool b => .ok (writeBool b)
  | bool, _ => .error .typeError
  | fixed _, .bytes b => .ok b
  | fixed _, _ => .error .typeError
  | varBytes _ _, .bytes b => .ok (writeVaruint b.length ++ b)
  | varBytes _ _, _ => .error .typeError
  | uint _, .int i => .ok (writeVaruintInt i)
  | uint _, .bool b => .ok (writeVaruint (if b then 1 else 0))
  | uint _, _ => .error .typeError
  | bits, .bits xs => (Bits.ofIter xs).serialize
  | bits, _ => .error .attributeError
  | tx, .tx t => do let b ← t.ser; return lenPrefixed b
  | tx, .outpoint o => do let b ← o.ser; return lenPrefixed b
  | tx, _ => .error .attributeError
  | outpoint, .tx t => do let b ← t.ser; return lenPrefixed b
  | outpoint, .outpoint o => do let b ← o.ser; return lenPrefixed b
  | outpoint, _ => .error .attributeError

/-- `ctx_deserialize`: S:295-297; S:328-330; S:375-381; S:400-405; B:308-316; PB:35-40; PB:56-61. -/
def deser : PrimTy → P PVal
  | bool => do let b ← readBool; return .bool b
  | fixed n => do let b ← readBytes n; return .bytes b
  | varBytes min max => do
    let l ← readVaruint
    if ¬ (min ≤ l ∧ l ≤ max) then P.fail .deserialization
    else do let b ← readBytes l; return .bytes b
  | uint max => do
    let r ← readVaruint
    if ¬ (0 ≤ r ∧ r ≤ max) then P.fail .deserialization else return .int r
  | bits => do
    let b ← Bits.deserialize
    let xs ← P.lift b.iter
    return .bits xs
  | tx => do
    let l ← readVaruint
    let b ← readBytes l
    let t ← P.lift (deserializeAll CTransaction.deser b)
    return .tx t
  | outpoint => do
    let l ← readVaruint
    let b ← readBytes l
    let o ← P.lift (deserializeAll COutPoint.deser b)
    return .outpoint o

/-- `Serializer.deserialize`, S:276-282: trailing bytes are ignored. -/
def deserialize (τ : PrimTy) (b : Bytes) : Py PVal := (τ.deser b).map (·.1)

/-- The serializers of serialize.py itself. -/
def isBasic : PrimTy → Bool
  | bool | fixed _ | varBytes _ _ | uint _ => true
  | _ => false

end PrimTy

/-- Serialize a list of fields one after the other, as `Proof.__ctx_serialize` and `calc_hash` do. -/
def serFields : List PrimTy → List PVal → Py Bytes
  | [], [] => .ok []
  | τ :: τs, v :: vs => do
    let a ← τ.ser v
    let b ← serFields τs vs
    return a ++ b
  | _, _ => .error .other  -- numbers of serializers and values always agree

/-- Deserialize a list of fields one after the other. -/
def deserFields : List PrimTy → P (List PVal)
  | [] => pure []
  | τ :: τs => do
    let v ← τ.deser
    let vs ← deserFields τs
    return v :: vs

/-- `check_instance` on every field. -/
def checkFields : List PrimTy → List PVal → Py Unit
  | [], [] => .ok ()
  | τ :: τs, v :: vs => do
    τ.check v
    checkFields τs vs
  | _, _ => .error .other

end Verif
