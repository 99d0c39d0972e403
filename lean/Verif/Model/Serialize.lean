import Verif.Py
/-!
# Model of lib/python-proofmarshal/proofmarshal/serialize.py

`S` below abbreviates `lib/python-proofmarshal/proofmarshal/serialize.py`.
Serialization contexts are modelled by the bytes they write; deserialization contexts by `P`.
-/
namespace Verif

/-- `StreamSerializationContext.write_bool`, S:144-153 (the `TypeError` for non-bools is in `Prim.ser`). -/
def writeBool (b : Bool) : Bytes := if b then [0xff#8] else [0x00#8]

/-- The loop of `StreamSerializationContext.write_varuint`, S:161-168, for a non-negative value.
The loop writes a byte, breaks when `value <= 0b01111111`, otherwise shifts right by 7. -/
def writeVaruintLoop (value : Nat) : Bytes :=
  let b := value &&& 0b01111111
  let b := if value > 0b01111111 then b ||| 0b10000000 else b
  if _h : value ≤ 0b01111111 then [BitVec.ofNat 8 b]
  else BitVec.ofNat 8 b :: writeVaruintLoop (value >>> 7)
termination_by value
decreasing_by simp only [Nat.shiftRight_eq_div_pow]; omega

/-- `StreamSerializationContext.write_varuint`, S:155-168, for a non-negative value. -/
def writeVaruint (value : Nat) : Bytes :=
  if value = 0 then [0x00#8] else writeVaruintLoop value

/-- `write_varuint` on an arbitrary Python int: a negative value is not `> 0b01111111`, so one byte
`value & 0b01111111` is written and the loop breaks (S:161-168). -/
def writeVaruintInt (value : Int) : Bytes :=
  if value < 0 then [BitVec.ofInt 8 (value % 128)] else writeVaruint value.toNat

/-- `StreamDeserializationContext.fd_read`, S:183-188.  `BytesIO.read` of a number that does not fit `Py_ssize_t` (64-bit builds) is an
`OverflowError`; since no stream is that long, it is an exception in place of the other. -/
def fdRead (l : Nat) : P Bytes := fun s =>
  let r := s.take l
  if r.length ≠ l then .error (if l < 2 ^ 63 then .truncation else .overflow) else .ok (r, s.drop l)

/-- `StreamDeserializationContext.read_bool`, S:190-200. -/
def readBool : P Bool := do
  let r ← fdRead 1
  match r with
  | [b] => if b = 0xff#8 then pure true
           else if b = 0x00#8 then pure false
           else P.fail .deserialization
  | _ => P.fail .indexError  -- unreachable: fd_read(1) returned one byte

/-- The loop of `StreamDeserializationContext.read_varuint`, S:206-213; `value`, `shift` are the loop
variables.  Each iteration is `fd_read(1)` followed by the update. -/
def readVaruintLoop (value shift : Nat) : Bytes → Py (Nat × Bytes)
  | [] => .error .truncation
  | b :: rest =>
    let value := value ||| ((b &&& 0b01111111#8).toNat <<< shift)
    if b &&& 0b10000000#8 = 0#8 then .ok (value, rest)
    else readVaruintLoop value (shift + 7) rest

/-- `StreamDeserializationContext.read_varuint`, S:202-213. -/
def readVaruint : P Nat := readVaruintLoop 0 0

/-- `StreamDeserializationContext.read_bytes` with an explicit length, S:215-218.
(Without a length it calls `read_varuint(None)`, a `TypeError`; no caller does that.) -/
def readBytes (expected : Nat) : P Bytes := fdRead expected

/-! ## HashTag, S:439-469 -/

/-- SHA-256 and RIPEMD-160 as used through `hashlib`: parameters of the model. -/
structure HashFns where
  sha256 : Bytes → Bytes
  sha256_len : ∀ m, (sha256 m).length = 32
  ripemd160 : Bytes → Bytes
  ripemd160_len : ∀ m, (ripemd160 m).length = 20

/-- `HashTag.__call__(msg).digest()`, S:466-469: `sha256(tag)` updated with `msg`. -/
def HashFns.tagged (H : HashFns) (tag msg : Bytes) : Bytes := H.sha256 (tag ++ msg)

/-- The root tag of `HashTag.derive`, S:455: uuid 8125d227-981c-4ca0-afa7-ab9911352c85. -/
def derivationTag : Bytes :=
  [0x81, 0x25, 0xd2, 0x27, 0x98, 0x1c, 0x4c, 0xa0, 0xaf, 0xa7, 0xab, 0x99, 0x11, 0x35, 0x2c, 0x85]

/-- `HashTag.derive`, S:450-457. -/
def HashFns.derive (H : HashFns) (tag subtag : Bytes) : Bytes :=
  (H.tagged derivationTag (tag ++ subtag)).take 16

end Verif
