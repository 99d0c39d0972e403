import Verif.Model.Serialize
import Verif.Model.Slice
/-!
# Model of lib/python-proofmarshal/proofmarshal/bits.py

`B` below abbreviates `lib/python-proofmarshal/proofmarshal/bits.py`.  Python object identity (`is`) is not
modelled, so the empty-`Bits` singleton (B:27-35) is just the value `Bits.empty`.  Type checks that raise
`TypeError` for non-`Bits` operands are enforced by Lean's types.  Bits are yielded by the code as ints 0/1;
they are `Bool` here.
-/
namespace Verif

/-- The two slots of a `Bits` object (B:23): `__length` in bits and the backing bytes `__buf`, which may be
longer than needed and may contain arbitrary bits past `length`. -/
structure Bits where
  length : Nat
  buf : Bytes
deriving DecidableEq, Repr

namespace Bits

/-- `Bits()`, B:27-35. -/
def empty : Bits := ⟨0, []⟩

/-- `buf[i]` on bytes with a non-negative index: `IndexError` when out of range. -/
def byteAt (buf : Bytes) (i : Nat) : Py Byte :=
  match buf[i]? with
  | some b => .ok b
  | none => .error .indexError

/-- One iteration of the loop of `Bits.__new__`, B:44-51; the state is `(buf, byte, length)`. -/
def newStep (st : Bytes × Byte × Nat) (bit : Bool) : Bytes × Byte × Nat :=
  let (buf, byte, length) := st
  let byte := byte ||| ((if bit then 1#8 else 0#8) <<< (7 - length % 8))
  let length := length + 1
  if length % 8 = 0 then (buf ++ [byte], 0#8, length) else (buf, byte, length)

/-- `Bits(iterable)`, B:40-61, on the list of truth values of the iterable's elements. -/
def ofIter (xs : List Bool) : Bits :=
  let (buf, byte, length) := xs.foldl newStep ([], 0#8, 0)
  let buf := buf ++ [byte]
  if length ≠ 0 then ⟨length, buf⟩ else empty

/-- `Bits.from_bytes(buf, length)`, B:67-92. `length = none` is the default argument. -/
def fromBytes (buf : Bytes) (length : Option Int) : Py Bits :=
  let length : Int := length.getD (buf.length * 8)
  if length < 0 then .error .valueError
  else if (buf.length : Int) * 8 < length then .error .valueError
  else .ok ⟨length.toNat, if length ≠ 0 then buf else []⟩

/-- `(self.__buf[i // 8] >> (7 - i % 8)) & 0b1`, B:96 and B:152. -/
def bitAt (buf : Bytes) (i : Nat) : Py Bool := do
  let b ← byteAt buf (i / 8)
  return (b >>> (7 - i % 8)) &&& 1#8 != 0#8

/-- `Bits.__iter__` run to exhaustion, i.e. `list(self)`, B:94-96. -/
def iter (b : Bits) : Py (List Bool) := (List.range b.length).mapM (bitAt b.buf)

/-- `Bits.__full_width_prefix`, B:101-103. -/
def fullWidthPrefix (b : Bits) : Bytes := b.buf.take (b.length / 8)

/-- `Bits.__tail_bits`, B:105-112.  Python's `0xFF << k` is an unbounded int, but it is and-ed with a byte. -/
def tailBits (b : Bits) : Py Byte :=
  let odd := b.length % 8
  if odd ≠ 0 then do
    let x ← byteAt b.buf (b.length / 8)
    return x &&& (0xFF#8 <<< (8 - odd))
  else .ok 0#8

/-- `Bits.__eq__`, B:114-126. -/
def eq (a b : Bits) : Py Bool :=
  if a.length ≠ b.length then .ok false
  else if a.fullWidthPrefix ≠ b.fullWidthPrefix then .ok false
  else do
    let x ← a.tailBits
    let y ← b.tailBits
    return x == y

/-- `<` on Python `bytes`: lexicographic, a proper prefix being smaller. -/
def bytesLt : Bytes → Bytes → Bool
  | _, [] => false
  | [], _ :: _ => true
  | a :: as, b :: bs => if a.toNat < b.toNat then true else if a = b then bytesLt as bs else false

/-- `Bits.__lt__`, B:128-141. -/
def lt (a b : Bits) : Py Bool :=
  let sf := a.fullWidthPrefix
  let rf := b.fullWidthPrefix
  if bytesLt sf rf then .ok true
  else if sf = rf then do
    let x ← a.tailBits
    let y ← b.tailBits
    return decide (x.toNat < y.toNat)
  else .ok false

/-- `Bits.__le__` as supplied by `functools.total_ordering` (B:19): `self < other or self == other`. -/
def le (a b : Bits) : Py Bool := do
  if ← lt a b then return true else eq a b

/-- `Bits.__gt__` as supplied by `functools.total_ordering`: `not self < other and self != other`. -/
def gt (a b : Bits) : Py Bool := do
  if ← lt a b then return false
  else
    let e ← eq a b
    return !e

/-- `Bits.__ge__` as supplied by `functools.total_ordering`: `not self < other`. -/
def ge (a b : Bits) : Py Bool := do
  let l ← lt a b
  return !l

/-- `Bits.__getitem__` with an integer index, B:145-152. -/
def getItem (b : Bits) (idx : Int) : Py Bool :=
  let idx := if idx < 0 then b.length + idx else idx
  if ¬ (0 ≤ idx ∧ idx < b.length) then .error .indexError
  else bitAt b.buf idx.toNat

/-- `Bits.__getitem__` with a slice, B:154-173. -/
def getSlice (b : Bits) (s : PySlice) : Py Bits := do
  let (start, stop, step) ← s.indices b.length
  if step = 1 ∧ start = 0 then
    if stop = 0 then return empty
    else if stop = b.length then return b
    else return ⟨stop.toNat, b.buf⟩
  else
    let xs ← b.iter
    let ys ← pySlice xs s
    return ofIter ys

/-- The loop of `Bits.__add__`, B:202-212, including the final `append(tail_bits)`. -/
def addLoop (offset : Nat) (tail : Byte) : Bytes → Bytes
  | [] => [tail]
  | byte :: rest =>
    (tail ||| (byte >>> offset)) :: addLoop offset ((byte <<< (8 - offset)) &&& 0xFF#8) rest

/-- `Bits.__add__`, B:179-218. -/
def add (a b : Bits) : Py Bits :=
  if a.length = 0 then .ok b
  else if b.length = 0 then .ok a
  else do
    let off := a.length % 8
    let rbuf ←
      if off ≠ 0 then do
        let x ← byteAt a.buf (a.length / 8)
        let tail := x &&& (0xFF#8 <<< (8 - a.length % 8))
        pure (addLoop off tail (b.buf.take (b.length / 8 + if b.length % 8 ≠ 0 then 1 else 0)))
      else pure b.buf
    return ⟨a.length + b.length, a.buf.take (a.length / 8) ++ rbuf⟩

/-- `Bits.__invert__`, B:220-230. -/
def invert (b : Bits) : Py Bits :=
  if b.length = 0 then .ok b
  else fromBytes ((b.buf.take (b.length / 8 + 1)).map (fun x => ~~~x &&& 0xff#8)) (some b.length)

/-- `Bits.startswith`, B:232-245. -/
def startswith (a pre : Bits) : Py Bool :=
  if pre.length > a.length then .ok false
  else if pre.length = a.length then eq pre a
  else do
    let h ← a.getSlice ⟨none, some pre.length, none⟩
    eq h pre

/-- The for loop of `common_prefix`, B:258-266: the first index `< n` at which the full-width bytes differ. -/
def cpScan (l r : Bytes) (n i : Nat) : Py (Option Nat) :=
  if i < n then do
    let x ← byteAt l i
    let y ← byteAt r i
    if x ≠ y then return some i else cpScan l r n (i + 1)
  else .ok none
termination_by n - i

/-- The while loop of `common_prefix`, B:275-277. -/
def cpShift (diff : Byte) (cpl len : Nat) : Nat :=
  if cpl < len ∧ diff &&& 0x80#8 = 0#8 then cpShift ((diff <<< 1) &&& 0xFF#8) (cpl + 1) len
  else cpl
termination_by len - cpl

/-- "Check remaining bits" in `common_prefix`, B:268-277. -/
def cpTail (lhs rhs : Bits) (cpl : Nat) : Py Nat :=
  if cpl < lhs.length then do
    let x ← byteAt lhs.buf (cpl / 8)
    let y ← byteAt rhs.buf (cpl / 8)
    return cpShift (x ^^^ y) cpl lhs.length
  else .ok cpl

/-- `Bits.common_prefix`, B:247-290. -/
def commonPrefix (self rhs : Bits) : Py Bits := do
  let (lhs, rhs) := if self.length ≤ rhs.length then (self, rhs) else (rhs, self)
  let found ← cpScan lhs.buf rhs.buf (lhs.length / 8) 0
  let (cpl, fwbEq) := match found with
    | some i => (i * 8, false)
    | none => (lhs.length / 8 * 8, true)
  let cpl ← cpTail lhs rhs cpl
  pyAssert (cpl ≤ lhs.length)
  if cpl = lhs.length then do
    pyAssert fwbEq
    return lhs
  else fromBytes lhs.buf (some cpl)

/-- `BitsSerializer.ctx_serialize`, B:300-306. -/
def serialize (b : Bits) : Py Bytes := do
  let tail ← if b.length % 8 ≠ 0 then do let t ← b.tailBits; pure [t] else pure []
  return writeVaruint b.length ++ b.fullWidthPrefix ++ tail

/-- `BitsSerializer.ctx_deserialize`, B:308-316.  `buf[-1]` on an empty buffer is an `IndexError`. -/
def deserialize : P Bits := do
  let length ← readVaruint
  let buf ← readBytes (length / 8 + if length % 8 ≠ 0 then 1 else 0)
  let r ← P.lift (fromBytes buf (some length))
  let tail ← P.lift r.tailBits
  let last ← P.lift (pyGetItem buf (-1))
  P.lift (pyAssert (tail == last))
  return r

/-- The representation invariant established by every constructor (see `Constructible`). -/
def WF (b : Bits) : Prop := b.length ≤ 8 * b.buf.length

instance (b : Bits) : Decidable b.WF := inferInstanceAs (Decidable (_ ≤ _))

/-- Every way a program can obtain a `Bits` object. -/
inductive Constructible : Bits → Prop
  | ofIter (xs) : Constructible (ofIter xs)
  | fromBytes {buf n b} : fromBytes buf n = .ok b → Constructible b
  | slice {b s r} : Constructible b → b.getSlice s = .ok r → Constructible r
  | add {a b r} : Constructible a → Constructible b → a.add b = .ok r → Constructible r
  | invert {b r} : Constructible b → b.invert = .ok r → Constructible r
  | commonPrefix {a b r} : Constructible a → Constructible b → a.commonPrefix b = .ok r → Constructible r
  | deserialize {s b rest} : deserialize s = .ok (b, rest) → Constructible b

end Bits
end Verif
