import Verif.Model.BtcSer
/-!
# Model of the transaction classes of lib/python-bitcoinlib/bitcoin/core/__init__.py

`BC` abbreviates `lib/python-bitcoinlib/bitcoin/core/__init__.py`.  The objects are immutable values; the mutable
variants (`CMutable...`) have the same fields and serialization.  Scripts are byte strings (`CScript` is a subclass
of `bytes`).  Cached hashes (BS:150-165) are not modelled: the objects are immutable.
-/
namespace Verif.Btc
open Verif

/-- `COutPoint`, BC:121-131. -/
structure COutPoint where
  hash : Bytes
  n : Int
deriving DecidableEq, Repr

/-- `COutPoint.__init__`, BC:125-131. -/
def COutPoint.new (hash : Bytes) (n : Int) : Py COutPoint :=
  if ¬ hash.length = 32 then .error .valueError
  else if ¬ (0 ≤ n ∧ n ≤ 0xffffffff) then .error .valueError
  else .ok ⟨hash, n⟩

/-- `COutPoint.stream_deserialize`, BC:133-137. -/
def COutPoint.deser : P COutPoint := do
  let hash ← serRead 32
  let n ← serRead 4
  P.lift (COutPoint.new hash (unpackU n))

/-- `COutPoint.stream_serialize`, BC:139-142. -/
def COutPoint.ser (o : COutPoint) : Py Bytes := do
  pyAssert (o.hash.length == 32)
  let n ← packU 4 o.n
  return o.hash ++ n

/-- `COutPoint.is_null`, BC:144-145. -/
def COutPoint.isNull (o : COutPoint) : Bool := o.hash == List.replicate 32 0#8 && o.n == 0xffffffff

/-- `CTxIn`, BC:176-190. -/
structure CTxIn where
  prevout : COutPoint
  scriptSig : Bytes
  nSequence : Int
deriving DecidableEq, Repr

/-- `CTxIn.__init__`, BC:184-190. -/
def CTxIn.new (prevout : COutPoint) (scriptSig : Bytes) (nSequence : Int) : Py CTxIn :=
  if ¬ (0 ≤ nSequence ∧ nSequence ≤ 0xffffffff) then .error .valueError
  else .ok ⟨prevout, scriptSig, nSequence⟩

/-- `CTxIn.stream_deserialize`, BC:192-197. -/
def CTxIn.deser : P CTxIn := do
  let prevout ← COutPoint.deser
  let scriptSig ← deserBytes
  let nSequence ← serRead 4
  P.lift (CTxIn.new prevout scriptSig (unpackU nSequence))

/-- `CTxIn.stream_serialize`, BC:199-202. -/
def CTxIn.ser (i : CTxIn) : Py Bytes := do
  let a ← i.prevout.ser
  let b ← serBytes i.scriptSig
  let c ← packU 4 i.nSequence
  return a ++ b ++ c

/-- `CTxOut`, BC:245-255. -/
structure CTxOut where
  nValue : Int
  scriptPubKey : Bytes
deriving DecidableEq, Repr

/-- `CTxOut.stream_deserialize`, BC:257-261. -/
def CTxOut.deser : P CTxOut := do
  let nValue ← serRead 8
  let scriptPubKey ← deserBytes
  return ⟨unpackS 8 nValue, scriptPubKey⟩

/-- `CTxOut.stream_serialize`, BC:263-265. -/
def CTxOut.ser (o : CTxOut) : Py Bytes := do
  let a ← packS 8 o.nValue
  let b ← serBytes o.scriptPubKey
  return a ++ b

/-- `CTransaction`, BC:303-320. -/
structure CTransaction where
  nVersion : Int
  vin : List CTxIn
  vout : List CTxOut
  nLockTime : Int
deriving DecidableEq, Repr

/-- `CTransaction.__init__`, BC:307-320, on immutable inputs and outputs (mutable ones are in `Copies.lean`). -/
def CTransaction.new (vin : List CTxIn) (vout : List CTxOut) (nLockTime nVersion : Int) : Py CTransaction :=
  if ¬ (0 ≤ nLockTime ∧ nLockTime ≤ 0xffffffff) then .error .valueError
  else .ok ⟨nVersion, vin, vout, nLockTime⟩

/-- `CTransaction.stream_deserialize`, BC:322-328. -/
def CTransaction.deser : P CTransaction := do
  let nVersion ← serRead 4
  let vin ← deserVector CTxIn.deser
  let vout ← deserVector CTxOut.deser
  let nLockTime ← serRead 4
  P.lift (CTransaction.new vin vout (unpackU nLockTime) (unpackS 4 nVersion))

/-- `CTransaction.stream_serialize`, BC:330-334. -/
def CTransaction.ser (t : CTransaction) : Py Bytes := do
  let a ← packS 4 t.nVersion
  let b ← serVector CTxIn.ser t.vin
  let c ← serVector CTxOut.ser t.vout
  let d ← packU 4 t.nLockTime
  return a ++ b ++ c ++ d

/-- `CTransaction.GetHash`, BS:123-125, BS:150-157: the txid. -/
def CTransaction.getHash (H : HashFns) (t : CTransaction) : Py Bytes := do
  let b ← t.ser
  return H.hash256 b

/-- `Serializable.__eq__`, BS:127-131, on two objects of the same class. -/
def serEq {α} (ser : α → Py Bytes) (x y : α) : Py Bool := do
  let a ← ser x
  let b ← ser y
  return a == b

/-- What the constructor BC:125-131 guarantees. -/
def COutPoint.Valid (o : COutPoint) : Prop := o.hash.length = 32 ∧ 0 ≤ o.n ∧ o.n ≤ 0xffffffff

/-- What the constructors guarantee for an input. -/
def CTxIn.Valid (i : CTxIn) : Prop := i.prevout.Valid ∧ 0 ≤ i.nSequence ∧ i.nSequence ≤ 0xffffffff

/-- What the constructors guarantee for a transaction. -/
def CTransaction.Valid (t : CTransaction) : Prop :=
  (∀ i ∈ t.vin, i.Valid) ∧ 0 ≤ t.nLockTime ∧ t.nLockTime ≤ 0xffffffff

/-- Every script is short enough for `ser_read` (BS:77). -/
def CTransaction.ScriptsFit (t : CTransaction) : Prop :=
  (∀ i ∈ t.vin, i.scriptSig.length ≤ MAX_SIZE) ∧ (∀ o ∈ t.vout, o.scriptPubKey.length ≤ MAX_SIZE)

instance (o : COutPoint) : Decidable o.Valid := inferInstanceAs (Decidable (_ ∧ _ ∧ _))
instance (i : CTxIn) : Decidable i.Valid := inferInstanceAs (Decidable (_ ∧ _ ∧ _))
instance (t : CTransaction) : Decidable t.Valid := inferInstanceAs (Decidable (_ ∧ _ ∧ _))
instance (t : CTransaction) : Decidable t.ScriptsFit := inferInstanceAs (Decidable (_ ∧ _))

end Verif.Btc
