import Verif.Model.BtcCore
/-!
# Model of the copies of transactions in lib/python-bitcoinlib/bitcoin/core/__init__.py

`BC` abbreviates `lib/python-bitcoinlib/bitcoin/core/__init__.py`.  `from_outpoint`, `from_txin`, `from_txout`, `from_tx` make an
object of one class from an object of the same or the other class, immutable (`COutPoint`, …) or mutable (`CMutableOutPoint`, …).
Whether two objects are the same object is not modelled.
-/
namespace Verif.Btc
open Verif

/-- An object of one of the two classes. -/
structure Obj (α : Type) where
  isMutable : Bool
  val : α
deriving DecidableEq, Repr

/-- A transaction with the classes of its parts, BC:303-320, 356-373.  (A mutable transaction may contain inputs and outputs of both
classes.) -/
structure TxObj where
  isMutable : Bool
  nVersion : Int
  vin : List (Obj CTxIn)
  vout : List (Obj CTxOut)
  nLockTime : Int
deriving DecidableEq, Repr

/-- What is in it, apart from the classes. -/
def TxObj.content (t : TxObj) : CTransaction := ⟨t.nVersion, t.vin.map Obj.val, t.vout.map Obj.val, t.nLockTime⟩

/-- `CMutableOutPoint.from_outpoint`, BC:171-174. -/
def mutOutPoint (o : COutPoint) : Py COutPoint := COutPoint.new o.hash o.n

/-- `CMutableTxIn.from_txin`, BC:237-242. -/
def mutTxIn (i : CTxIn) : Py CTxIn := do
  let prevout ← mutOutPoint i.prevout
  CTxIn.new prevout i.scriptSig i.nSequence

/-- `CMutableTxOut.from_txout`, BC:298-301. -/
def mutTxOut (o : CTxOut) : Py CTxOut := .ok ⟨o.nValue, o.scriptPubKey⟩

/-- `CMutableTransaction.from_tx`, BC:375-381. -/
def mutTx (t : CTransaction) : Py CTransaction := do
  let vin ← t.vin.mapM mutTxIn
  let vout ← t.vout.mapM mutTxOut
  CTransaction.new vin vout t.nLockTime t.nVersion

/-- `CMutableTransaction.from_tx`, with the classes. -/
def mutTxObj (t : TxObj) : Py TxObj := do
  let c ← mutTx t.content
  return ⟨true, c.nVersion, c.vin.map (⟨true, ·⟩), c.vout.map (⟨true, ·⟩), c.nLockTime⟩

/-- `COutPoint.from_outpoint`, BC:153-164: `output` is not defined. -/
def immOutPoint (_ : Obj COutPoint) : Py (Obj COutPoint) := .error .nameError

/-- `CTxIn.from_txin`, BC:210-221: `COutPoint` has no `from_txout`. -/
def immTxIn (i : Obj CTxIn) : Py (Obj CTxIn) := if i.isMutable then .error .attributeError else .ok i

/-- `CTxOut.from_txout`, BC:280-291. -/
def immTxOut (o : Obj CTxOut) : Py (Obj CTxOut) := if o.isMutable then .ok ⟨false, o.val.nValue, o.val.scriptPubKey⟩ else .ok o

/-- `CTransaction.__init__`, BC:307-320, on inputs and outputs of both classes. -/
def immNew (vin : List (Obj CTxIn)) (vout : List (Obj CTxOut)) (nLockTime nVersion : Int) : Py TxObj :=
  if ¬ (0 ≤ nLockTime ∧ nLockTime ≤ 0xffffffff) then .error .valueError
  else do
    let vin ← vin.mapM immTxIn
    let vout ← vout.mapM immTxOut
    return ⟨false, nVersion, vin, vout, nLockTime⟩

/-- `CTransaction.from_tx`, BC:342-353. -/
def immTx (t : TxObj) : Py TxObj := if t.isMutable then immNew t.vin t.vout t.nLockTime t.nVersion else .ok t

end Verif.Btc
