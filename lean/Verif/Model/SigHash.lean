import Verif.Model.Script
import Verif.Model.Copies
import Verif.Model.Slice
/-!
# Model of signature hashes in lib/python-bitcoinlib/bitcoin/core/script.py

`SC` abbreviates `lib/python-bitcoinlib/bitcoin/core/script.py`.
-/
namespace Verif.Btc
open Verif

/-- `HASH_ONE`, SC:810. -/
def HASH_ONE : Bytes := 0x01#8 :: List.replicate 31 0x00#8

/-- `xs[i] = x` of Python, for an index known to be good: `i < len(xs)`, and from the end if negative. -/
def pySetItem {α} (xs : List α) (i : Int) (f : α → α) : Py (List α) := do
  let _ ← pyGetItem xs i
  return xs.modify (if i < 0 then i + xs.length else i).toNat f

/-- The loops SC:823-825, SC:838-840: `nSequence = 0` for every input but the one at `inIdx`. -/
def zeroSequences (vin : List CTxIn) (inIdx : Int) : List CTxIn :=
  vin.mapIdx fun i x => if (i : Int) ≠ inIdx then { x with nSequence := 0 } else x

/-- `RawSignatureHash`, SC:801-852.  The second component tells whether there is an error message.  `hashtype & 0x1f` and
`hashtype & 0x80` are taken of the two's complement, as CPython does. -/
def rawSignatureHash (H : HashFns) (script : Bytes) (txTo : CTransaction) (inIdx : Int) (hashtype : Int) : Py (Bytes × Bool) :=
  if inIdx ≥ txTo.vin.length then .ok (HASH_ONE, true)
  else do
    let txtmp ← mutTx txTo
    let vin := txtmp.vin.map fun i => { i with scriptSig := [] }
    let sep ← mkScript [.op OP_CODESEPARATOR]
    let code ← findAndDelete script sep
    let vin ← pySetItem vin inIdx fun i => { i with scriptSig := code }
    if hashtype % 32 = 3 ∧ inIdx ≥ txtmp.vout.length then return (HASH_ONE, true)
    else do
      let vout ←
        (if hashtype % 32 = 2 then pure []
         else if hashtype % 32 = 3 then do
          let tmp ← pyGetItem txtmp.vout inIdx
          return List.replicate inIdx.toNat ⟨-1, []⟩ ++ [tmp]
         else pure txtmp.vout)
      let vin := if hashtype % 32 = 2 ∨ hashtype % 32 = 3 then zeroSequences vin inIdx else vin
      let vin ←
        (if hashtype / 128 % 2 ≠ 0 then do
          let tmp ← pyGetItem vin inIdx
          return [tmp]
         else pure vin)
      let s ← (CTransaction.mk txtmp.nVersion vin vout txtmp.nLockTime).ser
      let t ← packU 4 hashtype
      return (H.hash256 (s ++ t), false)

/-- `SignatureHash`, SC:855-865. -/
def signatureHash (H : HashFns) (script : Bytes) (txTo : CTransaction) (inIdx : Int) (hashtype : Int) : Py Bytes := do
  let (h, err) ← rawSignatureHash H script txTo inIdx hashtype
  if err then .error .valueError else return h

end Verif.Btc
