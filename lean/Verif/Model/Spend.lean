import Verif.Model.SigHash
/-!
# Signing a transaction, as in lib/python-bitcoinlib/examples

`EK` abbreviates `lib/python-bitcoinlib/examples/spend-p2pkh-txout.py`, `ES` is `.../spend-p2sh-txout.py`.

The examples sign the only input of a transaction; here any input of any transaction is signed, each with a key, a form of output and a hash
type of its own.

Simplifications:
* A key is its public key and what `sign` returns; the signatures are made by libssl (bitcoin/core/key.py).
* `txin.scriptSig = ...` (EK:70, ES:84) changes the input in the transaction; here there is a new transaction with that input changed.
-/
namespace Verif.Btc
open Verif

/-- `CBitcoinSecret`: `pub`, bitcoin/wallet.py:215, and `sign`, bitcoin/wallet.py:221-222. -/
structure Signer where
  pub : Bytes
  sign : Bytes → Bytes

/-- The form of the output that is spent: for a key hash (EK), or for the hash of a script with the key (ES). -/
inductive Form where
  | keyHash | scriptHash
deriving DecidableEq, Repr

/-- The script that is run with the signature: `txin_scriptPubKey`, EK:53, or `txin_redeemScript`, ES:37. -/
def signedScript (H : HashFns) (k : Signer) : Form → Py Bytes
  | .keyHash => mkScript [.op OP_DUP, .op OP_HASH160, .data (H.hash160 k.pub), .op OP_EQUALVERIFY, .op OP_CHECKSIG]
  | .scriptHash => mkScript [.data k.pub, .op OP_CHECKSIG]

/-- `txin_scriptPubKey`: EK:53, ES:44. -/
def outputScript (H : HashFns) (k : Signer) : Form → Py Bytes
  | .keyHash => signedScript H k .keyHash
  | .scriptHash => do
    let r ← signedScript H k .scriptHash
    toP2sh H r true

/-- `bytes([hashtype])`. -/
def bytesOf (n : Int) : Py Bytes := if 0 ≤ n ∧ n < 256 then .ok [BitVec.ofInt 8 n] else .error .valueError

/-- What is pushed after the signature: the key, EK:70, or the script, ES:84. -/
def pushedAfter (k : Signer) (script : Bytes) : Form → Bytes
  | .keyHash => k.pub
  | .scriptHash => script

/-- EK:63-70, ES:77-84 for the input at `i`, with the hash type `ty`. -/
def signInput (H : HashFns) (k : Signer) (form : Form) (ty : Int) (tx : CTransaction) (i : Nat) : Py CTransaction := do
  let script ← signedScript H k form
  let sighash ← signatureHash H script tx i ty
  let t ← bytesOf ty
  let sig := k.sign sighash ++ t
  let ss ← mkScript [.data sig, .data (pushedAfter k script form)]
  return { tx with vin := tx.vin.modify i fun x => { x with scriptSig := ss } }

/-- One input after the other. -/
def signInputs (H : HashFns) (keys : Nat → Signer) (forms : Nat → Form) (tys : Nat → Int) (tx : CTransaction) (order : List Nat) : Py CTransaction :=
  order.foldlM (fun tx i => signInput H (keys i) (forms i) (tys i) tx i) tx

end Verif.Btc
