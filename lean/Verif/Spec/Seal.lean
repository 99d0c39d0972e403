import Verif.Model.Seal
/-!
# What seals, witnesses and closing scripts are

Written without the code's script builder and without its verification methods.
-/
namespace Verif.Seal
open Verif Btc

/-- `OP_RETURN`, and a push of the 32 bytes. -/
def opReturnScript (h : Bytes) : Bytes := 0x6a#8 :: 0x20#8 :: h
/-- `OP_HASH160`, a push of 20 bytes, `OP_EQUAL`. -/
def p2shScript (k : Bytes) : Bytes := 0xa9#8 :: 0x14#8 :: (k ++ [0x87#8])
/-- `OP_DUP OP_HASH160`, a push of 20 bytes, `OP_EQUALVERIFY OP_CHECKSIG`. -/
def p2pkhScript (k : Bytes) : Bytes := 0x76#8 :: 0xa9#8 :: 0x14#8 :: (k ++ [0x88#8, 0xac#8])

/-- RIPEMD-160 of SHA-256. -/
def h160 (H : HashFns) (h : Bytes) : Bytes := H.ripemd160 (H.sha256 h)

/-- The output script commits to `h`, in one of the three forms. -/
def CommitsTo (H : HashFns) (h spk : Bytes) : Prop :=
  spk = opReturnScript h ∨ spk = p2shScript (h160 H h) ∨ spk = p2pkhScript (h160 H h)

instance (H : HashFns) (h spk : Bytes) : Decidable (CommitsTo H h spk) := inferInstanceAs (Decidable (_ ∨ _ ∨ _))

/-- A transaction as a proof. -/
def txT (x : CTransaction) : PTree := .node Cls.txProof (.prim (.tx x) .nil)
/-- Input `i` of the transaction `p`. -/
def txinT (i : Int) (p : PTree) : PTree := .node Cls.txInProof (.prim (.int i) (.sub p .nil))
/-- Output `i` of the transaction `p`. -/
def txoutT (i : Int) (p : PTree) : PTree := .node Cls.txOutProof (.prim (.int i) (.sub p .nil))
/-- A seal. -/
def sealT (o : COutPoint) (nonce : Bytes) : PTree := .node Cls.btcSeal (.prim (.outpoint o) (.prim (.bytes nonce) .nil))
/-- A witness. -/
def witnessT (s i o : PTree) : PTree := .node Cls.btcWitness (.sub s (.sub i (.sub o .nil)))
/-- A witness about input `i` of `x` and output `j` of `x'`. -/
def fullWitnessT (o : COutPoint) (nonce : Bytes) (i : Int) (x : CTransaction) (j : Int) (x' : CTransaction) : PTree :=
  witnessT (sealT o nonce) (txinT i (txT x)) (txoutT j (txT x'))
/-- A fake seal. -/
def fakeSealT (h : Bytes) : PTree := .node Cls.fakeSeal (.prim (.bytes h) .nil)
/-- A witness to it. -/
def fakeWitnessT (s : PTree) : PTree := .node Cls.fakeWitness (.sub s .nil)

/-- The txid: the serialized transaction hashed twice with SHA-256. -/
def HasTxid (H : HashFns) (x : CTransaction) (id : Bytes) : Prop := ∃ b, x.ser = .ok b ∧ id = H.sha256 (H.sha256 b)

/-- What a witness has to show: input `i` of the transaction spends the outpoint, output `j` of a transaction with the same
txid commits to `h`. -/
structure Shows (H : HashFns) (o : COutPoint) (i : Int) (x : CTransaction) (j : Int) (x' : CTransaction) (h : Bytes) : Prop where
  len : h.length = 32
  i0 : 0 ≤ i
  j0 : 0 ≤ j
  spends : ∃ inp, x.vin[i.toNat]? = some inp ∧ inp.prevout = o
  commits : ∃ out, x'.vout[j.toNat]? = some out ∧ CommitsTo H h out.scriptPubKey
  txid : ∃ id, HasTxid H x id ∧ HasTxid H x' id

end Verif.Seal
