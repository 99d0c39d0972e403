import Verif.Model.Script
import Verif.Model.Slice
import Verif.Model.Classes
import Verif.Spec.Proof
/-!
# Model of proofchains/core/bitcoin.py, proofchains/core/uniquebits/singleuseseal.py and proofchains/uniquebits/singleuseseal.py

`PB` is `proofchains/core/bitcoin.py`, `SU` is `proofchains/core/uniquebits/singleuseseal.py`, `UT` is
`proofchains/uniquebits/singleuseseal.py`.

Methods that only inspect proofs are computations (`Prog`) on the object they are called on, so that they can be run on
whole and on pruned objects.  Attributes are positions there, so where the source reads an attribute by name the class of the
object is looked at first: an object of another class does not have the attribute.
-/
namespace Verif.Seal
open Verif Btc

/-- Something that does not involve a proof. -/
def lift {α} (x : Py α) : Prog α := .ret x

/-- Go on if the proof at `π` is of class `c`; otherwise it has no such attribute or method. -/
def onCls {α} (π : List Nat) (c : Nat) (k : Prog α) : Prog α := .cls π fun c' => if c' = c then k else .ret (.error .attributeError)

/-- `x.tx`, for the proof `x` at `π`. -/
def getTx (π : List Nat) : Prog CTransaction := onCls π Cls.txProof (.read (π ++ [0]) fun
  | some (.tx t) => .ret (.ok t)
  | _ => .ret (.error .attributeError))

/-- `x.i`, for a `TxInProof` or `TxOutProof` at `π`. -/
def getI (π : List Nat) : Prog Int := .read (π ++ [0]) fun
  | some (.int i) => .ret (.ok i)
  | _ => .ret (.error .typeError)

/-- `TxInProof.verify`, PB:105-106. -/
def txInVerify (π : List Nat) : Prog Unit := onCls π Cls.txInProof do
  let i ← getI π
  if 0 ≤ i then do
    let t ← getTx (π ++ [1])
    lift (pyAssert (decide (i < t.vin.length)))
  else lift (.error .assertion)

/-- `TxInProof.txin`, PB:108-111. -/
def txin (π : List Nat) : Prog CTxIn := onCls π Cls.txInProof do
  let t ← getTx (π ++ [1])
  let i ← getI π
  lift (pyGetItem t.vin i)

/-- `TxOutProof.verify`, PB:119-120. -/
def txOutVerify (π : List Nat) : Prog Unit := onCls π Cls.txOutProof do
  let i ← getI π
  if 0 ≤ i then do
    let t ← getTx (π ++ [1])
    lift (pyAssert (decide (i < t.vout.length)))
  else lift (.error .assertion)

/-- `TxOutProof.txout`, PB:122-125. -/
def txout (π : List Nat) : Prog CTxOut := onCls π Cls.txOutProof do
  let t ← getTx (π ++ [1])
  let i ← getI π
  lift (pyGetItem t.vout i)

/-- `TxProof.txhash`, PB:79-85. -/
def txhash (π : List Nat) : Prog Bytes := onCls π Cls.txProof (.hash π fun h => .ret (.ok (Prf.xorWithPad h)))

/-! ## Fake seals -/

/-- `FakeSealWitness.from_hash`, SU:57-59. -/
def fromHash (T : Table) (h : Bytes) : HM Nat := do
  let sl ← Prf.new T Cls.fakeSeal [.prim (.bytes h)]
  Prf.new T Cls.fakeWitness [.ref sl]

/-- `FakeSealWitness.verify_hash`, SU:61-62, of the witness at `π`. -/
def fakeVerifyHash (h : Bytes) (π : List Nat) : Prog Unit := onCls π Cls.fakeWitness (onCls (π ++ [0]) Cls.fakeSeal (.read (π ++ [0, 0]) fun
  | some (.bytes b) => .ret (pyAssert (b == h))
  | _ => .ret (.error .assertion)))

/-! ## Bitcoin seals -/

/-- `seal.outpoint`, of the seal at `π`. -/
def outpoint (π : List Nat) : Prog COutPoint := onCls π Cls.btcSeal (.read (π ++ [0]) fun
  | some (.outpoint o) => .ret (.ok o)
  | _ => .ret (.error .assertion))

/-- `x.txproof`, of the proof `x` at `π`: where it is (PB:91-115). -/
def txproof {α} (π : List Nat) (k : List Nat → Prog α) : Prog α := .cls π fun c =>
  if c = Cls.txInProof ∨ c = Cls.txOutProof then k (π ++ [1])
  else if c = Cls.outPointProof then k (π ++ [0])
  else .ret (.error .attributeError)

/-- `BitcoinSealWitness.verify`, SU:91-93, of the witness at `π`. -/
def witnessVerify (π : List Nat) : Prog Unit := onCls π Cls.btcWitness do
  let o ← outpoint (π ++ [0])
  let i ← txin (π ++ [1])
  let e ← lift (serEq COutPoint.ser o i.prevout)
  lift (pyAssert e)
  txproof (π ++ [1]) fun π1 => txproof (π ++ [2]) fun π2 =>
    .hash π1 fun h1 => .hash π2 fun h2 => lift (pyAssert (h1 == h2))

/-- The comparisons of `BitcoinSealWitness.verify_hash`, SU:101-103. -/
def scriptMatches (H : HashFns) (hash spk : Bytes) : Py Unit := do
  let a ← mkScript [.op OP_RETURN, .data hash]
  if spk = a then return ()
  let b ← mkScript [.op OP_HASH160, .data (H.hash160 hash), .op OP_EQUAL]
  if spk = b then return ()
  let c ← mkScript [.op OP_DUP, .op OP_HASH160, .data (H.hash160 hash), .op OP_EQUALVERIFY, .op OP_CHECKSIG]
  pyAssert (spk == c)

/-- `BitcoinSealWitness.verify_hash`, SU:95-103, of the witness at `π`. -/
def witnessVerifyHash (H : HashFns) (hash : Bytes) (π : List Nat) : Prog Unit := onCls π Cls.btcWitness do
  lift (pyAssert (hash.length == 32))
  let o ← txout (π ++ [2])
  lift (scriptMatches H hash o.scriptPubKey)

/-- `meth`, UT:17. -/
inductive Meth where
  | opReturn | p2sh | p2pkh | unknown
deriving DecidableEq, Repr

/-- The output UT:22-30; `none` is `None`. -/
def closeTxOut (H : HashFns) (digest : Bytes) (meth : Meth) (dust : Int) : Py (Option CTxOut) :=
  match meth with
  | .opReturn => do
    let s ← mkScript [.op OP_RETURN, .data digest]
    return some ⟨0, s⟩
  | .p2sh => do
    let s ← mkScript [.op OP_HASH160, .data (H.hash160 digest), .op OP_EQUAL]
    return some ⟨dust, s⟩
  | .p2pkh => do
    let s ← mkScript [.op OP_DUP, .op OP_HASH160, .data (H.hash160 digest), .op OP_EQUALVERIFY, .op OP_CHECKSIG]
    return some ⟨dust, s⟩
  | .unknown => return none

/-- `make_close_seal_tx_template`, UT:17-34, given the `outpoint`s of the seals.  `CTxIn(outpoint)` has an empty script and
sequence number 0xffffffff (bitcoin/core/__init__.py:184); `CTransaction` copies its outputs, so `None` is an `AttributeError`
(bitcoin/core/__init__.py:320, 292). -/
def makeCloseTx (H : HashFns) (digest : Bytes) (outpoints : List COutPoint) (meth : Meth) (dust : Int) : Py CTransaction := do
  let o ← closeTxOut H digest meth dust
  match o with
  | none => .error .attributeError
  | some o => CTransaction.new (outpoints.map fun p => ⟨p, [], 0xffffffff⟩) [o] 0 1

/-! ## Making a witness -/

/-- The loop sus-tool.py:169-173, from input number `i` on, for the seal `sl`: the first input whose outpoint is the seal's. -/
def findTxin (T : Table) (sl : Nat) : Nat → List CTxIn → HM (Option Nat)
  | _, [] => return none
  | i, inp :: rest => do
    let v ← Prf.getAttr T sl 0
    match v with
    | .prim (.outpoint o) => do
      let e ← HM.lift (serEq COutPoint.ser inp.prevout o)
      if e then return some i else findTxin T sl (i + 1) rest
    | _ => HM.fail .other

/-- sus-tool.py:167-178, for the transaction proof `tp` and the seal `sl`; `none` where `parser.error` is called. -/
def makeWitness (T : Table) (tp sl : Nat) : HM (Option Nat) := do
  let v ← Prf.getAttr T tp 0
  match v with
  | .prim (.tx x) => do
    let i ← findTxin T sl 0 x.vin
    match i with
    | none => return none
    | some i => do
      let a ← Prf.new T Cls.txInProof [.prim (.int i), .ref tp]
      let b ← Prf.new T Cls.txOutProof [.prim (.int 0), .ref tp]
      let w ← Prf.new T Cls.btcWitness [.ref sl, .ref a, .ref b]
      return some w
  | _ => HM.fail .other

end Verif.Seal
