import Verif.Model.Script
import Verif.Model.BtcCore
/-!
# Model of blocks and of the context independent checks of lib/python-bitcoinlib/bitcoin/core/__init__.py

`BC` abbreviates `lib/python-bitcoinlib/bitcoin/core/__init__.py`, `BS` the file `serialize.py` beside it.

Simplifications: scripts in transactions are `CScript`s (as they are when deserialized); cached hashes (BS:150-165) are those of
immutable objects; the time is given in whole seconds; the chain parameter used, `PROOF_OF_WORK_LIMIT`, is an argument;
`calc_difficulty`, which computes with floats, is left out.
-/
namespace Verif.Btc
open Verif

/-- `MAX_MONEY`, BC:27. -/
def MAX_MONEY : Int := 21000000 * 100000000
/-- `MAX_BLOCK_SIZE`, BC:28. -/
def MAX_BLOCK_SIZE : Nat := 1000000
/-- `MAX_BLOCK_SIGOPS`, BC:29. -/
def MAX_BLOCK_SIGOPS : Nat := 20000

/-- `MoneyRange`, BC:31-32. -/
def moneyRange (n : Int) : Bool := decide (0 ≤ n ∧ n ≤ MAX_MONEY)

/-- `CTransaction.is_coinbase`, BC:336-337. -/
def CTransaction.isCoinbase (t : CTransaction) : Bool :=
  match t.vin with
  | [i] => i.prevout.isNull
  | _ => false

/-! ## Block headers and blocks -/

/-- `CBlockHeader`, BC:386-388. -/
structure CBlockHeader where
  nVersion : Int
  hashPrevBlock : Bytes
  hashMerkleRoot : Bytes
  nTime : Int
  nBits : Int
  nNonce : Int
deriving DecidableEq, Repr

/-- `CBlockHeader.__init__`, BC:390-398. -/
def CBlockHeader.new (nVersion : Int) (hashPrevBlock hashMerkleRoot : Bytes) (nTime nBits nNonce : Int) : Py CBlockHeader := do
  pyAssert (hashPrevBlock.length == 32)
  pyAssert (hashMerkleRoot.length == 32)
  return ⟨nVersion, hashPrevBlock, hashMerkleRoot, nTime, nBits, nNonce⟩

/-- `CBlockHeader.stream_deserialize`, BC:400-408. -/
def CBlockHeader.deser : P CBlockHeader := do
  let nVersion ← serRead 4
  let hashPrevBlock ← serRead 32
  let hashMerkleRoot ← serRead 32
  let nTime ← serRead 4
  let nBits ← serRead 4
  let nNonce ← serRead 4
  P.lift (CBlockHeader.new (unpackS 4 nVersion) hashPrevBlock hashMerkleRoot (unpackU nTime) (unpackU nBits) (unpackU nNonce))

/-- `CBlockHeader.stream_serialize`, BC:410-418. -/
def CBlockHeader.ser (h : CBlockHeader) : Py Bytes := do
  let a ← packS 4 h.nVersion
  pyAssert (h.hashPrevBlock.length == 32)
  pyAssert (h.hashMerkleRoot.length == 32)
  let b ← packU 4 h.nTime
  let c ← packU 4 h.nBits
  let d ← packU 4 h.nNonce
  return a ++ h.hashPrevBlock ++ h.hashMerkleRoot ++ b ++ c ++ d

/-- `CBlockHeader.GetHash`, BS:123-125. -/
def CBlockHeader.getHash (H : HashFns) (h : CBlockHeader) : Py Bytes := do
  let b ← h.ser
  return H.hash256 b

/-- `merkle_tree[i]` -/
def index (t : List Bytes) (i : Nat) : Py Bytes :=
  match t[i]? with
  | some a => .ok a
  | none => .error .indexError

/-- The inner loop of `build_merkle_tree_from_txids`, BC:465-467, over the remaining `i`s. -/
def merklePairs (H : HashFns) (j size : Nat) : List Nat → List Bytes → Py (List Bytes)
  | [], t => .ok t
  | i :: is, t => do
    let a ← index t (j + i)
    let b ← index t (j + min (i + 1) (size - 1))
    merklePairs H j size is (t ++ [H.hash256 (a ++ b)])

/-- The outer loop of `build_merkle_tree_from_txids`, BC:464-470; it ends within as many rounds as there are txids. -/
def merkleLoop (H : HashFns) : Nat → Nat → Nat → List Bytes → Py (List Bytes)
  | 0, size, _, t => if size > 1 then .error .other else .ok t
  | n + 1, size, j, t =>
    if size > 1 then do
      let t ← merklePairs H j size ((List.range ((size + 1) / 2)).map (2 * ·)) t
      merkleLoop H n ((size + 1) / 2) (j + size) t
    else .ok t

/-- `CBlock.build_merkle_tree_from_txids`, BC:443-472. -/
def buildMerkleTree (H : HashFns) (txids : List Bytes) : Py (List Bytes) := merkleLoop H txids.length txids.length 0 txids

/-- `CBlock.build_merkle_tree_from_txs`, BC:474-478. -/
def buildMerkleTreeFromTxs (H : HashFns) (txs : List CTransaction) : Py (List Bytes) := do
  let txids ← txs.mapM (·.getHash H)
  buildMerkleTree H txids

/-- `CBlock`, BC:439-441.  `vMerkleTree` is a function of `vtx`. -/
structure CBlock where
  header : CBlockHeader
  vtx : List CTransaction
deriving DecidableEq, Repr

/-- `CBlock.calc_merkle_root`, BC:480-488. -/
def CBlock.calcMerkleRoot (H : HashFns) (b : CBlock) : Py Bytes := do
  if b.vtx = [] then .error .valueError
  let t ← buildMerkleTreeFromTxs H b.vtx
  match t.getLast? with
  | some r => return r
  | none => .error .indexError

/-- `CBlock.__init__`, BC:490-496, on immutable transactions. -/
def CBlock.new (H : HashFns) (header : CBlockHeader) (vtx : List CTransaction) : Py CBlock := do
  let h ← CBlockHeader.new header.nVersion header.hashPrevBlock header.hashMerkleRoot header.nTime header.nBits header.nNonce
  let _ ← buildMerkleTreeFromTxs H vtx
  return ⟨h, vtx⟩

/-- `CBlock.stream_deserialize`, BC:498-507. -/
def CBlock.deser (H : HashFns) : P CBlock := do
  let h ← CBlockHeader.deser
  let vtx ← deserVector CTransaction.deser
  let _ ← P.lift (buildMerkleTreeFromTxs H vtx)
  return ⟨h, vtx⟩

/-- `CBlock.stream_serialize`, BC:509-511. -/
def CBlock.ser (b : CBlock) : Py Bytes := do
  let a ← b.header.ser
  let v ← serVector CTransaction.ser b.vtx
  return a ++ v

/-- `CBlock.get_header`, BC:513-523. -/
def CBlock.getHeader (b : CBlock) : Py CBlockHeader :=
  CBlockHeader.new b.header.nVersion b.header.hashPrevBlock b.header.hashMerkleRoot b.header.nTime b.header.nBits b.header.nNonce

/-- `CBlock.GetHash`, BC:525-536. -/
def CBlock.getHash (H : HashFns) (b : CBlock) : Py Bytes := do
  let h ← b.getHeader
  h.getHash H

/-! ## CheckTransaction -/

/-- The loop over the outputs, BC:600-608; `n` is `nValueOut`. -/
def checkOuts (n : Int) : List CTxOut → Py Unit
  | [] => .ok ()
  | o :: os => do
    if o.nValue < 0 then .error .validation
    if o.nValue > MAX_MONEY then .error .validation
    if moneyRange (n + o.nValue) = false then .error .validation
    checkOuts (n + o.nValue) os

/-- The loop over the inputs, BC:611-615.  Membership in a `set` goes by the serialization (BS:127-138): `seen` has those of the
elements. -/
def checkDups (seen : List Bytes) : List CTxIn → Py Unit
  | [] => .ok ()
  | i :: is => do
    let b ← i.prevout.ser
    if b ∈ seen then .error .validation
    checkDups (b :: seen) is

/-- `CheckTransaction`, BC:584-624. -/
def checkTransaction (t : CTransaction) : Py Unit := do
  if t.vin = [] then .error .validation
  if t.vout = [] then .error .validation
  let b ← t.ser
  if b.length > MAX_BLOCK_SIZE then .error .validation
  checkOuts 0 t.vout
  checkDups [] t.vin
  if t.isCoinbase = true then
    match t.vin with
    | i :: _ => if 2 ≤ i.scriptSig.length ∧ i.scriptSig.length ≤ 100 then .ok () else .error .validation
    | [] => .error .indexError
  else if t.vin.any (·.prevout.isNull) = true then .error .validation
  else .ok ()

/-! ## Proof of work, headers, blocks -/

/-- `uint256_from_compact`, BS:308-315.  `nBits` is not negative at the call site. -/
def uint256FromCompact (c : Nat) : Py Nat :=
  let nbytes := (c >>> 24) &&& 0xff
  if nbytes < 3 then .error .valueError
  else .ok ((c &&& 0xffffff) <<< (8 * (nbytes - 3)))

/-- `uint256_from_str`, BS:299-305: eight four byte numbers. -/
def uint256FromStr (s : Bytes) : Py Nat :=
  let s := s.take 32
  if s.length ≠ 32 then .error .structError
  else .ok (((List.range 8).map fun i => leNat ((s.drop (4 * i)).take 4) <<< (i * 32)).foldl (· + ·) 0)

/-- `0 < target <= coreparams.PROOF_OF_WORK_LIMIT`, BC:644.  `none` is a limit which is `None` (BC:541): no number can be compared with it. -/
def powRange (limit : Option Nat) (target : Nat) : Py Bool :=
  if 0 < target then
    match limit with
    | some l => .ok (decide (target ≤ l))
    | none => .error .typeError
  else .ok false

/-- `CheckProofOfWork`, BC:636-650.  `nBits`, having been serialized before, is an unsigned 32 bit number. -/
def checkProofOfWork (limit : Option Nat) (hash : Bytes) (nBits : Nat) : Py Unit := do
  let target ← uint256FromCompact nBits
  let ok ← powRange limit target
  if ok = false then .error .validation
  let h ← uint256FromStr hash
  if h > target then .error .validation
  return ()

/-- `CheckBlockHeader`, BC:653-670. -/
def checkBlockHeader (H : HashFns) (limit : Option Nat) (h : CBlockHeader) (pow : Bool) (now : Int) : Py Unit := do
  if pow = true then
    let hash ← h.getHash H
    checkProofOfWork limit hash h.nBits.toNat
  if h.nTime > now + 2 * 60 * 60 then .error .validation
  return ()

/-- A sum of results, in order. -/
def sumM {α} (f : α → Py Nat) : List α → Py Nat
  | [] => .ok 0
  | a :: as => do
    let n ← f a
    let m ← sumM f as
    return n + m

/-- `GetLegacySigOpCount`, BC:676-682. -/
def getLegacySigOpCount (t : CTransaction) : Py Nat := do
  let a ← sumM (fun i : CTxIn => getSigOpCount i.scriptSig false) t.vin
  let b ← sumM (fun o : CTxOut => getSigOpCount o.scriptPubKey false) t.vout
  return a + b

/-- The loop over the transactions but the first, BC:717-730; `seen` is `unique_txids`, `n` is `nSigOps`. -/
def checkTxs (H : HashFns) (seen : List Bytes) (n : Nat) : List CTransaction → Py Unit
  | [] => .ok ()
  | t :: ts => do
    if t.isCoinbase = true then .error .validation
    checkTransaction t
    let txid ← t.getHash H
    if txid ∈ seen then .error .validation
    let k ← getLegacySigOpCount t
    if n + k > MAX_BLOCK_SIGOPS then .error .validation
    checkTxs H (txid :: seen) (n + k) ts

/-- `CheckBlock`, BC:685-734. -/
def checkBlock (H : HashFns) (limit : Option Nat) (b : CBlock) (pow merkle : Bool) (now : Int) : Py Unit := do
  let h ← b.getHeader
  checkBlockHeader H limit h pow now
  match b.vtx with
  | [] => .error .validation
  | t :: ts => do
    let s ← b.ser
    if s.length > MAX_BLOCK_SIZE then .error .validation
    if t.isCoinbase = false then .error .validation
    checkTxs H [] 0 ts
    if merkle = true then
      let r ← b.calcMerkleRoot H
      if b.header.hashMerkleRoot ≠ r then .error .validation
    return ()

end Verif.Btc
