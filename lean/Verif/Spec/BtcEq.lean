import Verif.Model.BtcEq
/-!
# What an object stands for, whatever its class
-/
namespace Verif.Btc

/-- Contents of Bitcoin objects: mutable objects are not distinguished from immutable ones. -/
inductive BtcContent where
  | outPoint (hash : Bytes) (n : Int)
  | input (hash : Bytes) (n : Int) (scriptSig : Bytes) (nSequence : Int)
  | output (nValue : Int) (scriptPubKey : Bytes)
  | tx (nVersion : Int) (vin : List BtcContent) (vout : List BtcContent) (nLockTime : Int)
  | header (nVersion : Int) (prev root : Bytes) (nTime nBits nNonce : Int)
  | block (header : BtcContent) (vtx : List BtcContent)

def BtcContent.ofIn (x : CTxIn) : BtcContent := .input x.prevout.hash x.prevout.n x.scriptSig x.nSequence
def BtcContent.ofOut (x : CTxOut) : BtcContent := .output x.nValue x.scriptPubKey
def BtcContent.ofTx (x : CTransaction) : BtcContent := .tx x.nVersion (x.vin.map ofIn) (x.vout.map ofOut) x.nLockTime
def BtcContent.ofHeader (x : CBlockHeader) : BtcContent := .header x.nVersion x.hashPrevBlock x.hashMerkleRoot x.nTime x.nBits x.nNonce

/-- The content of an object, field by field. -/
def BtcObj.content : BtcObj → BtcContent
  | .outPoint _ x => .outPoint x.hash x.n
  | .txIn _ x => .ofIn x
  | .txOut _ x => .ofOut x
  | .tx _ x => .ofTx x
  | .header x => .ofHeader x
  | .block x => .block (.ofHeader x.header) (x.vtx.map .ofTx)

/-- The kind of an object: two objects may be compared by what they are written as only if they are of one kind. -/
def BtcObj.kind : BtcObj → Nat
  | .outPoint .. => 0
  | .txIn .. => 1
  | .txOut .. => 2
  | .tx .. => 3
  | .header _ => 4
  | .block _ => 4

end Verif.Btc
