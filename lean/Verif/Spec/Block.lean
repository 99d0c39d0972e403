import Verif.Model.Block
import Verif.Spec.Script
import Verif.Spec.Hash
/-! What the rules of Bitcoin say about transactions, merkle roots and proofs of work, without loops over indices. -/
namespace Verif.Btc
open Verif

/-- The output no transaction has, of which coinbase transactions spend. -/
def nullOut : COutPoint := ⟨List.replicate 32 0#8, 4294967295⟩

/-- A coinbase transaction. -/
def Coinbase (t : CTransaction) : Prop := ∃ i, t.vin = [i] ∧ i.prevout = nullOut

/-- The outputs a transaction spends. -/
def spends (t : CTransaction) : List COutPoint := t.vin.map (·.prevout)

/-- The rules for transactions that need no knowledge of the chain; `size` is that of the serialized transaction. -/
structure TxRules (t : CTransaction) (size : Nat) : Prop where
  inputs : t.vin ≠ []
  outputs : t.vout ≠ []
  small : size ≤ 1000000
  positive : ∀ o ∈ t.vout, 0 ≤ o.nValue
  total : (t.vout.map (·.nValue)).sum ≤ 2100000000000000
  distinct : (spends t).Nodup
  coinbase : ∀ i, t.vin = [i] → i.prevout = nullOut → 2 ≤ i.scriptSig.length ∧ i.scriptSig.length ≤ 100
  spending : ¬ Coinbase t → nullOut ∉ spends t

/-- The strings hashed for the next level: neighbours in pairs, the last one, if it has no neighbour, with itself. -/
def pairs : List Bytes → List Bytes
  | [] => []
  | [a] => [a ++ a]
  | a :: b :: l => (a ++ b) :: pairs l

/-- `Merkle h l n r S`: the tree over `l` has `n` levels over `l`, root `r`, and needs the strings `S` be hashed. -/
inductive Merkle (h : Bytes → Bytes) : List Bytes → Nat → Bytes → List Bytes → Prop
  | one (a : Bytes) : Merkle h [a] 0 a []
  | step {l n r S} : 2 ≤ l.length → Merkle h ((pairs l).map h) n r S → Merkle h l (n + 1) r (pairs l ++ S)

/-- All nodes of that tree, deepest level first. -/
inductive Levels (h : Bytes → Bytes) : List Bytes → List Bytes → Prop
  | top {l} : l.length ≤ 1 → Levels h l l
  | step {l t} : 2 ≤ l.length → Levels h ((pairs l).map h) t → Levels h l (l ++ t)

/-- What the Satoshi client reads out of `nBits`: the number of bytes, a sign and 23 bits of mantissa; `none` for negative numbers. -/
def satoshiTarget (c : Nat) : Option Nat :=
  let size := c / 2 ^ 24
  let m := c % 2 ^ 23
  if m ≠ 0 ∧ c / 2 ^ 23 % 2 = 1 then none
  else if size ≤ 3 then some (m / 256 ^ (3 - size)) else some (m * 256 ^ (size - 3))

/-- A hash is enough work for a target. -/
def Enough (limit : Nat) (hash : Bytes) (target : Nat) : Prop := 0 < target ∧ target ≤ limit ∧ leNat hash ≤ target

/-- The scripts in a transaction. -/
def scripts (t : CTransaction) : List Bytes := t.vin.map (·.scriptSig) ++ t.vout.map (·.scriptPubKey)

/-- `SigOpTotal l n`: the scripts `l` are valid and have `n` checks of signatures, as counted for a block by the Satoshi client
(whatever is pushed, and 20 for each check of several signatures). -/
inductive SigOpTotal : List Bytes → Nat → Prop
  | nil : SigOpTotal [] 0
  | cons {ts l n} : WFToks ts → SigOpTotal l n → SigOpTotal (scriptOf ts :: l) (sigOpSum false none ts + n)

/-- The transactions `ts` are serialized as `es`. -/
def Serialized (ts : List CTransaction) (es : List Bytes) : Prop := ts.map CTransaction.ser = es.map Except.ok

/-- What `CheckBlock` makes sure of a block: `s` is its serialization, `head` that of its header, `c` the first transaction and `e`
its serialization, `ts` the others and `es` their serializations. -/
structure BlockRules (h : Bytes → Bytes) (limit : Nat) (b : CBlock) (pow merkle : Bool) (now : Int) (s head : Bytes)
    (c : CTransaction) (e : Bytes) (ts : List CTransaction) (es : List Bytes) : Prop where
  serialized : b.ser = .ok s ∧ b.header.ser = .ok head ∧ c.ser = .ok e ∧ Serialized ts es
  work : pow = true → 3 ≤ b.header.nBits.toNat / 2 ^ 24 ∧
    Enough limit (h head) (b.header.nBits.toNat % 2 ^ 24 * 256 ^ (b.header.nBits.toNat / 2 ^ 24 - 3))
  time : b.header.nTime ≤ now + 7200
  small : s.length ≤ 1000000
  first : b.vtx = c :: ts ∧ Coinbase c
  others : ∀ t ∈ ts, ¬ Coinbase t ∧ ∃ e, t.ser = .ok e ∧ TxRules t e.length
  distinct : (es.map h).Nodup
  sigops : ∃ n, SigOpTotal (ts.flatMap scripts) n ∧ n ≤ 20000
  root : merkle = true → ∃ n S, Merkle h ((e :: es).map h) n b.header.hashMerkleRoot S

end Verif.Btc
