import Verif.Spec.ScriptEval
/-!
# Outputs and what spends them
-/
namespace Verif.Btc
open Verif

/-- A script turns the stack `s` into `s'` (both with the top first). -/
def Evals (L : Lang) (t : CTransaction) (i : Nat) (script : Bytes) (s s' : List Bytes) : Prop :=
  ∃ p : Prog, p.WF false ∧ script = scriptOf p.toks ∧ p.eval L t i s = some s'

/-- The value on top of the stack is true. -/
def TopTrue (s : List Bytes) : Prop := ∃ v r, s = v :: r ∧ Truthy v

/-- The script of an output for any key with hash `h`: DUP HASH160 h EQUALVERIFY CHECKSIG. -/
def keyHashToks (h : Bytes) : List Tok := [.op 0x76#8, .op 0xa9#8, .push .direct h, .op 0x88#8, .op 0xac#8]

/-- The script of an output for any script with hash `h`: HASH160 h EQUAL. -/
def scriptHashToks (h : Bytes) : List Tok := [.op 0xa9#8, .push .direct h, .op 0x87#8]

/-- An operation that pushes a number from 1 to 16. -/
def numTok (n : Nat) : Tok := .op (BitVec.ofNat 8 (0x50 + n))

/-- The script of an output for `m` of the keys. -/
def multisigToks (m : Nat) (keys : List Bytes) : List Tok :=
  numTok m :: (keys.map fun k => .push (shortest k) k) ++ [numTok keys.length, .op 0xae#8]

/-- `scriptSig` spends an output with script `scriptPubKey`; if `p2sh`, also according to BIP 16. -/
structure Spends (L : Lang) (t : CTransaction) (i : Nat) (p2sh : Bool) (scriptSig scriptPubKey : Bytes) : Prop where
  script : ∃ s s', Evals L t i scriptSig [] s ∧ Evals L t i scriptPubKey s s' ∧ TopTrue s'
  redeem : p2sh = true → ∀ h : Bytes, h.length = 20 → scriptPubKey = scriptOf (scriptHashToks h) →
    (∃ ts, WFToks ts ∧ scriptSig = scriptOf ts ∧ ∀ u ∈ ts, u.isPush = true) ∧
    ∃ r s s', Evals L t i scriptSig [] (r :: s) ∧ Evals L t i r s s' ∧ TopTrue s'

/-- Operations that push a truth value: EQUAL, WITHIN, CHECKSIG, CHECKMULTISIG. -/
def Tok.makesTruth (u : Tok) : Bool := decide (u ∈ [Tok.op 0x87#8, .op 0xa5#8, .op 0xac#8, .op 0xae#8])

/-- Operations that see the bytes of values, not only the numbers they stand for: SIZE, EQUAL, EQUALVERIFY, the hash functions and the signatures. -/
def Tok.seesBytes (u : Tok) : Bool :=
  decide (u ∈ [Tok.op 0x82#8, .op 0x87#8, .op 0x88#8, .op 0xa6#8, .op 0xa7#8, .op 0xa8#8, .op 0xa9#8, .op 0xaa#8, .op 0xac#8, .op 0xad#8, .op 0xae#8, .op 0xaf#8])

/-- After an operation that pushes a truth value (or if `c` says there was one before) there is none that sees the bytes of values. -/
def NeverSeen (c : Bool) : List Tok → Prop
  | [] => True
  | u :: ts => (c = true → u.seesBytes = false) ∧ NeverSeen (c || u.makesTruth) ts

/-- An operation that is counted: all but pushes of data and of small numbers. -/
def counts : Tok → Bool
  | .op o => decide (0x60 < o.toNat)
  | .push _ _ => false

/-- A push of data. -/
def isData : Tok → Bool
  | .op _ => false
  | .push _ _ => true

/-- An operation that does not make every script fail. -/
def Allowed : Tok → Prop
  | .op o => ¬ Forbidden o
  | .push _ d => d.length ≤ 520

end Verif.Btc
