import Verif.Spec.Script
import Verif.Model.BtcCore
/-!
# What a signature signs

A signature is made for one input of a transaction.  The lower five bits of the hash type tell what it says about the outputs:
2 nothing, 3 only the output at the place of the input, else all of them.  In the first two cases it says nothing about the sequence
numbers of other inputs.  With bit 7 it says nothing about other inputs at all.
-/
namespace Verif.Btc
open Verif

def SigNone (ht : Int) : Prop := ht % 32 = 2
def SigSingle (ht : Int) : Prop := ht % 32 = 3
def SigAnyone (ht : Int) : Prop := ht / 128 % 2 = 1

instance (ht : Int) : Decidable (SigNone ht) := inferInstanceAs (Decidable (_ = _))
instance (ht : Int) : Decidable (SigSingle ht) := inferInstanceAs (Decidable (_ = _))
instance (ht : Int) : Decidable (SigAnyone ht) := inferInstanceAs (Decidable (_ = _))

/-- The script that is signed: without 0xab. -/
def codeOf (ts : List Tok) : Bytes := scriptOf (ts.filter fun t => t ≠ .op 0xab#8)

/-- The inputs as signed for the input at `i`. -/
def sigInputs (code : Bytes) (vin : List CTxIn) (i : Nat) (ht : Int) : List CTxIn :=
  let all := vin.mapIdx fun j x => CTxIn.mk x.prevout (if j = i then code else []) (if j ≠ i ∧ (SigNone ht ∨ SigSingle ht) then 0 else x.nSequence)
  if SigAnyone ht then (all[i]?).toList else all

/-- The outputs as signed for the input at `i`. -/
def sigOutputs (vout : List CTxOut) (i : Nat) (ht : Int) : List CTxOut :=
  if SigNone ht then [] else if SigSingle ht then List.replicate i ⟨-1, []⟩ ++ (vout[i]?).toList else vout

/-- The transaction as signed. -/
def sigView (code : Bytes) (t : CTransaction) (i : Nat) (ht : Int) : CTransaction :=
  ⟨t.nVersion, sigInputs code t.vin i ht, sigOutputs t.vout i ht, t.nLockTime⟩

/-- `m` is the message that is hashed and signed for the input at `i` of `t`, which spends an output with script `s`. -/
def SigMessage (s : Bytes) (t : CTransaction) (i : Nat) (ht : Int) (m : Bytes) : Prop :=
  ∃ ts b, WFToks ts ∧ s = scriptOf ts ∧ (sigView (codeOf ts) t i ht).ser = .ok b ∧ m = b ++ little 4 ht.toNat

end Verif.Btc
