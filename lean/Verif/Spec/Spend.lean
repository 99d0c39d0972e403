import Verif.Spec.ScriptEval
import Verif.Model.Spend
/-!
# Keys, and signed transactions
-/
namespace Verif.Btc
open Verif

/-- A key as `bitcoin.wallet` makes them: its signatures of hashes are accepted, and have the usual sizes; no signature with a hash type after it is
the key itself (signatures begin with 0x30, keys with 2, 3 or 4). -/
structure Signer.Works (C : Crypto) (k : Signer) : Prop where
  verifies : ∀ h, h.length = 32 → C.verify k.pub h (k.sign h) = true
  long : ∀ h, h.length = 32 → 20 ≤ (k.sign h).length
  short : ∀ h, h.length = 32 → (k.sign h).length ≤ 519
  key : k.pub.length ≤ 65
  apart : ∀ h b, h.length = 32 → k.sign h ++ [b] ≠ k.pub

/-- Its signatures of a hash are none of another hash. -/
def Signer.Binds (C : Crypto) (k : Signer) : Prop :=
  ∀ h h', h.length = 32 → h'.length = 32 → C.verify k.pub h' (k.sign h) = true → h' = h

/-- Transactions that differ in scriptSigs only. -/
structure SameButSigs (t t' : CTransaction) : Prop where
  version : t'.nVersion = t.nVersion
  ins : t'.vin.map (fun x => (x.prevout, x.nSequence)) = t.vin.map (fun x => (x.prevout, x.nSequence))
  outs : t'.vout = t.vout
  lock : t'.nLockTime = t.nLockTime

end Verif.Btc
