import Verif.Model.SusTool
import Verif.Spec.Seal
import Mathlib.Data.List.Forall2
/-! # What files hold -/
namespace Verif.Sus
open Verif Btc Seal

/-- Every program that deserializes `b` as class `c` gets a proof with the content `t`. -/
def Holds (T : Table) (H : HashFns) (c : Nat) (b : Bytes) (t : PTree) : Prop :=
  ∀ s, Reachable T H s → ∃ r s', Prf.deserialize T c b s = (.ok r, s') ∧ Represents s' r t

/-- The file is there, and it holds the seal with this outpoint and nonce. -/
def HoldsSeal (T : Table) (H : HashFns) (files : Str → Option Bytes) (f : Str) (p : COutPoint × Bytes) : Prop :=
  ∃ b, files f = some b ∧ Holds T H Cls.btcSeal b (sealT p.1 p.2)

/-- `b` holds a witness made of the seal in file `f` and the transaction `x`: some input of `x` spends the outpoint of the seal, and on what any
program deserializes from `b`, `verify()` succeeds at any later time. -/
def WitnessFor (T : Table) (H : HashFns) (files : Str → Option Bytes) (f : Str) (x : CTransaction) (b : Bytes) : Prop :=
  ∃ (p : COutPoint × Bytes) (i : Nat), HoldsSeal T H files f p ∧ (x.vin[i]?).map (·.prevout) = some p.1 ∧
    ∀ s, Reachable T H s → ∃ r s', Prf.deserialize T Cls.btcWitness b s = (.ok r, s') ∧ Represents s' r (fullWitnessT p.1 p.2 i x 0 x) ∧
      ∀ s'', Steps T H s' s'' → ((witnessVerify []).run T H r s'').1 = .ok (.ok ())

end Verif.Sus
