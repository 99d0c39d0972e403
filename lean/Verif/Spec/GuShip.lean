import Verif.Spec.GuMap
import Verif.Spec.ProofShip
import Verif.Spec.ProofTyped
/-! # A proof for one key of a map -/
namespace Verif.GuMap
open Verif Seal

/-- Look up the key and the value of the leaf at a position, verifying every node on the way fully. -/
def checkKey (H : HashFns) (g : GuMapDecl) : List Bool → Prog (Option PVal × Option PVal)
  | [] => do
    verifyFull H g
    onCls [] Cls.leafPrefix (.read [1] fun k => .read [2] fun v => .ret (.ok (k, v)))
  | b :: π => do
    verifyFull H g
    onCls [] Cls.innerPrefix ((checkKey H g π).at [if b then 3 else 2])

/-- What a plain attribute holds; nothing if it is a proof. -/
def _root_.Verif.TVal.plain : TVal → Option PVal
  | .prim v => some v
  | .sub _ => none

/-- Beside the way to a position there is an inner node. -/
def InnerBeside (t : PTree) (π : List Bool) : Prop :=
  ∃ σ b q, σ ++ [b] <+: π ∧ nodeAt t (σ ++ [!b]) = some q ∧ q.cls = Cls.innerPrefix

/-- No key and no value in the map is a `VarProof` or a `TxProof`. -/
def OrdinaryData (T : Table) (t : PTree) : Prop :=
  ∀ σ n i q, nodeAt t σ = some n → n.cls = Cls.leafPrefix → i = 1 ∨ i = 2 → n.get? i = some (.sub q) → (T q.cls).variants = none ∧ (T q.cls).isTx = false

end Verif.GuMap
