import Verif.Model.MmrProof
import Verif.Spec.ProofShip
import Verif.Spec.MMR
/-! # Mountain ranges as proofs -/
namespace Verif

/-- One more attribute value. -/
def PFields.cons : TVal → PFields → PFields
  | .prim v, fs => .prim v fs
  | .sub t, fs => .sub t fs

namespace Mmr

/-- A mountain range as a proof of class `m`. -/
def emb (m : Nat) : MMR TVal → PTree
  | .empty => .node (m + 1) .nil
  | .leaf v => .node (m + 2) (.cons v .nil)
  | .inner l r n => .node (m + 3) (.sub (emb m l) (.sub (emb m r) (.prim (.int n) .nil)))

/-- What a serializer accepts. -/
def accepts (T : Table) : Kind → TVal → Py Unit
  | .prim τ, .prim v => τ.check v
  | .prim τ, .sub _ => τ.check .other
  | .proof c, .sub t => match (T c).variants with
    | none => .ok ()
    | some us => if us.any (T.isInst t.cls) then .ok () else .error .serType
  | .union us, .sub t => if us.any (T.isInst t.cls) then .ok () else .error .serType
  | _, .prim _ => .error .serType

/-- A serializer of attributes as serializer of the values of a mountain range. -/
def valueSer (T : Table) (H : HashFns) (k : Kind) : ValueSer TVal where
  check := accepts T k
  digest v := match (PFields.cons v .nil).hashBytes T H [k] with | .ok b => b | .error _ => []

/-- The values stand for some values of trees. -/
inductive AllRep (s : PState) : List HVal → List TVal → Prop where
  | nil : AllRep s [] []
  | prim {v vs ts} : AllRep s vs ts → AllRep s (.prim v :: vs) (.prim v :: ts)
  | ref {r t vs ts} : Represents s r t → AllRep s vs ts → AllRep s (.ref r :: vs) (.sub t :: ts)

end Mmr
end Verif
