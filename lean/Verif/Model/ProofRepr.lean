import Verif.Model.Proof
import Verif.Model.SusTool
/-!
# `repr` of proofs

`PF` abbreviates `lib/python-proofmarshal/proofmarshal/proof.py`.

Simplification: the names of classes are an argument, the text `module.qualname` for every class of the table.
-/
namespace Verif
namespace Prf
open Sus (Str b2x)
variable (T : Table) (H : HashFns)

/-- `repr(p)` and `str(p)`, PF:232-235; `binascii.hexlify` writes like `b2x`. -/
def repr (name : Nat → Str) (r : Nat) : HM Str := do
  let o ← HM.obj r
  let h ← hash T H r
  return name o.cls ++ "(<".toList ++ b2x h ++ ">)".toList

end Prf
end Verif
