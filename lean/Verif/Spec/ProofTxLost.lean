import Verif.Spec.ProofSent
/-! # Proofs in which no `VarProof` is pruned -/
namespace Verif

mutual
/-- Nothing pruned in it is a `VarProof`. -/
def PTree.KeepsVariants (T : Table) : PTree → Prop
  | .node _ fs => fs.KeepsVariants T
  | .pruned c _ => (T c).variants = none
def PFields.KeepsVariants (T : Table) : PFields → Prop
  | .nil => True
  | .prim _ fs => fs.KeepsVariants T
  | .sub t fs => t.KeepsVariants T ∧ fs.KeepsVariants T
end

end Verif
