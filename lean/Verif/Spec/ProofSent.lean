import Verif.Spec.ProofTyped
/-! # Proofs as they are sent, possibly with pruned parts -/
namespace Verif
variable (T : Table)

mutual
/-- Some attribute declared to be a `VarProof` is pruned in `t`.  (What arrives is then an instance of the declared class and
not of one of its variants.) -/
def PTree.Loses : PTree → Prop
  | .node c fs => fs.Loses (T c).attrs
  | .pruned _ _ => False
def PFields.Loses : PFields → List Kind → Prop
  | .sub (.pruned _ _) fs, .proof c :: ks => (∃ us, (T c).variants = some us ∧ us.any (T.isInst c) = false) ∨ fs.Loses ks
  | .sub (.node c fs') fs, .proof _ :: ks => (PTree.node c fs').Loses ∨ fs.Loses ks
  | .sub (.node c fs') fs, .union _ :: ks => (PTree.node c fs').Loses ∨ fs.Loses ks
  | .sub _ fs, _ :: ks => fs.Loses ks
  | .prim _ fs, _ :: ks => fs.Loses ks
  | _, _ => False
end

/-- A bit string that is read back from its serialization (C18). -/
def PVal.Reads : PVal → Prop
  | .bits xs => xs ≠ [] ∧ (xs.length % 8 = 0 → xs.drop (xs.length - 8) = List.replicate 8 false)
  | _ => True

mutual
/-- All bit strings in `t` are read back from their serialization. -/
def PTree.Plain : PTree → Prop
  | .node _ fs => fs.Plain
  | .pruned _ _ => True
def PFields.Plain : PFields → Prop
  | .nil => True
  | .prim v fs => v.Reads ∧ fs.Plain
  | .sub t fs => t.Plain ∧ fs.Plain
end

mutual
/-- Some attribute declared to be a `TxProof` is pruned in `t`, or `t` itself is a pruned one. -/
def PTree.LosesTx : PTree → Prop
  | .node _ fs => fs.LosesTx
  | .pruned c _ => (T c).isTx = true
def PFields.LosesTx : PFields → Prop
  | .nil => False
  | .prim _ fs => fs.LosesTx
  | .sub t fs => t.LosesTx ∨ fs.LosesTx
end

end Verif
