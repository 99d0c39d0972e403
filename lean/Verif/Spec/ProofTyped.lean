import Verif.Spec.Proof
import Verif.Lemmas.Prim
/-! # Proofs whose attributes are what the class declares -/
namespace Verif
variable (T : Table)

/-- Number `i` is the first in the list of classes `us` that an instance of class `c` is an instance of. -/
def Table.First (us : List Nat) (c i : Nat) : Prop :=
  (us[i]?).any (T.isInst c) = true ∧ ∀ j < i, (us[j]?).any (T.isInst c) = false

mutual
/-- `t` can stand where class `c` is declared: it is of class `c`, or of a variant if `c` is a `VarProof`, and its
attributes are what its class declares: values accepted by the serializer (for Bits and transactions: values that
serialize reversibly, C18 and C42), sub-proofs of the declared class or of a class of the declared union.  A `VarProof`
that is pruned has lost the number of its variant, so it cannot stand where a `VarProof` is declared as attribute. -/
def PTree.WellTyped : PTree → Nat → Prop
  | .node c' fs, c =>
    (match (T c).variants with
      | none => c' = c
      | some us => ∃ i : Nat, us[i]? = some c' ∧ (T c').variants = some us ∧ T.First us c' i) ∧
    PFields.WellTyped fs (T c').attrs
  | .pruned c' d, c => c' = c ∧ d.length = 32
def PFields.WellTyped : PFields → List Kind → Prop
  | .nil, [] => True
  | .prim v fs, .prim τ :: ks => (τ.check v = .ok () ∧ τ.RoundTrips v ∧ ∃ e, τ.ser v = .ok e) ∧ PFields.WellTyped fs ks
  | .sub t fs, .proof c :: ks =>
    (PTree.WellTyped t c ∧ ∀ us, (T c).variants = some us → us.any (T.isInst t.cls) = true) ∧ PFields.WellTyped fs ks
  | .sub t fs, .union us :: ks =>
    (∃ (i u : Nat), us[i]? = some u ∧ T.First us t.cls i ∧ PTree.WellTyped t u) ∧ PFields.WellTyped fs ks
  | _, _ => False
end

mutual
/-- The `is_pruned` flag of a deserialized proof: whether something below is pruned, where members of unions do not
count (proof.py:56-57). -/
def PTree.prunedFlag : PTree → Bool
  | .node c fs => PFields.prunedFlag fs (T c).attrs
  | .pruned _ _ => true
def PFields.prunedFlag : PFields → List Kind → Bool
  | .sub t fs, .proof _ :: ks => PTree.prunedFlag t || PFields.prunedFlag fs ks
  | .sub _ fs, _ :: ks => PFields.prunedFlag fs ks
  | .prim _ fs, _ :: ks => PFields.prunedFlag fs ks
  | _, _ => false
end

end Verif
