import Verif.Spec.Proof
import Verif.Spec.Hash
/-! # Partial proofs of the same thing -/
namespace Verif

/-- The classes declared by an entry of `SERIALIZED_ATTRS`. -/
def Kind.Allows (T : Table) : Kind → Nat → Prop
  | .prim _, _ => False
  | .proof c, c' => c' = c ∨ ∃ us, (T c).variants = some us ∧ c' ∈ us
  | .union us, c' => us.any (T.isInst c') = true

mutual
/-- Every attribute is as declared by the class: accepted by the serializer, or a proof of a declared class. -/
def PTree.Declared (T : Table) : PTree → Prop
  | .node c fs => fs.Declared T (T c).attrs
  | .pruned _ d => d.length = 32
def PFields.Declared (T : Table) : PFields → List Kind → Prop
  | .nil, [] => True
  | .prim v fs, .prim τ :: ks => τ.check v = .ok () ∧ fs.Declared T ks
  | .sub t fs, k :: ks => k.Allows T t.cls ∧ t.Declared T ∧ fs.Declared T ks
  | _, _ => False
end

/-- What must hold of the classes for hashes to identify proofs: tags are different; where a `TxProof` is declared, nothing
else is (its hash is not tagged: bitcoin.py:69-77). -/
structure Table.Binds (T : Table) : Prop where
  tags : ∀ (c c' : Nat) (tag : Bytes), (T c).hashtag = some tag → (T c').hashtag = some tag → c = c'
  tx : ∀ (c : Nat), ∀ k ∈ (T c).attrs, ∀ c1 c2, k.Allows T c1 → k.Allows T c2 → (T c1).isTx = true → c1 = c2
  root : ∀ (c c1 c2 : Nat), (Kind.proof c).Allows T c1 → (Kind.proof c).Allows T c2 → (T c1).isTx = true → c1 = c2
  txTag : ∀ (c : Nat), (T c).isTx = true → (T c).hashtag = none

section
variable (T : Table) (H : HashFns)

mutual
/-- The strings hashed with SHA-256 when the hash of the tree is computed. -/
def PTree.hashed : PTree → List Bytes
  | .node c fs =>
    if (T c).isTx then
      match fs.get? 0 with
      | some (.prim (.tx t)) => (match t.ser with | .ok b => [b, H.sha256 b] | .error _ => [])
      | _ => []
    else fs.hashed ++
      match fs.hashBytes T H (T c).attrs with
      | .ok b => b :: (match (T c).hashtag with | some tag => [tag ++ H.sha256 b] | none => [])
      | .error _ => []
  | .pruned c d => match (T c).hashtag with | some tag => [tag ++ d] | none => []
def PFields.hashed : PFields → List Bytes
  | .nil => []
  | .prim _ fs => fs.hashed
  | .sub t fs => t.hashed ++ fs.hashed
end

mutual
/-- Two proofs of the same thing, each possibly pruned: same classes, same values, and where one is pruned its data hash is
that of the other. -/
inductive Compat : PTree → PTree → Prop where
  | node {c fs fs'} : CompatFields fs fs' → Compat (.node c fs) (.node c fs')
  | pruned {c d} : Compat (.pruned c d) (.pruned c d)
  | left {c d fs} : (PTree.node c fs).dataHash T H = .ok d → Compat (.pruned c d) (.node c fs)
  | right {c d fs} : (PTree.node c fs).dataHash T H = .ok d → Compat (.node c fs) (.pruned c d)
inductive CompatFields : PFields → PFields → Prop where
  | nil : CompatFields .nil .nil
  | prim {v fs fs'} : CompatFields fs fs' → CompatFields (.prim v fs) (.prim v fs')
  | sub {t t' fs fs'} : Compat t t' → CompatFields fs fs' → CompatFields (.sub t fs) (.sub t' fs')
end
end

end Verif
