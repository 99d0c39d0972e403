import Verif.Model.MbProof
import Verif.Spec.MmrProof
import Verif.Spec.Merbinner
/-! # Merbinner trees as proofs -/
namespace Verif
namespace Merb

/-- A key that the key serializer accepts. -/
abbrev Key (τ : PrimTy) := {k : PVal // τ.check k = .ok ()}

/-- A merbinner tree as a proof of class `m`. -/
def emb (m : Nat) {τ : PrimTy} : MB (Key τ) TVal → PTree
  | .empty => .node (m + 1) .nil
  | .leaf k v => .node (m + 2) (.prim k.1 (.cons v .nil))
  | .inner p l r => .node (m + 3) (.prim (.bits p) (.sub (emb m l) (.sub (emb m r) .nil)))

/-- Whether two values are the same: equal plain values, or proofs with equal hashes. -/
def same (T : Table) (H : HashFns) : TVal → TVal → Bool
  | .prim a, .prim b => decide (a = b)
  | .sub t, .sub u => decide (t.hash T H = u.hash T H)
  | _, _ => false

/-- Keys, values and prefixes of a class of merbinner trees. -/
def cls (T : Table) (H : HashFns) (τ : PrimTy) (kv : Kind) (kp : Key τ → List Bool) : MBClass (Key τ) TVal where
  checkKey _ := .ok ()
  checkValue := Mmr.accepts T kv
  keyDigest k := match τ.ser k.1 with | .ok b => b | .error _ => []
  valueDigest := (Mmr.valueSer T H kv).digest
  key2prefix := kp
  veq := same T H

/-- Keys whose prefixes are free of prefixes of each other, as computed by `key2prefix`. -/
structure Prefixes (τ : PrimTy) (k2p : PVal → Py (List Bool)) (kp : Key τ → List Bool) : Prop where
  eq : ∀ k, k2p k.1 = .ok (kp k)
  free : ∀ k k', kp k <+: kp k' → k = k'

end Merb
end Verif
