import Verif.Model.GuMap
import Verif.Spec.Seal
import Verif.Spec.Hash
import Verif.Spec.ProofBind
/-!
# What maps are

A map is a binary tree of proofs.  These definitions follow the data, not the verification methods.
-/
namespace Verif.GuMap
open Verif Seal

/-- A prefix with an unused seal. -/
def unusedT (p : List Bool) (sl : PTree) : PTree := .node Cls.unusedPrefix (.prim (.bits p) (.sub sl .nil))
/-- A leaf; key and value are plain values. -/
def leafT (w : PTree) (key value : PVal) : PTree := .node Cls.leafPrefix (.sub w (.prim key (.prim value .nil)))
/-- An inner node. -/
def innerT (p : List Bool) (w l r : PTree) : PTree := .node Cls.innerPrefix (.prim (.bits p) (.sub w (.sub l (.sub r .nil))))

/-- The sub-proof at a position. -/
def _root_.Verif.PTree.sub? (t : PTree) (i : Nat) : Option PTree := match t.get? i with | some (.sub q) => some q | _ => none

/-- The witness of a closed node. -/
def witnessOf (t : PTree) : Option PTree :=
  if t.cls = Cls.leafPrefix then t.sub? 0 else if t.cls = Cls.innerPrefix then t.sub? 1 else none

/-- The seal of a node: its own if unused, that of the witness if closed. -/
def sealOf (t : PTree) : Option PTree := if t.cls = Cls.unusedPrefix then t.sub? 1 else (witnessOf t).bind (·.sub? 0)

/-- The seal of the node has the hash `h`. -/
def SealHashIs (T : Table) (H : HashFns) (t : PTree) (h : Bytes) : Prop := ∃ q, sealOf t = some q ∧ q.hash T H = .ok h

/-- What stands for a key or value in hashes: its hash if it is a proof, its serialization otherwise. -/
def DigestIs (T : Table) (H : HashFns) (k : Kind) (v : TVal) (d : Bytes) : Prop :=
  match k, v with
  | .prim τ, .prim w => τ.ser w = .ok d
  | .prim _, .sub _ => False
  | _, .sub t => t.hash T H = .ok d
  | _, .prim _ => False

/-- The string whose hash closes the seal of a node: tag, key and value; or tag and the hashes of the children's seals. -/
inductive Sealed (T : Table) (H : HashFns) (g : GuMapDecl) : PTree → Bytes → Prop where
  | leaf {t k v kd vd} : t.cls = Cls.leafPrefix → t.get? 1 = some k → t.get? 2 = some v → DigestIs T H g.key k kd → DigestIs T H g.value v vd →
      Sealed T H g t (leafTag H g ++ (kd ++ vd))
  | inner {t l r a b} : t.cls = Cls.innerPrefix → t.sub? 2 = some l → t.sub? 3 = some r → SealHashIs T H l a → SealHashIs T H r b →
      Sealed T H g t (innerTag H g ++ (a ++ b))

/-- A fake witness for `h`. -/
def IsFake (w : PTree) (h : Bytes) : Prop := w = fakeWitnessT (fakeSealT h)

/-- A Bitcoin witness that verifies, for the hash `h`. -/
def IsClosed (H : HashFns) (w : PTree) (h : Bytes) : Prop := ∃ o n i x j x', w = fullWitnessT o n i x j x' ∧ Shows H o i x j x' h

/-- The node at a position: `false` left, `true` right. -/
def nodeAt (t : PTree) : List Bool → Option PTree
  | [] => some t
  | b :: bs => if t.cls = Cls.innerPrefix then (t.sub? (if b then 3 else 2)).bind fun q => nodeAt q bs else none

/-- `x` is among the strings hashed for the seal and the contents of node `t`. -/
def HashedAt (T : Table) (H : HashFns) (g : GuMapDecl) (t : PTree) (x : Bytes) : Prop := Sealed T H g t x ∨ ∃ q, sealOf t = some q ∧ x ∈ q.hashed T H

/-- All those strings, of the nodes of a tree. -/
def HashedIn (T : Table) (H : HashFns) (g : GuMapDecl) (t : PTree) (x : Bytes) : Prop := ∃ π n, nodeAt t π = some n ∧ HashedAt T H g n x

/-- Full verification of one node: `node.verify()`, and for a Bitcoin witness also `node.witness.verify()` (which `node.verify()` does not call). -/
def verifyFull (H : HashFns) (g : GuMapDecl) : Prog Unit := do
  verify H g
  .cls [] fun c =>
    if c = Cls.unusedPrefix then .ret (.ok ())
    else
      let i := if c = Cls.leafPrefix then 0 else 1
      .cls [i] fun wc => if wc = Cls.btcWitness then (witnessVerify []).at [i] else .ret (.ok ())

/-- The attributes to follow to a position. -/
def attrPath (π : List Bool) : List Nat := π.map fun b => if b then 3 else 2

/-- All nodes of the map `t` that object `r` stands for verify fully. -/
def AllVerify (T : Table) (H : HashFns) (g : GuMapDecl) (s : PState) (r : Nat) (t : PTree) : Prop :=
  ∀ π n, nodeAt t π = some n → (((verifyFull H g).at (attrPath π)).run T H r s).1 = .ok (.ok ())

/-- The nodes of the map on the way to a position verify fully. -/
def VerifiedTo (T : Table) (H : HashFns) (g : GuMapDecl) (s : PState) (r : Nat) (t : PTree) (π : List Bool) : Prop :=
  ∀ ρ n, ρ <+: π → nodeAt t ρ = some n → (((verifyFull H g).at (attrPath ρ)).run T H r s).1 = .ok (.ok ())

/-- The strings hashed for the seals and contents of the nodes on the way to a position. -/
def HashedTo (T : Table) (H : HashFns) (g : GuMapDecl) (t : PTree) (π : List Bool) (x : Bytes) : Prop := ∃ ρ n, ρ <+: π ∧ nodeAt t ρ = some n ∧ HashedAt T H g n x

/-- The prefix of a node. -/
def prefixT (k2p : PVal → Py (List Bool)) (t : PTree) : Option (List Bool) :=
  if t.cls = Cls.unusedPrefix ∨ t.cls = Cls.innerPrefix then
    match t.get? 0 with
    | some (.prim (.bits p)) => some p
    | _ => none
  else if t.cls = Cls.leafPrefix then
    match t.get? 1 with
    | some (.prim k) => (match k2p k with | .ok p => some p | .error _ => none)
    | _ => none
  else none

/-- The class of the node is one of the three. -/
def IsNode (t : PTree) : Prop := t.cls = Cls.unusedPrefix ∨ t.cls = Cls.leafPrefix ∨ t.cls = Cls.innerPrefix

/-- A witness maker that returns a witness of the seal it is given, for the hash it is given. -/
structure Honest (T : Table) (H : HashFns) (mk : HVal → Bytes → HM HVal) : Prop where
  witness : ∀ s q ts h v s', Reachable T H s → Represents s q ts → mk (.ref q) h s = (.ok v, s') → Steps T H s s' ∧
    ∃ w tw ts', v = .ref w ∧ Represents s' w tw ∧ tw.sub? 0 = some ts' ∧ ts'.hash T H = ts.hash T H ∧ ((verifyHash H h).run T H w s').1 = .ok (.ok ())

/-- The same key, or the same value: equal, or for proofs the same hash. -/
def Same (T : Table) (H : HashFns) (k : Kind) (v v' : TVal) : Prop :=
  match k with
  | .prim _ => v = v'
  | _ => ∃ q q' h, v = .sub q ∧ v' = .sub q' ∧ q.hash T H = .ok h ∧ q'.hash T H = .ok h

/-- Every child of an inner node has a prefix that goes on on its side: `0` left, `1` right. -/
def Placed (k2p : PVal → Py (List Bool)) (t : PTree) : Prop :=
  ∀ π b n q, nodeAt t π = some n → nodeAt t (π ++ [b]) = some q → ∃ p p', prefixT k2p n = some p ∧ prefixT k2p q = some p' ∧ p ++ [b] <+: p'

end Verif.GuMap
