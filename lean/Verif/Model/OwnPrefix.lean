import Verif.Model.GuMap
/-!
# Trees and maps that keep the `key2prefix` they come with

`T` is `lib/python-proofmarshal/proofmarshal/merbinnertree.py`, `B` is `.../bits.py`, `PF` is `.../proof.py`, `GM` is `proofchains/core/uniquebits/gumap.py`.

`MerbinnerTree.key2prefix` (T:97-99) and `GuMap.key2prefix` (GM:27-29) return `key.hash`, which is a `bytes` object; the models of both in `Model/Merbinner.lean` and
`Model/GuMap.lean` are for classes that override the method so that it returns `Bits`, as the tests do.  Here a prefix is either.
-/
namespace Verif

/-- What `node.prefix` can be. -/
inductive Pfx where
  | bits (b : List Bool)
  | bytes (b : Bytes)
deriving DecidableEq, Repr

namespace Pfx

/-- `len(prefix)`. -/
def len : Pfx → Nat
  | bits b => b.length
  | bytes b => b.length

/-- `a.common_prefix(b)`, B:247-283: `bytes` has no such method, and `Bits` takes only `Bits`. -/
def commonPrefix : Pfx → Pfx → Py Pfx
  | bits a, bits b => .ok (.bits (Verif.commonPrefix a b))
  | bits _, bytes _ => .error .typeError
  | bytes _, _ => .error .attributeError

/-- `a.startswith(b)`: B:232-245 and `bytes.startswith`; both take only their own kind. -/
def startswith : Pfx → Pfx → Py Bool
  | bits a, bits b => .ok (b.isPrefixOf a)
  | bytes a, bytes b => .ok (b.isPrefixOf a)
  | _, _ => .error .typeError

/-- The truth of `prefix[i]`. -/
def bit : Pfx → Nat → Py Bool
  | bits b, i => match b[i]? with
    | some x => .ok x
    | none => .error .indexError
  | bytes b, i => match b[i]? with
    | some x => .ok (x != 0)
    | none => .error .indexError

end Pfx

/-- What the code uses of a subclass: the `check_instance` of its serializers and `key.hash`.  `==` on keys is equality. -/
structure OwnClass (K V : Type) where
  checkKey : K → Py Unit
  checkValue : V → Py Unit
  keyHash : K → Bytes

/-- The nodes, as in `MB`. -/
inductive OwnTree (K V : Type) where
  | empty
  | leaf (key : K) (value : V)
  | inner (pfx : Pfx) (left right : OwnTree K V)
deriving DecidableEq, Repr

namespace OwnTree
variable {K V : Type} [DecidableEq K] (C : OwnClass K V)

/-- `node.prefix`: T:242, T:281-283 with T:97-99, T:316. -/
def pfx : OwnTree K V → Pfx
  | empty => .bits []
  | leaf k _ => .bytes (C.keyHash k)
  | inner p _ _ => p

/-- `LeafNodeClass(key, value)`, T:285-287. -/
def mkLeaf (k : K) (v : V) : Py (OwnTree K V) := do
  C.checkKey k
  C.checkValue v
  return leaf k v

/-- `InnerNodeClass(first, second)`, T:320-340. -/
def mkInner (first second : OwnTree K V) : Py (OwnTree K V) := do
  pyAssert (decide (first.pfx C ≠ second.pfx C))
  let p ← (first.pfx C).commonPrefix (second.pfx C)
  pyAssert (decide (p.len < (first.pfx C).len ∧ p.len ≤ (second.pfx C).len))
  let b ← (second.pfx C).bit p.len
  return if b then inner p first second else inner p second first

/-- `descend(prefix)`: T:262-263, T:298-299, T:353-368. -/
def descend : OwnTree K V → Pfx → Py (OwnTree K V × List (OwnTree K V))
  | empty, _ => .ok (empty, [])
  | leaf k v, _ => .ok (leaf k v, [])
  | inner p l r, q =>
    if p.len ≤ q.len then do
      let s ← q.startswith p
      if s then do
        let b ← q.bit p.len
        if b then do
          let (c, s) ← r.descend q
          return (c, s ++ [l])
        else do
          let (c, s) ← l.descend q
          return (c, s ++ [r])
      else return (inner p l r, [])
    else .ok (inner p l r, [])

/-- `self[key]`, T:112-120. -/
def getItem (t : OwnTree K V) (k : K) : Py V := do
  let (c, _) ← t.descend (.bytes (C.keyHash k))
  match c with
  | leaf k' v => if k' = k then return v else .error .keyError
  | _ => .error .keyError

/-- The loop of T:159-160. -/
def rebuild : OwnTree K V → List (OwnTree K V) → Py (OwnTree K V)
  | tip, [] => .ok tip
  | tip, s :: ss => do
    let tip ← mkInner C tip s
    rebuild tip ss

/-- `put`, T:140-162. -/
def put (t : OwnTree K V) (k : K) (v : V) : Py (OwnTree K V) := do
  let newLeaf ← mkLeaf C k v
  let (closest, siblings) ← t.descend (newLeaf.pfx C)
  match closest with
  | empty => return newLeaf
  | _ => do
    let tip ← mkInner C newLeaf closest
    rebuild C tip siblings

/-- `remove`, T:165-189; for the loop of T:183-185 see `MB.rebuildNonempty`. -/
def remove (t : OwnTree K V) (k : K) : Py (OwnTree K V) := do
  let (closest, siblings) ← t.descend (.bytes (C.keyHash k))
  match closest with
  | leaf k' _ =>
    if k' = k then
      match siblings with
      | [] => return empty
      | tip :: ss => rebuildNonempty tip ss
    else .error .keyError
  | _ => .error .keyError
where
  rebuildNonempty : OwnTree K V → List (OwnTree K V) → Py (OwnTree K V)
  | tip, [] => .ok tip
  | tip, s :: ss => do
    pyAssert (match s with | empty => false | _ => true)
    let tip ← mkInner C tip s
    rebuildNonempty tip ss

/-- `MerbinnerTree(iterable)`, T:101-110, from key/value pairs. -/
def ofPairs : OwnTree K V → List (K × V) → Py (OwnTree K V)
  | t, [] => .ok t
  | t, (k, v) :: kvs => do
    let t ← t.put C k v
    ofPairs t kvs

end OwnTree

namespace GuMap
open Seal
variable (T : Table) (H : HashFns) (g : GuMapDecl)

/-- `node.prefix` where `key2prefix` is GM:27-29: GM:40, GM:69-70, GM:112.  A key that is no proof is taken to have no attribute `hash`. -/
def ownPrefix (r : Nat) : HM Pfx := do
  let o ← HM.obj r
  if o.cls = Cls.unusedPrefix ∨ o.cls = Cls.innerPrefix then do
    let v ← Prf.getAttr T r 0
    match v with
    | .prim (.bits b) => return .bits b
    | _ => HM.fail .other
  else if o.cls = Cls.leafPrefix then do
    let v ← Prf.getAttr T r 1
    match v with
    | .ref k => do
      let h ← Prf.hash T H k
      return .bytes h
    | .prim _ => HM.fail .attributeError
  else HM.fail .attributeError

/-- `InnerPrefix.from_children`, GM:124-134, where `key2prefix` is GM:27-29. -/
def ownFromChildren (left right : Nat) : HM Nat := do
  let p ← ownPrefix T H left
  let q ← ownPrefix T H right
  let c ← HM.lift (p.commonPrefix q)
  let a ← sealHash.runM T H left
  let b ← sealHash.runM T H right
  let w ← fromHash T (H.tagged (innerTag H g) (a ++ b))
  match c with
  | .bits c => Prf.new T Cls.innerPrefix [.prim (.bits c), .ref w, .ref left, .ref right]
  | .bytes _ => HM.fail .other

end GuMap
end Verif
