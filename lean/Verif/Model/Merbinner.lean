import Verif.Model.MMR
/-!
# Model of lib/python-proofmarshal/proofmarshal/merbinnertree.py

`T` below abbreviates `lib/python-proofmarshal/proofmarshal/merbinnertree.py`, `PF` is `.../proof.py`.

A (never pruned) tree is a value of `MB K V`; pruned trees behave like the original (C35).  A `Bits` prefix is
represented by its bit sequence: `==`, `len`, indexing, `startswith` and `common_prefix` of `Bits` depend on nothing
else and are the list operations used here (C09, C10, C13, C14, C15).
-/
namespace Verif

/-- What the code uses of a subclass: the `check_instance` of `KEY_SERIALIZER` and `VALUE_SERIALIZER`, the bytes both
feed into the leaf's data hash (PF:160-167), `key2prefix` (T:97-99), and `==` on values (T:306). `==` on keys is
equality. -/
structure MBClass (K V : Type) where
  checkKey : K → Py Unit
  checkValue : V → Py Unit
  keyDigest : K → Bytes
  valueDigest : V → Bytes
  key2prefix : K → List Bool
  veq : V → V → Bool

/-- Instances of `MerbinnerTreeEmptyNodeClass` (T:235), `...LeafNode` (T:273), `...InnerNode` (T:311). -/
inductive MB (K V : Type) where
  | empty
  | leaf (key : K) (value : V)
  | inner (pfx : List Bool) (left right : MB K V)
deriving DecidableEq, Repr

/-- The longest common prefix of two bit sequences (`Bits.common_prefix`, by C15). -/
def commonPrefix : List Bool → List Bool → List Bool
  | a :: as, b :: bs => if a = b then a :: commonPrefix as bs else []
  | _, _ => []

namespace MB
variable {K V : Type} [DecidableEq K] (C : MBClass K V)

/-- `node.prefix`: T:242, T:281-283, and the stored attribute of an inner node. -/
def pfx : MB K V → List Bool
  | empty => []
  | leaf k _ => C.key2prefix k
  | inner p _ _ => p

/-- `LeafNodeClass(key, value)`, T:285-287 with `Proof.__new__`, PF:44-62. -/
def mkLeaf (k : K) (v : V) : Py (MB K V) := do
  C.checkKey k
  C.checkValue v
  return leaf k v

/-- `InnerNodeClass(first, second)`, T:320-340.  (The `isinstance` test of T:325 always succeeds here.) -/
def mkInner (first second : MB K V) : Py (MB K V) := do
  pyAssert (decide (first.pfx C ≠ second.pfx C))
  let p := commonPrefix (first.pfx C) (second.pfx C)
  pyAssert (decide (p.length < (first.pfx C).length ∧ p.length ≤ (second.pfx C).length))
  match (second.pfx C)[p.length]? with
  | none => .error .indexError
  | some true => return inner p first second
  | some false => return inner p second first

/-- `len(self)`: T:253-254, T:289-290, T:342-343. -/
def len : MB K V → Py Nat
  | empty => .ok 0
  | leaf _ _ => .ok 1
  | inner _ l r => do
    let a ← l.len
    let b ← r.len
    pyLen (a + b)

/-- `keys()`: T:256-257, T:292-293, T:345-347. -/
def keys : MB K V → List K
  | empty => []
  | leaf k _ => [k]
  | inner _ l r => l.keys ++ r.keys

/-- `values()`: T:259-260, T:295-296, T:349-351. -/
def values : MB K V → List V
  | empty => []
  | leaf _ v => [v]
  | inner _ l r => l.values ++ r.values

/-- `items()`, T:131-133. -/
def items (t : MB K V) : List (K × V) := t.keys.zip t.values

/-- `descend(prefix)`: T:262-263, T:298-299, T:353-368.  The first value yielded, and the others.  Everything that can
raise happens before the first value is yielded. -/
def descend : MB K V → List Bool → Py (MB K V × List (MB K V))
  | empty, _ => .ok (empty, [])
  | leaf k v, _ => .ok (leaf k v, [])
  | inner p l r, q =>
    if p.length ≤ q.length ∧ p.isPrefixOf q then
      match q[p.length]? with
      | none => .error .indexError
      | some true => do
        let (c, s) ← r.descend q
        return (c, s ++ [l])
      | some false => do
        let (c, s) ← l.descend q
        return (c, s ++ [r])
    else .ok (inner p l r, [])

/-- `self[key]`, T:112-120.  Reading `.key` of an empty or inner node is an `AttributeError` (PF:120-127), caught at
T:118. -/
def getItem (t : MB K V) (k : K) : Py V := do
  let (c, _) ← t.descend (C.key2prefix k)
  match c with
  | leaf k' v => if k' = k then return v else .error .keyError
  | _ => .error .keyError

/-- `key in self`, T:122-123; no variant overrides it. -/
def contains (_t : MB K V) (_k : K) : Py Bool := .error .notImplemented

/-- The loop of T:159-160. -/
def rebuild : MB K V → List (MB K V) → Py (MB K V)
  | tip, [] => .ok tip
  | tip, s :: ss => do
    let tip ← mkInner C tip s
    rebuild tip ss

/-- `put`, T:140-162. -/
def put (t : MB K V) (k : K) (v : V) : Py (MB K V) := do
  let newLeaf ← mkLeaf C k v
  let (closest, siblings) ← t.descend (newLeaf.pfx C)
  match closest with
  | empty => return newLeaf
  | _ => do
    let tip ← mkInner C newLeaf closest
    rebuild C tip siblings

/-- The loop of T:183-185. -/
def rebuildNonempty : MB K V → List (MB K V) → Py (MB K V)
  | tip, [] => .ok tip
  | tip, s :: ss => do
    pyAssert (match s with | empty => false | _ => true)
    let tip ← mkInner C tip s
    rebuildNonempty tip ss

/-- `remove`, T:165-189. -/
def remove (t : MB K V) (k : K) : Py (MB K V) := do
  let (closest, siblings) ← t.descend (C.key2prefix k)
  match closest with
  | leaf k' _ =>
    if k' = k then
      match siblings with
      | [] => return empty
      | tip :: ss => rebuildNonempty C tip ss
    else .error .keyError
  | _ => .error .keyError

/-- `MerbinnerTree(iterable)`, T:101-110, from key/value pairs. -/
def ofPairs : MB K V → List (K × V) → Py (MB K V)
  | t, [] => .ok t
  | t, (k, v) :: kvs => do
    let t ← t.put C k v
    ofPairs t kvs

/-! ## Hashes (PF:156-177, PF:263) -/

/-- `SUB_HASHTAG` of the three variants: T:237, T:275, T:313. -/
def subtagEmpty : Bytes := [0xca,0x38,0x0e,0x10,0xc7,0xd5,0x44,0xdf,0xae,0xf0,0x55,0xbc,0xe2,0x12,0x53,0x29]
def subtagLeaf : Bytes := [0xf5,0xcc,0x85,0x5e,0x9d,0x21,0x4f,0x8d,0xab,0x42,0x78,0x83,0xc7,0x65,0xc3,0x23]
def subtagInner : Bytes := [0x66,0xd7,0x47,0x41,0x0f,0xfd,0x41,0x78,0x9a,0x79,0x64,0x1a,0x45,0xe2,0x3d,0xda]

/-- `BitsSerializer.serialize(prefix)`; it cannot fail (C17). -/
def prefixBytes (p : List Bool) : Bytes :=
  match (Bits.ofIter p).serialize with
  | .ok b => b
  | .error _ => []

/-- `hash`: `HASHTAG(sha256(fields))`; the fields of an inner node are prefix, left, right (T:316-318). -/
def hash (H : HashFns) (tag : Bytes) : MB K V → Bytes
  | empty => H.tagged (H.derive subtagEmpty tag) (H.sha256 [])
  | leaf k v => H.tagged (H.derive subtagLeaf tag) (H.sha256 (C.keyDigest k ++ C.valueDigest v))
  | inner p l r => H.tagged (H.derive subtagInner tag) (H.sha256 (prefixBytes p ++ l.hash H tag ++ r.hash H tag))

/-! ## issubset -/

/-- `MerbinnerTreeInnerNode.__issubset`, T:370-403, of the node `inner p l r` with hash `h`; `subL` and `subR` are the
bound methods `self.left.issubset`, `self.right.issubset`.  `==` of nodes compares hashes (PF:72-77). -/
def subInner (H : HashFns) (tag : Bytes) (p : List Bool) (hl hr h : Bytes) (subL subR : MB K V → Py Bool) :
    MB K V → Py Bool
  | them@empty => if h = them.hash C H tag then .ok true
      else if p = [] then .error .assertion
      else .error .attributeError  -- `them.right`/`them.left`
  | them@(leaf k _) => if h = them.hash C H tag then .ok true
      else if p = C.key2prefix k then .error .assertion
      else if (C.key2prefix k).isPrefixOf p then .error .attributeError
      else .ok false
  | them@(inner p' l' r') =>
      if h = them.hash C H tag then .ok true
      else if p = p' then do
        pyAssert (!(decide (hl = l'.hash C H tag) && decide (hr = r'.hash C H tag)))
        let a ← subL l'
        if a then subR r' else return false
      else if p'.isPrefixOf p then do
        pyAssert (decide (p'.length < p.length))
        match p[p'.length]? with
        | none => .error .indexError
        | some true => subInner H tag p hl hr h subL subR r'
        | some false => subInner H tag p hl hr h subL subR l'
      else .ok false

/-- `issubset`, T:208-231, given the method `__issubset` of `self`, whose hash is `h`.  (Both trees are of the same
subclass, so the `TypeError` of T:218-219 is not modelled.) -/
def issubsetWith (H : HashFns) (tag : Bytes) (h : Bytes) (impl : MB K V → Py Bool) (other : MB K V) : Py Bool :=
  if h = other.hash C H tag then .ok true
  else if other.hash C H tag = (empty : MB K V).hash C H tag then .ok false
  else impl other

/-- `__issubset`: T:265-267, T:301-306, T:370-403. -/
def subImpl (H : HashFns) (tag : Bytes) : MB K V → MB K V → Py Bool
  | empty, _ => .ok true
  | leaf k v, other =>
    match other.getItem C k with
    | .ok v' => .ok (C.veq v v')
    | .error .keyError => .ok false
    | .error e => .error e
  | inner p l r, them =>
    subInner C H tag p (l.hash C H tag) (r.hash C H tag) ((inner p l r).hash C H tag)
      (issubsetWith C H tag (l.hash C H tag) (subImpl H tag l))
      (issubsetWith C H tag (r.hash C H tag) (subImpl H tag r)) them

/-- `self.issubset(other)`, T:208-231. -/
def issubset (H : HashFns) (tag : Bytes) (t u : MB K V) : Py Bool :=
  issubsetWith C H tag (t.hash C H tag) (subImpl C H tag t) u

end MB
end Verif
