import Verif.Model.MmrProof
/-!
# lib/python-proofmarshal/proofmarshal/merbinnertree.py, on proof objects

`B` abbreviates `lib/python-proofmarshal/proofmarshal/merbinnertree.py`, `PF` is `.../proof.py`.

`Model/Merbinner.lean` has the same code on trees without identity.  Here the nodes are proof objects in the heap, perhaps
pruned views, perhaps received from elsewhere with parts missing or with prefixes that are lies.  Code that only inspects a tree
is a `Prog`.

Simplifications:
* `KEY_SERIALIZER` is not a proof class, so keys are plain values, `==` of keys is equality, and `key2prefix` is a function of
  plain values (`k2p`).  A `Bits` prefix is its bit sequence, as in `Model/Merbinner.lean`.
* `EmptyNodeClass()` gives a new object every time (the source keeps one, B:244-251; it has no attributes).
* Recursion is bounded by the number of objects, which bounds the depth of every tree in the heap.
* `put` and `remove` get all nodes from the generator `descend` before they make new ones (the source takes the siblings one at
  a time, B:159-160, B:183-185; reading attributes does not interfere with making nodes).
* `issubset` on proof objects is in `Model/MbSubset.lean`.
-/
namespace Verif

/-- `MerbinnerTreeEmptyNodeClass` and so on: B:234-240, B:272-279, B:310-318. -/
structure Merb.Declares (T : Table) (H : HashFns) (m : Nat) (tag : Bytes) (τ : PrimTy) (kv : Kind) : Prop where
  base : T m = { hashtag := some tag, attrs := [], variants := some [m + 1, m + 2, m + 3] }
  empty : T (m + 1) = { hashtag := some (H.derive MB.subtagEmpty tag), attrs := [], variants := some [m + 1, m + 2, m + 3], bases := [m] }
  leaf : T (m + 2) = { hashtag := some (H.derive MB.subtagLeaf tag), attrs := [.prim τ, kv], variants := some [m + 1, m + 2, m + 3], bases := [m] }
  inner : T (m + 3) = { hashtag := some (H.derive MB.subtagInner tag), attrs := [.prim .bits, .proof m, .proof m],
                        variants := some [m + 1, m + 2, m + 3], bases := [m] }

/-- The classes declared by `make_MerbinnerTree_subclass` (B:233-407) for a class with number `m`, `HASHTAG` `tag`,
`KEY_SERIALIZER` `τ` and `VALUE_SERIALIZER` `kv`, besides those of `T`: `m` itself, and the variants in the order they are
declared (B:234, B:272, B:310). -/
def Table.withMb (T : Table) (H : HashFns) (m : Nat) (tag : Bytes) (τ : PrimTy) (kv : Kind) : Table := fun c =>
  if c = m then { hashtag := some tag, attrs := [], variants := some [m + 1, m + 2, m + 3] }
  else if c = m + 1 then { hashtag := some (H.derive MB.subtagEmpty tag), attrs := [], variants := some [m + 1, m + 2, m + 3], bases := [m] }
  else if c = m + 2 then { hashtag := some (H.derive MB.subtagLeaf tag), attrs := [.prim τ, kv], variants := some [m + 1, m + 2, m + 3], bases := [m] }
  else if c = m + 3 then { hashtag := some (H.derive MB.subtagInner tag), attrs := [.prim .bits, .proof m, .proof m],
                           variants := some [m + 1, m + 2, m + 3], bases := [m] }
  else T c

namespace Merb
variable (m : Nat) (k2p : PVal → Py (List Bool))

/-- `node.prefix`: B:242, B:281-283, B:316.  The base class, whose instances are what pruned nodes arrive as, has no such
attribute. -/
def pfx : Prog (List Bool) :=
  .cls [] fun c =>
    if c = m + 1 then .ret (.ok [])
    else if c = m + 2 then .read [0] fun v => .ret (match v with | some k => k2p k | none => .error .other)
    else if c = m + 3 then .read [0] fun v => .ret (match v with | some (.bits p) => .ok p | _ => .error .attributeError)
    else .ret (.error .attributeError)

/-- `len(self)`: B:125-126, B:253-254, B:289-290, B:342-343. -/
def len : Nat → Prog Nat
  | 0 => .ret (.error .other)
  | n + 1 => .cls [] fun c =>
    if c = m + 1 then .ret (.ok 0)
    else if c = m + 2 then .ret (.ok 1)
    else if c = m + 3 then do
      let a ← (len n).at [1]
      let b ← (len n).at [2]
      .ret (pyLen (a + b))
    else .ret (.error .notImplemented)

/-- `keys()` (`i = 0`) or `values()` (`i = 1`): B:135-138, B:256-260, B:292-296, B:345-351; where they are found. -/
def places (i : Nat) : Nat → Prog (List (List Nat))
  | 0 => .ret (.error .other)
  | n + 1 => .cls [] fun c =>
    if c = m + 1 then .ret (.ok [])
    else if c = m + 2 then .read [i] fun _ => .ret (.ok [[i]])
    else if c = m + 3 then do
      let a ← (places i n).at [1]
      let b ← (places i n).at [2]
      return a.map (1 :: ·) ++ b.map (2 :: ·)
    else .ret (.error .notImplemented)

/-- `descend(prefix)`: B:198, B:262-263, B:298-299, B:353-368; where the nodes yielded are found, the first one and the
others. -/
def descend (q : List Bool) : Nat → Prog (List Nat × List (List Nat))
  | 0 => .ret (.error .other)
  | n + 1 => .cls [] fun c =>
    if c = m + 1 ∨ c = m + 2 then .ret (.ok ([], []))
    else if c = m + 3 then .read [0] fun v => match v with
      | some (.bits p) =>
        if p.length ≤ q.length ∧ p.isPrefixOf q then
          match q[p.length]? with
          | none => .ret (.error .indexError)
          | some true => do
            let x ← (descend q n).at [2]
            .cls [1] fun _ => .ret (.ok (2 :: x.1, x.2.map (2 :: ·) ++ [[1]]))
          | some false => do
            let x ← (descend q n).at [1]
            .cls [2] fun _ => .ret (.ok (1 :: x.1, x.2.map (1 :: ·) ++ [[2]]))
        else .ret (.ok ([], []))
      | _ => .ret (.error .typeError)
    else .ret (.error .notImplemented)

/-- `self[key]`, B:112-120: where the value is found.  Reading `.key` of an empty or inner node is an `AttributeError`
(PF:120-127), caught at B:118.  (It is a `TypeError`, not caught, if the node is an empty node received as such but pruned, in a
process that has not made one yet, PF:123; not modelled.) -/
def locate (n : Nat) (key : PVal) : Prog (List Nat) := do
  let q ← (.ret (k2p key) : Prog (List Bool))
  let x ← descend m q n
  .cls x.1 fun c =>
    if c = m + 2 then .read (x.1 ++ [0]) fun k => if k = some key then .ret (.ok (x.1 ++ [1])) else .ret (.error .keyError)
    else .ret (.error .keyError)

section
variable (T : Table) (H : HashFns)

/-- `self[key]`. -/
def getItem (r : Nat) (key : PVal) : HM HVal := fun s =>
  (do
    let π ← (locate m k2p (s.objs.length + 1) key).runM T H r
    Prog.walk T (.ref r) π : HM HVal) s

/-- `list(self.keys())` or `list(self.values())`. -/
def toList (i r : Nat) : HM (List HVal) := fun s =>
  (do
    let πs ← (places m i (s.objs.length + 1)).runM T H r
    Mmr.walks T r πs : HM (List HVal)) s

/-- `len(self)`. -/
def length (r : Nat) : HM Nat := fun s => (len m (s.objs.length + 1)).runM T H r s

/-- `LeafNodeClass(key, value)`, B:285-287. -/
def mkLeaf (key : PVal) (v : HVal) : HM Nat := Prf.new T (m + 2) [.prim key, v]

/-- `InnerNodeClass(first, second)`, B:320-340.  (The `isinstance` test of B:325 always succeeds here.) -/
def mkInner (first second : Nat) : HM Nat := do
  let a ← (pfx m k2p).runM T H first
  let b ← (pfx m k2p).runM T H second
  HM.lift (pyAssert (decide (a ≠ b)))
  let p := commonPrefix a b
  HM.lift (pyAssert (decide (p.length < a.length ∧ p.length ≤ b.length)))
  match b[p.length]? with
  | none => HM.fail .indexError
  | some true => Prf.new T (m + 3) [.prim (.bits p), .ref first, .ref second]
  | some false => Prf.new T (m + 3) [.prim (.bits p), .ref second, .ref first]

/-- The proofs at some paths. -/
def nodes (r : Nat) : List (List Nat) → HM (List Nat)
  | [] => return []
  | π :: πs => do
    let v ← Prog.walk T (.ref r) π
    let c ← Prog.asProof v
    let cs ← nodes r πs
    return c :: cs

/-- The loop of B:159-160. -/
def rebuild : Nat → List Nat → HM Nat
  | tip, [] => return tip
  | tip, c :: cs => do
    let tip ← mkInner m k2p T H tip c
    rebuild tip cs

/-- The loop of B:183-185. -/
def rebuildNonempty : Nat → List Nat → HM Nat
  | tip, [] => return tip
  | tip, c :: cs => do
    let o ← HM.obj c
    HM.lift (pyAssert (decide (o.cls ≠ m + 1)))
    let tip ← mkInner m k2p T H tip c
    rebuildNonempty tip cs

/-- `self.descend(prefix)`. -/
def descendM (r : Nat) (q : List Bool) : HM (Nat × List Nat) := fun s =>
  (do
    let x ← (descend m q (s.objs.length + 1)).runM T H r
    let v ← Prog.walk T (.ref r) x.1
    let c ← Prog.asProof v
    let cs ← nodes T r x.2
    return (c, cs) : HM (Nat × List Nat)) s

/-- `put`, B:140-162. -/
def put (r : Nat) (key : PVal) (v : HVal) : HM Nat := do
  let newLeaf ← mkLeaf m T key v
  let q ← (pfx m k2p).runM T H newLeaf
  let x ← descendM m T H r q
  let o ← HM.obj x.1
  if o.cls = m + 1 then return newLeaf
  else do
    let tip ← mkInner m k2p T H newLeaf x.1
    rebuild m k2p T H tip x.2

/-- `remove`, B:165-189. -/
def remove (r : Nat) (key : PVal) : HM Nat := do
  let q ← HM.lift (k2p key)
  let x ← descendM m T H r q
  let o ← HM.obj x.1
  if o.cls = m + 2 then do
    let k ← Prf.getAttr T x.1 0
    if k = .prim key then
      match x.2 with
      | [] => Prf.new T (m + 1) []
      | tip :: cs => rebuildNonempty m k2p T H tip cs
    else HM.fail .keyError
  else HM.fail .keyError

/-- The loop of B:108-109. -/
def putAll : Nat → List (PVal × HVal) → HM Nat
  | r, [] => return r
  | r, (key, v) :: kvs => do
    let r ← put m k2p T H r key v
    putAll r kvs

/-- `MerbinnerTree(iterable)`, B:101-110, from key/value pairs. -/
def ofPairs (kvs : List (PVal × HVal)) : HM Nat := do
  let r ← Prf.new T (m + 1) []
  putAll m k2p T H r kvs
end
end Merb
end Verif
