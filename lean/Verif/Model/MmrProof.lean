import Verif.Model.MMR
import Verif.Model.GuMap
/-!
# lib/python-proofmarshal/proofmarshal/mmr.py, on proof objects

`M` abbreviates `lib/python-proofmarshal/proofmarshal/mmr.py`, `PF` is `.../proof.py`.

`Model/MMR.lean` has the same code on trees without identity.  Here the nodes are proof objects in the heap, perhaps pruned
views, perhaps received from elsewhere with parts missing or with lengths that are lies.  Code that only inspects a
mountain range is a `Prog`.

Simplifications:
* `EmptyNodeClass()` gives a new object every time (the source keeps one, M:284-289; it has no attributes).
* Recursion is bounded by the number of objects, which bounds the depth of every tree in the heap.
* `extend` of a slice of the right side iterates over it before the first `append`, not between them (M:431, M:245-254).
* Looking up a method that the node's class does not have is an `AttributeError`.
-/
namespace Verif

/-- `MerkleMountainRangeEmptyNode.SUB_HASHTAG` and so on: M:279, M:326, M:384. -/
structure Mmr.Declares (T : Table) (H : HashFns) (m : Nat) (tag : Bytes) (k : Kind) : Prop where
  base : T m = { hashtag := some tag, attrs := [], variants := some [m + 1, m + 2, m + 3] }
  empty : T (m + 1) = { hashtag := some (H.derive MMR.subtagEmpty tag), attrs := [], variants := some [m + 1, m + 2, m + 3], bases := [m] }
  leaf : T (m + 2) = { hashtag := some (H.derive MMR.subtagLeaf tag), attrs := [k], variants := some [m + 1, m + 2, m + 3], bases := [m] }
  inner : T (m + 3) = { hashtag := some (H.derive MMR.subtagInner tag), attrs := [.proof m, .proof m, .prim .uint64],
                        variants := some [m + 1, m + 2, m + 3], bases := [m] }

/-- The classes declared by `make_mmr_subclass` (M:273-512) for a class with number `m`, `HASHTAG` `tag` and
`VALUE_SERIALIZER` `k`, besides those of `T`: `m` itself, and the variants in the order they are declared (M:274, M:322,
M:380). -/
def Table.withMmr (T : Table) (H : HashFns) (m : Nat) (tag : Bytes) (k : Kind) : Table := fun c =>
  if c = m then { hashtag := some tag, attrs := [], variants := some [m + 1, m + 2, m + 3] }
  else if c = m + 1 then { hashtag := some (H.derive MMR.subtagEmpty tag), attrs := [], variants := some [m + 1, m + 2, m + 3], bases := [m] }
  else if c = m + 2 then { hashtag := some (H.derive MMR.subtagLeaf tag), attrs := [k], variants := some [m + 1, m + 2, m + 3], bases := [m] }
  else if c = m + 3 then { hashtag := some (H.derive MMR.subtagInner tag), attrs := [.proof m, .proof m, .prim .uint64],
                           variants := some [m + 1, m + 2, m + 3], bases := [m] }
  else T c

namespace Mmr
variable (m : Nat)

/-- `len(self)`: M:218-219, M:291-292, M:333-334, M:394-395.  The base class, whose instances are what pruned nodes arrive
as, raises. -/
def len : Prog Nat :=
  .cls [] fun c =>
    if c = m + 1 then .ret (.ok 0)
    else if c = m + 2 then .ret (.ok 1)
    else if c = m + 3 then .read [2] fun v =>
      .ret (match v with
        | some (.int n) => if n < 0 then .error .valueError else pyLen n.toNat
        | _ => .error .typeError)
    else .ret (.error .notImplemented)

/-- `self[idx]` for an int: M:221-222, M:294-296, M:336-342, M:397-414; where, below `self`, the item is found. -/
def locate : Nat → Int → Prog (List Nat)
  | 0, _ => .ret (.error .other)
  | n + 1, idx =>
    .cls [] fun c =>
      if c = m + 1 then .ret (.error .indexError)
      else if c = m + 2 then
        if idx = 0 ∨ idx = -1 then .read [0] fun _ => .ret (.ok [0]) else .ret (.error .indexError)
      else if c = m + 3 then do
        let l ← len m
        let idx := if idx < 0 then (l : Int) + idx else idx
        if ¬ (0 ≤ idx ∧ idx < l) then .ret (.error .indexError)
        else do
          let a ← (len m).at [0]
          if 0 ≤ idx ∧ idx < a then do
            let π ← (locate n idx).at [0]
            return 0 :: π
          else do
            let b ← (len m).at [1]
            if (a : Int) ≤ idx ∧ idx < (a : Int) + b then do
              let π ← (locate n (idx - a)).at [1]
              return 1 :: π
            else .ret (.error .assertion)
      else .ret (.error .notImplemented)

/-- `iter(self)`: M:224-225, M:307-308, M:363-364, M:449-451; where the items are found. -/
def places : Nat → Prog (List (List Nat))
  | 0 => .ret (.error .other)
  | n + 1 =>
    .cls [] fun c =>
      if c = m + 1 then .ret (.ok [])
      else if c = m + 2 then .read [0] fun _ => .ret (.ok [[0]])
      else if c = m + 3 then do
        let a ← (places n).at [0]
        let b ← (places n).at [1]
        return a.map (0 :: ·) ++ b.map (1 :: ·)
      else .ret (.error .notImplemented)

/-- `is_perfect_tree`, M:263-270. -/
def isPerfectTree : Prog Bool := do
  let l ← len m
  if l = 0 then return false
  else return decide ((MMR.shiftOutZeros l >>> 1) <<< 1 = 0)

section
variable (T : Table) (H : HashFns)

/-- `self[idx]`. -/
def getItem (r : Nat) (idx : Int) : HM HVal := fun s =>
  (do
    let π ← (locate m (s.objs.length + 1) idx).runM T H r
    Prog.walk T (.ref r) π : HM HVal) s

/-- The attributes at some paths. -/
def walks (r : Nat) : List (List Nat) → HM (List HVal)
  | [] => return []
  | π :: πs => do
    let v ← Prog.walk T (.ref r) π
    let vs ← walks r πs
    return v :: vs

/-- `list(self)`. -/
def toList (r : Nat) : HM (List HVal) := fun s =>
  (do
    let πs ← (places m (s.objs.length + 1)).runM T H r
    walks T r πs : HM (List HVal)) s

/-- `LeafNodeClass(value)`, M:330-331. -/
def mkLeaf (v : HVal) : HM Nat := Prf.new T (m + 2) [v]

/-- `InnerNodeClass(left, right)`, M:390-392. -/
def mkInner (l r : Nat) : HM Nat := do
  let a ← (len m).runM T H l
  let b ← (len m).runM T H r
  Prf.new T (m + 3) [.ref l, .ref r, .prim (.int ((a + b : Nat) : Int))]

/-- `self.left`, `self.right`. -/
def child (r i : Nat) : HM Nat := do
  let v ← Prf.getAttr T r i
  Prog.asProof v

/-- `_merge_trees`, M:457-482. -/
def mergeTreesF : Nat → Nat → Nat → HM Nat
  | 0, _, _ => HM.fail .other
  | n + 1, self, newRight => do
    let o ← HM.obj self
    if o.cls ≠ m + 3 then HM.fail .attributeError
    else do
      let a ← (len m).runM T H self
      let b ← (len m).runM T H newRight
      HM.lift (pyAssert (decide (a ≥ b)))
      if a &&& b = 0 then mkInner m T H self newRight
      else if a = b then do
        let p ← (isPerfectTree m).runM T H self
        HM.lift (pyAssert p)
        mkInner m T H self newRight
      else do
        let r ← child T self 1
        let c ← (len m).runM T H r
        HM.lift (pyAssert (decide (c &&& b ≠ 0)))
        let newRight ← mergeTreesF n r newRight
        let l ← child T self 0
        mergeTreesF n l newRight

/-- `_merge_trees`. -/
def mergeTrees (self newRight : Nat) : HM Nat := fun s => mergeTreesF m T H (s.objs.length + 1) self newRight s

/-- `append`: M:237-242 (also what an instance of the base class does), M:313-318, M:369-375, M:484-503. -/
def appendF : Nat → Nat → HVal → HM Nat
  | 0, _, _ => HM.fail .other
  | n + 1, self, v => do
    let o ← HM.obj self
    if o.cls = m + 2 then do
      let right ← mkLeaf m T v
      mkInner m T H self right
    else if o.cls = m + 3 then do
      let a ← (len m).runM T H self
      if a &&& 1 = 0 then do
        let right ← mkLeaf m T v
        mkInner m T H self right
      else do
        let r ← child T self 1
        let newRight ← appendF n r v
        let l ← child T self 0
        mergeTrees m T H l newRight
    else mkLeaf m T v

/-- `append`. -/
def append (self : Nat) (v : HVal) : HM Nat := fun s => appendF m T H (s.objs.length + 1) self v s

/-- `extend`, M:245-254. -/
def extend : Nat → List HVal → HM Nat
  | r, [] => return r
  | r, v :: vs => do
    let r ← append m T H r v
    extend r vs

/-- `MerkleMountainRange.__new__`, M:212-216. -/
def ofIterable (vs : List HVal) : HM Nat := do
  let r ← Prf.new T (m + 1) []
  extend m T H r vs

/-- `self[idx]` for a slice: M:221-222, M:298-302, M:344-358, M:416-444. -/
def getSliceF : Nat → Nat → PySlice → HM Nat
  | 0, _, _ => HM.fail .other
  | n + 1, self, sl => do
    let o ← HM.obj self
    if o.cls = m + 1 then do
      let _ ← HM.lift (sl.indices 0)
      return self
    else if o.cls = m + 2 then do
      let (start, stop, step) ← HM.lift (sl.indices 1)
      if step ≠ 1 then HM.fail .notImplemented
      else if start ≤ 0 ∧ stop ≥ 1 then return self
      else Prf.new T (m + 1) []
    else if o.cls = m + 3 then do
      let len' ← (len m).runM T H self
      let (start, stop, step) ← HM.lift (sl.indices len')
      if step ≠ 1 then HM.fail .notImplemented
      else if start ≤ 0 ∧ stop ≥ len' then return self
      else do
        let l ← child T self 0
        let a ← (len m).runM T H l
        if start < a then do
          let x ← getSliceF n l ⟨some start, some stop, some step⟩
          if stop > a then do
            let r ← child T self 1
            let y ← getSliceF n r ⟨some 0, some (stop - a), some step⟩
            let vs ← toList m T H y
            extend m T H x vs
          else return x
        else if start ≥ a ∧ start < len' then do
          let r ← child T self 1
          getSliceF n r ⟨some (start - a), some (stop - a), some step⟩
        else Prf.new T (m + 1) []
    else HM.fail .notImplemented

/-- `self[idx]` for a slice. -/
def getSlice (self : Nat) (sl : PySlice) : HM Nat := fun s => getSliceF m T H (s.objs.length + 1) self sl s
end
end Mmr
end Verif
