import Verif.Model.Prim
import Verif.Model.Slice
/-!
# Model of lib/python-proofmarshal/proofmarshal/mmr.py

`M` below abbreviates `lib/python-proofmarshal/proofmarshal/mmr.py`, `PF` is `.../proof.py`.

A (never pruned) `MerkleMountainRange` instance is a tree.  Pruned instances behave like the original (C35) and are
the subject of `Model/Proof.lean`.  `VALUE_SERIALIZER` is the parameter `VS`.
-/
namespace Verif

/-- What the MMR code uses of `VALUE_SERIALIZER`: `check_instance`, and the bytes fed to the leaf's data hash
(`get_hash` for a `HashingSerializer`, `serialize` otherwise, PF:160-167). -/
structure ValueSer (α : Type) where
  check : α → Py Unit
  digest : α → Bytes

/-- Instances of `MerkleMountainRangeEmptyNode` (M:275), `...LeafNode` (M:323), `...InnerNode` (M:381).  The stored
length is a field of its own, as in the source: a deserialized node can hold any number there. -/
inductive MMR (α : Type) where
  | empty
  | leaf (value : α)
  | inner (left right : MMR α) (length : Nat)
deriving DecidableEq, Repr

/-- CPython's `len()`: a length that does not fit `Py_ssize_t` (64-bit builds) is an `OverflowError`. -/
def pyLen (n : Nat) : Py Nat := if n < 2 ^ 63 then .ok n else .error .other

namespace MMR
variable {α : Type}

/-- `len(self)`: M:291-292, M:333-334, M:394-395. -/
def len : MMR α → Py Nat
  | empty => .ok 0
  | leaf _ => .ok 1
  | inner _ _ n => pyLen n

/-- `LeafNodeClass(value)`, M:330-331 with `Proof.__new__`, PF:44-62. -/
def mkLeaf (VS : ValueSer α) (v : α) : Py (MMR α) := do
  VS.check v
  return leaf v

/-- `InnerNodeClass(left, right)`, M:390-392 with `Proof.__new__`, PF:44-62.  (`VarProof.check_instance` accepts the
two children, which are instances of variants.) -/
def mkInner (l r : MMR α) : Py (MMR α) := do
  let a ← l.len
  let b ← r.len
  PrimTy.uint64.check (.int ((a + b : Nat) : Int))
  return inner l r (a + b)

/-- Iteration: M:307-308, M:363-364, M:449-451. -/
def items : MMR α → List α
  | empty => []
  | leaf v => [v]
  | inner l r _ => l.items ++ r.items

/-- `reversed(self)`: M:310-311, M:366-367, M:453-455. -/
def reversed : MMR α → List α
  | empty => []
  | leaf v => [v]
  | inner l r _ => r.reversed ++ l.reversed

/-- The loop `while not l & 1: l >>= 1`, M:268-269.  (It would not terminate on 0, which M:266-267 excludes.) -/
def shiftOutZeros (l : Nat) : Nat :=
  if _h : l = 0 then 0
  else if ¬ (l &&& 1) ≠ 0 then shiftOutZeros (l >>> 1) else l
termination_by l
decreasing_by simp only [Nat.shiftRight_eq_div_pow]; omega

/-- `is_perfect_tree`, M:263-270.  `l & ~1` of a non-negative `l` is `(l >> 1) << 1`. -/
def isPerfectTree (t : MMR α) : Py Bool := do
  let l ← t.len
  if l = 0 then return false
  else
    let l := shiftOutZeros l
    return decide ((l >>> 1) <<< 1 = 0)

/-- `self[idx]` for an int `idx`: M:294-296, M:336-342, M:397-414. -/
def getItem : MMR α → Int → Py α
  | empty, _ => .error .indexError
  | leaf v, idx => if idx = 0 ∨ idx = -1 then .ok v else .error .indexError
  | inner l r n, idx => do
    let len ← pyLen n
    let idx := if idx < 0 then (len : Int) + idx else idx
    if ¬ (0 ≤ idx ∧ idx < len) then .error .indexError
    else do
      let a ← l.len
      if 0 ≤ idx ∧ idx < a then l.getItem idx
      else do
        let b ← r.len
        if (a : Int) ≤ idx ∧ idx < (a : Int) + b then r.getItem (idx - a)
        else .error .assertion

/-- `_merge_trees`, M:457-482.  Only inner nodes have this method; on the others the attribute lookup fails in
`Proof.__getattr__` (PF:120-127). -/
def mergeTrees : MMR α → MMR α → Py (MMR α)
  | empty, _ => .error .attributeError
  | leaf _, _ => .error .attributeError
  | inner l r n, newRight => do
    let a ← pyLen n
    let b ← newRight.len
    pyAssert (decide (a ≥ b))
    if a &&& b = 0 then mkInner (inner l r n) newRight
    else if a = b then do
      let p ← isPerfectTree (inner l r n)
      pyAssert p
      mkInner (inner l r n) newRight
    else do
      let c ← r.len
      pyAssert (decide (c &&& b ≠ 0))
      let newRight ← r.mergeTrees newRight
      l.mergeTrees newRight

/-- `append`: M:313-318, M:369-375, M:484-503. -/
def append (VS : ValueSer α) : MMR α → α → Py (MMR α)
  | empty, v => mkLeaf VS v
  | leaf w, v => do
    let right ← mkLeaf VS v
    mkInner (leaf w) right
  | inner l r n, v => do
    let a ← pyLen n
    if a &&& 1 = 0 then do
      let right ← mkLeaf VS v
      mkInner (inner l r n) right
    else do
      let newRight ← r.append VS v
      l.mergeTrees newRight

/-- `extend`, M:245-254. -/
def extend (VS : ValueSer α) : MMR α → List α → Py (MMR α)
  | t, [] => .ok t
  | t, v :: vs => do
    let t ← t.append VS v
    t.extend VS vs

/-- `MerkleMountainRange.__new__`, M:212-216. -/
def ofIterable (VS : ValueSer α) (xs : List α) : Py (MMR α) := empty.extend VS xs

/-- `self[idx]` for a slice: M:298-302, M:344-358, M:416-444. -/
def getSlice (VS : ValueSer α) : MMR α → PySlice → Py (MMR α)
  | empty, s => do
    let _ ← s.indices 0
    return empty
  | leaf v, s => do
    let (start, stop, step) ← s.indices 1
    if step ≠ 1 then .error .notImplemented
    else if start ≤ 0 ∧ stop ≥ 1 then return leaf v
    else return empty
  | inner l r n, s => do
    let len ← pyLen n
    let (start, stop, step) ← s.indices len
    if step ≠ 1 then .error .notImplemented
    else if start ≤ 0 ∧ stop ≥ len then return inner l r n
    else do
      let a ← l.len
      if start < a then do
        let x ← l.getSlice VS ⟨some start, some stop, some step⟩
        if stop > a then do
          let y ← r.getSlice VS ⟨some 0, some (stop - a), some step⟩
          x.extend VS y.items
        else return x
      else if start ≥ a ∧ start < len then
        r.getSlice VS ⟨some (start - a), some (stop - a), some step⟩
      else return empty

/-! ## Hashes

The `HASHTAG` of a variant of a class whose own `HASHTAG` is `tag` is `SUB_HASHTAG.derive(tag)`, PF:263. -/

/-- `SUB_HASHTAG` of the three variants: M:277, M:325, M:383. -/
def subtagEmpty : Bytes := [0x39,0x0d,0xe3,0x07,0x87,0x87,0x47,0xb7,0xb2,0x5d,0x25,0x0a,0xba,0x02,0xb1,0xe5]
def subtagLeaf : Bytes := [0x4e,0xa0,0x9c,0x8e,0x87,0xf5,0x49,0x78,0xa8,0x29,0x78,0xd4,0x2a,0xb8,0x63,0x8a]
def subtagInner : Bytes := [0xa7,0xca,0x25,0xce,0x8f,0xee,0x40,0x63,0xb0,0x22,0x96,0xb2,0xdb,0xcb,0x39,0x2e]

/-- `hash`: `HASHTAG(sha256(fields))`, PF:156-177. -/
def hash (H : HashFns) (tag : Bytes) (VS : ValueSer α) : MMR α → Bytes
  | empty => H.tagged (H.derive subtagEmpty tag) (H.sha256 [])
  | leaf v => H.tagged (H.derive subtagLeaf tag) (H.sha256 (VS.digest v))
  | inner l r n => H.tagged (H.derive subtagInner tag) (H.sha256 (l.hash H tag VS ++ r.hash H tag VS ++ writeVaruint n))

end MMR
end Verif
