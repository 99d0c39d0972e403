import Verif.Model.MbProof
/-!
# `issubset` on proof objects

`B` abbreviates `lib/python-proofmarshal/proofmarshal/merbinnertree.py`, `PF` is `.../proof.py`.

Simplifications: as in `Model/MbProof.lean`.  `==` of values that are no proofs is equality of plain values (both are of the class
`VALUE_SERIALIZER` accepts).  The class `__base__` of B:218 is the first of the ancestors in the table; that of a class without
ancestors in the table is `VarProof`.
-/
namespace Verif
namespace Merb
variable (m : Nat) (k2p : PVal → Py (List Bool)) (T : Table) (H : HashFns)

/-- `a == b` of two values, PF:72-77 for proofs. -/
def valueEq : HVal → HVal → HM Bool
  | .prim a, .prim b => return decide (a = b)
  | .ref a, .ref b => Prf.eq T H a b
  | _, _ => return false

/-- `other[key]`, or nothing if that raises a `KeyError`: B:302-305. -/
def tryGet (r : Nat) (key : PVal) : HM (Option HVal) := fun s =>
  match getItem m k2p T H r key s with
  | (.ok v, s') => (.ok (some v), s')
  | (.error .keyError, s') => (.ok none, s')
  | (.error e, s') => (.error e, s')

/-- `node.left` (`i = 1`) or `node.right` (`i = 2`): inner nodes only have such attributes (B:316-318). -/
def child (r i : Nat) : HM Nat := do
  let o ← HM.obj r
  if o.cls = m + 3 then do
    let v ← Prf.getAttr T r i
    Prog.asProof v
  else HM.fail .attributeError

mutual
/-- `self.issubset(other)`, B:208-231. -/
def issubsetF : Nat → Nat → Nat → HM Bool
  | 0, _, _ => HM.fail .other
  | n + 1, a, b => do
    let oa ← HM.obj a
    let ob ← HM.obj b
    if (T ob.cls).bases.head? ≠ (T oa.cls).bases.head? then HM.fail .typeError
    else do
      let e ← Prf.eq T H a b
      if e then return true
      else do
        let x ← Prf.new T (m + 1) []
        let e ← Prf.eq T H b x
        if e then return false
        else subImplF n a b
/-- `self.__issubset(them)`: B:200-206, B:265-267, B:301-306, B:370-403. -/
def subImplF : Nat → Nat → Nat → HM Bool
  | 0, _, _ => HM.fail .other
  | n + 1, a, b => do
    let o ← HM.obj a
    if o.cls = m + 1 then return true
    else if o.cls = m + 2 then do
      let k ← Prf.getAttr T a 0
      match k with
      | .prim key => do
        let w ← tryGet m k2p T H b key
        match w with
        | none => return false
        | some w => do
          let v ← Prf.getAttr T a 1
          valueEq T H v w
      | .ref _ => HM.fail .other
    else if o.cls = m + 3 then do
      let e ← Prf.eq T H a b
      if e then return true
      else do
        let p ← (pfx m k2p).runM T H a
        let q ← (pfx m k2p).runM T H b
        if p = q then do
          let o' ← HM.obj b
          HM.lift (pyAssert (decide (o'.cls = o.cls)))
          let l ← child m T a 1
          let l' ← child m T b 1
          let e ← Prf.eq T H l l'
          let e ← (if e then (do
            let r ← child m T a 2
            let r' ← child m T b 2
            Prf.eq T H r r') else return false : HM Bool)
          HM.lift (pyAssert (!e))
          let x ← issubsetF n l l'
          if x then do
            let r ← child m T a 2
            let r' ← child m T b 2
            issubsetF n r r'
          else return false
        else if q.isPrefixOf p then do
          HM.lift (pyAssert (decide (q.length < p.length)))
          match p[q.length]? with
          | none => HM.fail .indexError
          | some true => do
            let c ← child m T b 2
            subImplF n a c
          | some false => do
            let c ← child m T b 1
            subImplF n a c
        else return false
    else HM.fail .notImplemented
end

/-- `a.issubset(b)`, B:208-231.  (The bound on the recursion is never reached: every object stands for a tree that is not deeper
than there are objects.) -/
def issubset (a b : Nat) : HM Bool := fun s => issubsetF m k2p T H (4 * s.objs.length + 4) a b s

end Merb
end Verif
