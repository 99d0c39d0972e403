import Verif.Model.Prim
/-!
# Model of lib/python-proofmarshal/proofmarshal/proof.py

`PF` abbreviates `lib/python-proofmarshal/proofmarshal/proof.py`, `PB` is `proofchains/core/bitcoin.py`.

Proof objects are mutable behind the scenes: reading an attribute of a pruned object stores the attribute and clears
`is_fully_pruned` (PF:142-148), hashes are cached (PF:110-118).  So they live in a heap, and every operation is a state
transformer that keeps its effects when it raises.

Simplifications:
* Attribute names are represented by their position in `SERIALIZED_ATTRS`; reading attributes that are not listed there
  is position `≥ length`. Methods, properties and class attributes are not attributes in this sense.
* No class of the table has an ancestor that is itself instantiated through `Proof.__new__` (so that
  `SERIALIZED_ATTRS_BY_NAME`, PF:46-47, is never inherited from one). This holds of all classes of the repository.
* A `VarProof` class always has `UNION_CLASSES`, i.e. at least one variant was declared.
* Recursion is bounded by a number that suffices for every reachable heap (proved in Lemmas/Proof.lean: the bound never
  matters).
-/
namespace Verif
open Btc

/-- A serializer in `SERIALIZED_ATTRS`: a non-hashing one, a `Proof` (or `VarProof`) class, or `ProofUnion(*cs)`
(PF:292-315). -/
inductive Kind where
  | prim (τ : PrimTy)
  | proof (c : Nat)
  | union (cs : List Nat)
deriving DecidableEq, Repr

/-- What the code uses of a class: `HASHTAG` (PF:38; for variants already derived, PF:263), `SERIALIZED_ATTRS` (PF:41),
`UNION_CLASSES` (PF:241; `none` if not a `VarProof`), the proper ancestors (for `isinstance`), and whether `calc_hash`
is that of `TxProof` (PB:69-77). -/
structure ClassInfo where
  hashtag : Option Bytes
  attrs : List Kind
  variants : Option (List Nat) := none
  bases : List Nat := []
  isTx : Bool := false

/-- All classes, by number. -/
abbrev Table := Nat → ClassInfo

/-- `isinstance(x, u)` for `x` of class `c`. -/
def Table.isInst (T : Table) (c u : Nat) : Bool := c == u || (T c).bases.contains u

/-- An attribute value: a proof object, or anything else. -/
inductive HVal where
  | prim (v : PVal)
  | ref (r : Nat)
deriving DecidableEq, Repr

/-- A proof object: its class, the attributes set on it, `_Proof__orig_instance`, the two flags, the cached hashes. -/
structure Obj where
  cls : Nat
  fields : List (Option HVal)
  orig : Option Nat := none
  isPruned : Bool := false
  isFullyPruned : Bool := false
  dataHash : Option Bytes := none
  hash : Option Bytes := none
deriving DecidableEq, Repr

/-- The heap, and the classes whose `SERIALIZED_ATTRS_BY_NAME` has been set (PF:46-47). -/
structure PState where
  objs : List Obj := []
  inited : List Nat := []
deriving DecidableEq, Repr

/-- Code acting on the heap. -/
def HM (α : Type) := PState → Py α × PState

namespace HM
def pure {α} (a : α) : HM α := fun s => (.ok a, s)
def bind {α β} (x : HM α) (f : α → HM β) : HM β := fun s =>
  match x s with
  | (.ok a, s') => f a s'
  | (.error e, s') => (.error e, s')
instance : Monad HM where
  pure := HM.pure
  bind := HM.bind
def fail {α} (e : PyErr) : HM α := fun s => (.error e, s)
def lift {α} (x : Py α) : HM α := fun s => (x, s)
/-- Read from a stream. -/
def read {α} (p : P α) (b : Bytes) : HM (α × Bytes) := fun s => (p b, s)
/-- The object at a reference (there are no dangling references). -/
def obj (r : Nat) : HM Obj := fun s => (match s.objs[r]? with | some o => .ok o | none => .error .other, s)
/-- `object.__setattr__` on the object at a reference. -/
def upd (r : Nat) (f : Obj → Obj) : HM Unit := fun s => (.ok (), { s with objs := s.objs.modify r f })
/-- `object.__new__`. -/
def alloc (o : Obj) : HM Nat := fun s => (.ok s.objs.length, { s with objs := s.objs ++ [o] })
end HM

namespace Prf
variable (T : Table) (H : HashFns)

/-- `prune`, PF:91-106. -/
def prune (r : Nat) : HM Nat := do
  let o ← HM.obj r
  HM.alloc { cls := o.cls, fields := List.replicate (T o.cls).attrs.length none, orig := some r, isPruned := true,
             isFullyPruned := true }

/-- `if isinstance(value, Proof): value = value.prune()`, PF:139-140. -/
def pruneVal : HVal → HM HVal
  | .prim v => return .prim v
  | .ref r => do
    let p ← prune T r
    return .ref p

/-- The exception of PF:120-127: a missing attribute of an object without original instance. -/
def missing (inited : List Nat) (c i : Nat) : PyErr :=
  if c ∈ inited then (if i < (T c).attrs.length then .pruned else .attributeError)
  else .typeError  -- `name in None`

/-- `getattr(self, name)`: ordinary lookup, then `__getattr__`, PF:108-149. -/
def getAttrF : Nat → Nat → Nat → HM HVal
  | 0, _, _ => HM.fail .other
  | n + 1, r, i => do
    let o ← HM.obj r
    match o.fields[i]? with
    | some (some v) => return v
    | _ =>
      match o.orig with
      | none => fun s => (.error (missing T s.inited o.cls i), s)
      | some q => do
        HM.lift (pyAssert o.isPruned)
        let v ← getAttrF n q i
        let v ← pruneVal T v
        HM.upd r (fun o => { o with fields := o.fields.set i (some v), isFullyPruned := false })
        return v

/-- `getattr(self, name)`. -/
def getAttr (r i : Nat) : HM HVal := fun s => getAttrF T (s.objs.length + 1) r i s

/-- The bytes one attribute contributes to the data hash, PF:163-167.  `get_hash` of every hashing serializer is
`attr_value.hash` (PF:179-180, PF:317-319). -/
def attrHash (hf : Nat → HM Bytes) : Kind → HVal → HM Bytes
  | .prim τ, .prim v => HM.lift (τ.ser v)
  | .prim τ, .ref _ => HM.lift (τ.ser .other)
  | _, .ref c => hf c
  | _, .prim _ => HM.fail .attributeError

/-- The loop PF:160-167, from attribute `i` on. -/
def hashLoop (hf : Nat → HM Bytes) (r : Nat) : Nat → List Kind → HM Bytes
  | _, [] => return []
  | i, k :: ks => do
    let v ← getAttr T r i
    let a ← attrHash hf k v
    let b ← hashLoop hf r (i + 1) ks
    return a ++ b

/-- `TxProof.TX_HASH_XOR_PAD`, PB:67. -/
def xorPad : Bytes := [0x4c, 0xf8, 0x10, 0xb7, 0x3d, 0xc6, 0x05, 0xfb, 0xe6, 0xc2, 0x15, 0x6a, 0x70, 0x41, 0xe3, 0x70,
  0xf4, 0x75, 0x0e, 0x39, 0xd2, 0xd1, 0x57, 0x31, 0x99, 0xc7, 0x72, 0xc7, 0x32, 0x4b, 0xd0, 0x54]

/-- `bytes([b^p for b,p in zip(h, TX_HASH_XOR_PAD)])`, PB:77 and PB:85. -/
def xorWithPad (h : Bytes) : Bytes := List.zipWith (· ^^^ ·) h xorPad

/-- `bytes([b^p for b,p in zip(self.tx.GetHash(), self.TX_HASH_XOR_PAD)])`, PB:77. -/
def txHash : HVal → Py Bytes
  | .prim (.tx t) => do
    let h ← t.getHash H
    return xorWithPad h
  | _ => .error .attributeError

/-- `self.HASHTAG(data_hash).digest()`, PF:177; calling `None` is a `TypeError`. -/
def tagHash (c : Nat) (d : Bytes) : Py Bytes :=
  match (T c).hashtag with
  | none => .error .typeError
  | some tag => .ok (H.tagged tag d)

mutual
/-- `self.data_hash`: cached (PF:110-113) or computed (PF:151-169). -/
def dataHashF : Nat → Nat → HM Bytes
  | 0, _ => HM.fail .other
  | n + 1, r => do
    let o ← HM.obj r
    match o.dataHash with
    | some d => return d
    | none => do
      let d ← (match o.orig with
        | some q => dataHashF n q
        | none => do
          let b ← hashLoop T (hashF n) r 0 (T o.cls).attrs
          return H.sha256 b)
      HM.upd r (fun o => { o with dataHash := some d })
      return d

/-- `self.hash`: cached (PF:115-118) or computed by `Proof.calc_hash` (PF:171-177) or `TxProof.calc_hash` (PB:69-77). -/
def hashF : Nat → Nat → HM Bytes
  | 0, _ => HM.fail .other
  | n + 1, r => do
    let o ← HM.obj r
    match o.hash with
    | some h => return h
    | none => do
      let h ← (if (T o.cls).isTx ∧ o.isPruned = false then do
          let v ← getAttr T r 0
          HM.lift (txHash H v)
        else match o.orig with
          | some q => hashF n q
          | none => do
            let d ← dataHashF n r
            HM.lift (tagHash T H o.cls d))
      HM.upd r (fun o => { o with hash := some h })
      return h
end

/-- `self.data_hash`. -/
def dataHash (r : Nat) : HM Bytes := fun s => dataHashF T H (2 * s.objs.length + 2) r s
/-- `self.hash`. -/
def hash (r : Nat) : HM Bytes := fun s => hashF T H (2 * s.objs.length + 2) r s

/-- `a == b` of two proofs, PF:72-77. -/
def eq (a b : Nat) : HM Bool := do
  let x ← hash T H a
  let y ← hash T H b
  return decide (x = y)

/-! ## Serialization -/

/-- The number of the first class in the list that an instance of `c` belongs to: PF:270-276, PF:323-330. -/
def unionIndex (us : List Nat) (c : Nat) : Py Nat :=
  match us.findIdx? (T.isInst c) with
  | some i => .ok i
  | none => .error .serType

/-- What `VarProof._ctx_serialize` writes before the attributes, PF:270-276. -/
def variantBytes (c : Nat) : Py Bytes :=
  match (T c).variants with
  | none => .ok []
  | some us => do
    let i ← unionIndex T us c
    return writeVaruint i

/-- `ser_cls.ctx_serialize(attr, ctx)`, PF:185; `sf` is `Proof.ctx_serialize`. -/
def attrSer (sf : Nat → HM Bytes) : Kind → HVal → HM Bytes
  | .prim τ, .prim v => HM.lift (τ.ser v)
  | .prim τ, .ref _ => HM.lift (τ.ser .other)
  | .proof _, .ref c => sf c
  | .union us, .ref c => do
    let o ← HM.obj c
    let i ← HM.lift (unionIndex T us o.cls)
    let b ← sf c
    return writeVaruint i ++ b
  | _, .prim _ => HM.fail .attributeError

/-- The loop PF:183-185. -/
def serLoop (sf : Nat → HM Bytes) (r : Nat) : Nat → List Kind → HM Bytes
  | _, [] => return []
  | i, k :: ks => do
    let v ← getAttr T r i
    let a ← attrSer T sf k v
    let b ← serLoop sf r (i + 1) ks
    return a ++ b

/-- `ctx_serialize`, PF:187-194, with `_ctx_serialize`, PF:182-185 and PF:269-278.  The bytes written. -/
def serF : Nat → Nat → HM Bytes
  | 0, _ => HM.fail .other
  | n + 1, r => do
    let o ← HM.obj r
    match o.isFullyPruned with
    | true => do
      let d ← dataHash T H r
      return writeBool true ++ d
    | false => do
      let v ← HM.lift (variantBytes T o.cls)
      let b ← serLoop T (serF n) r 0 (T o.cls).attrs
      return writeBool false ++ (v ++ b)

/-- `serialize`, PF:197-201. -/
def serialize (r : Nat) : HM Bytes := fun s => serF T H (s.objs.length + 1) r s

/-! ## Construction and deserialization -/

/-- `ser_cls.check_instance(value)` and `value.is_pruned` if `ser_cls` is a proof class: PF:53-57 with PF:64-70,
PF:243-249, PF:299-305. -/
def checkVal : Kind → HVal → HM Bool
  | .prim τ, .prim v => do
    HM.lift (τ.check v)
    return false
  | .prim τ, .ref _ => do
    HM.lift (τ.check .other)
    return false
  | .proof c, .prim _ => HM.fail (if (T c).variants.isSome then .serType else .attributeError)
  | .proof c, .ref r => do
    let o ← HM.obj r
    match (T c).variants with
    | none => return o.isPruned
    | some us => if us.any (T.isInst o.cls) then return o.isPruned else HM.fail .serType
  | .union _, .prim _ => HM.fail .serType
  | .union us, .ref r => do
    let o ← HM.obj r
    if us.any (T.isInst o.cls) then return false else HM.fail .serType

/-- The loop PF:51-57: is any proof attribute pruned? -/
def checkVals : List Kind → List HVal → HM Bool
  | [], _ => return false
  | _ :: _, [] => HM.fail .keyError
  | k :: ks, v :: vs => do
    let a ← checkVal T k v
    let b ← checkVals ks vs
    return a || b

/-- PF:46-47. -/
def initClass (c : Nat) : HM Unit := fun s => (.ok (), { s with inited := if c ∈ s.inited then s.inited else c :: s.inited })

/-- `Proof.__new__(cls, **kwargs)`, PF:44-62; the values in attribute order. -/
def new (c : Nat) (vs : List HVal) : HM Nat := do
  initClass c
  let p ← checkVals T (T c).attrs vs
  HM.alloc { cls := c, fields := (vs.take (T c).attrs.length).map some, isPruned := p }

/-- `ser_cls.ctx_deserialize(ctx)`, PF:208; `df` is `Proof.ctx_deserialize`.  An out-of-range number raises a name that
proof.py does not import: PF:16, PF:288, PF:340. -/
def attrDeser (df : Nat → Bytes → HM (Nat × Bytes)) : Kind → Bytes → HM (HVal × Bytes)
  | .prim τ, b => do
    let (v, b) ← HM.read τ.deser b
    return (.prim v, b)
  | .proof c, b => do
    let (r, b) ← df c b
    return (.ref r, b)
  | .union us, b => do
    let (i, b) ← HM.read readVaruint b
    match us[i]? with
    | none => HM.fail .nameError
    | some u => do
      let (r, b) ← df u b
      return (.ref r, b)

/-- The loop PF:207-209. -/
def deserLoop (df : Nat → Bytes → HM (Nat × Bytes)) : List Kind → Bytes → HM (List HVal × Bytes)
  | [], b => return ([], b)
  | k :: ks, b => do
    let (v, b) ← attrDeser df k b
    let (vs, b) ← deserLoop df ks b
    return (v :: vs, b)

/-- The class whose attributes follow: PF:280-288. -/
def variantOf (c : Nat) (b : Bytes) : HM (Nat × Bytes) :=
  match (T c).variants with
  | none => return (c, b)
  | some us => do
    let (i, b) ← HM.read readVaruint b
    match us[i]? with
    | none => HM.fail .nameError
    | some u => return (u, b)

/-- `ctx_deserialize`, PF:213-230, with `_ctx_deserialize`, PF:203-211 and PF:280-290. -/
def deserF : Nat → Nat → Bytes → HM (Nat × Bytes)
  | 0, _, _ => HM.fail .other
  | n + 1, c, b => do
    let (pruned, b) ← HM.read readBool b
    match pruned with
    | true => do
      let (d, b) ← HM.read (readBytes 32) b
      let r ← HM.alloc { cls := c, fields := List.replicate (T c).attrs.length none, isPruned := true,
                         isFullyPruned := true, dataHash := some d }
      return (r, b)
    | false => do
      let (u, b) ← variantOf T c b
      let (vs, b) ← deserLoop (deserF n) (T u).attrs b
      let r ← new T u vs
      return (r, b)

/-- `cls.ctx_deserialize` on a stream holding these bytes.  Every level reads at least one byte. -/
def ctxDeserialize (c : Nat) (b : Bytes) : HM (Nat × Bytes) := deserF T (b.length + 1) c b

/-- `cls.deserialize(bytes)`, serialize.py:276-282. -/
def deserialize (c : Nat) (b : Bytes) : HM Nat := do
  let (r, _) ← ctxDeserialize T c b
  return r

end Prf
end Verif
