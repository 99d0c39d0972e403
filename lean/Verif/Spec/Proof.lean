import Verif.Model.Proof
/-!
# What a proof object means

A proof is a finite tree: a class and its attribute values, any sub-proof possibly replaced by its data hash.  Trees
have no identity, flags or caches.  The heap is related to trees by `Represents`.
-/
namespace Verif

mutual
/-- A proof as a value. -/
inductive PTree where
  | node (c : Nat) (fs : PFields)
  | pruned (c : Nat) (d : Bytes)
/-- Its attribute values, in order. -/
inductive PFields where
  | nil
  | prim (v : PVal) (fs : PFields)
  | sub (t : PTree) (fs : PFields)
end

/-- One attribute value. -/
inductive TVal where
  | prim (v : PVal)
  | sub (t : PTree)

def PTree.cls : PTree → Nat
  | .node c _ => c
  | .pruned c _ => c

def PFields.get? : PFields → Nat → Option TVal
  | .nil, _ => none
  | .prim v _, 0 => some (.prim v)
  | .sub t _, 0 => some (.sub t)
  | .prim _ fs, i + 1 => fs.get? i
  | .sub _ fs, i + 1 => fs.get? i

def PFields.length : PFields → Nat
  | .nil => 0
  | .prim _ fs => fs.length + 1
  | .sub _ fs => fs.length + 1

/-- The attribute at a position, if it is there. -/
def PTree.get? : PTree → Nat → Option TVal
  | .node _ fs, i => fs.get? i
  | .pruned _ _, _ => none

mutual
/-- Nothing is pruned away. -/
def PTree.full : PTree → Bool
  | .node _ fs => fs.full
  | .pruned _ _ => false
def PFields.full : PFields → Bool
  | .nil => true
  | .prim _ fs => fs.full
  | .sub t fs => t.full && fs.full
end

section
variable (T : Table) (H : HashFns)

mutual
/-- The data hash: SHA-256 of the concatenated attributes, sub-proofs by their hash. -/
def PTree.dataHash : PTree → Py Bytes
  | .node c fs => do
    let b ← PFields.hashBytes fs (T c).attrs
    return H.sha256 b
  | .pruned _ d => .ok d
/-- The hash: the class's tag and the data hash, hashed; for a transaction the txid with the pad. -/
def PTree.hash : PTree → Py Bytes
  | .node c fs =>
    if (T c).isTx then
      match fs.get? 0 with
      | some (.prim v) => Prf.txHash H (.prim v)
      | _ => .error .attributeError
    else do
      let b ← PFields.hashBytes fs (T c).attrs
      Prf.tagHash T H c (H.sha256 b)
  | .pruned c d => Prf.tagHash T H c d
def PFields.hashBytes : PFields → List Kind → Py Bytes
  | _, [] => .ok []
  | .nil, _ :: _ => .error .other
  | .prim v fs, k :: ks => do
    let a ← (match k with
      | .prim τ => τ.ser v
      | _ => .error .attributeError)
    let b ← PFields.hashBytes fs ks
    return a ++ b
  | .sub t fs, k :: ks => do
    let a ← (match k with
      | .prim τ => τ.ser .other
      | _ => PTree.hash t)
    let b ← PFields.hashBytes fs ks
    return a ++ b
end

mutual
/-- The wire format: 0xff and the data hash of a pruned proof; 0x00, the variant number if any, and the attributes of
the others. Members of unions are preceded by the number of their class. -/
def PTree.enc : PTree → Py Bytes
  | .node c fs => do
    let v ← Prf.variantBytes T c
    let b ← PFields.enc fs (T c).attrs
    return 0x00#8 :: (v ++ b)
  | .pruned _ d => .ok (0xff#8 :: d)
def PFields.enc : PFields → List Kind → Py Bytes
  | _, [] => .ok []
  | .nil, _ :: _ => .error .other
  | .prim v fs, k :: ks => do
    let a ← (match k with
      | .prim τ => τ.ser v
      | _ => .error .attributeError)
    let b ← PFields.enc fs ks
    return a ++ b
  | .sub t fs, k :: ks => do
    let a ← (match k with
      | .prim τ => τ.ser .other
      | .proof _ => PTree.enc t
      | .union us => do
        let i ← Prf.unionIndex T us t.cls
        let b ← PTree.enc t
        return writeVaruint i ++ b)
    let b ← PFields.enc fs ks
    return a ++ b
end
end

/-! ## The heap -/

/-- The value of the attribute at position `i` set on object `r`, if one is set. -/
def PState.field (s : PState) (r i : Nat) : Option HVal := (s.objs[r]?).bind fun o => (o.fields[i]?).join

/-- Only the data hash of a tree. -/
def PTree.stub (T : Table) (H : HashFns) (t : PTree) : PTree :=
  .pruned t.cls (match t.dataHash T H with | .ok d => d | .error _ => [])

mutual
/-- The part of `t` that can be seen on object `r`: nothing but the data hash if the object is fully pruned; otherwise
all plain attributes, and of the sub-proofs that were read what can be seen on the objects that were obtained; of the
others the data hash. -/
def PTree.disclosed (T : Table) (H : HashFns) (s : PState) (r : Nat) : PTree → PTree
  | .node c fs => if (s.objs[r]?).any (·.isFullyPruned) then (PTree.node c fs).stub T H else .node c (fs.disclosed T H s r 0)
  | .pruned c d => .pruned c d
def PFields.disclosed (T : Table) (H : HashFns) (s : PState) (r i : Nat) : PFields → PFields
  | .nil => .nil
  | .prim v fs => .prim v (fs.disclosed T H s r (i + 1))
  | .sub t fs => .sub (match s.field r i with
      | some (.ref q) => t.disclosed T H s q
      | _ => t.stub T H) (fs.disclosed T H s r (i + 1))
end

mutual
/-- The object `r` stands for the tree `t`: an object built from attribute values stands for the node with those values,
one deserialized from a hash for that hash, and a pruned view for what the original stands for. -/
inductive Represents (s : PState) : Nat → PTree → Prop where
  | node {r o fs} : s.objs[r]? = some o → o.orig = none → o.isFullyPruned = false → RepFields s o.fields fs →
      Represents s r (.node o.cls fs)
  | hashOnly {r o d} : s.objs[r]? = some o → o.orig = none → o.isFullyPruned = true → o.dataHash = some d →
      Represents s r (.pruned o.cls d)
  | view {r o q t} : s.objs[r]? = some o → o.orig = some q → Represents s q t → Represents s r t
inductive RepFields (s : PState) : List (Option HVal) → PFields → Prop where
  | nil : RepFields s [] .nil
  | prim {v vs fs} : RepFields s vs fs → RepFields s (some (.prim v) :: vs) (.prim v fs)
  | sub {r t vs fs} : Represents s r t → RepFields s vs fs → RepFields s (some (.ref r) :: vs) (.sub t fs)
end

/-- What a program using the library can do. -/
inductive Step (T : Table) (H : HashFns) : PState → PState → Prop where
  /-- construct a proof from any values at hand -/
  | new {s} (c : Nat) (vs : List HVal) : (∀ r, .ref r ∈ vs → r < s.objs.length) → Step T H s (Prf.new T c vs s).2
  | prune {s} (r : Nat) : Step T H s (Prf.prune T r s).2
  | getAttr {s} (r i : Nat) : Step T H s (Prf.getAttr T r i s).2
  | dataHash {s} (r : Nat) : Step T H s (Prf.dataHash T H r s).2
  | hash {s} (r : Nat) : Step T H s (Prf.hash T H r s).2
  | serialize {s} (r : Nat) : Step T H s (Prf.serialize T H r s).2
  | deserialize {s} (c : Nat) (b : Bytes) : Step T H s (Prf.deserialize T c b s).2

/-- Some steps. -/
inductive Steps (T : Table) (H : HashFns) : PState → PState → Prop where
  | refl {s} : Steps T H s s
  | tail {s s' s''} : Steps T H s s' → Step T H s' s'' → Steps T H s s''

/-- The states a program can get into. -/
def Reachable (T : Table) (H : HashFns) (s : PState) : Prop := Steps T H {} s

/-- What is assumed of the classes: `TxProof` has the one attribute `tx` (bitcoin.py:65). -/
def Table.WF (T : Table) : Prop := ∀ c, (T c).isTx = true → (T c).attrs = [.prim .tx]

/-! ## Computations on proofs -/

/-- A computation that inspects a proof: it follows paths of attributes, from the root, to a value, or to a
sub-proof whose class, hash or data hash it looks at, and decides what to do next from what it has seen.  It returns or
raises. -/
inductive Prog (α : Type) where
  | ret (a : Py α)
  /-- the value at a path, `none` if it is a proof -/
  | read (π : List Nat) (k : Option PVal → Prog α)
  | cls (π : List Nat) (k : Nat → Prog α)
  | hash (π : List Nat) (k : Bytes → Prog α)
  | dataHash (π : List Nat) (k : Bytes → Prog α)

namespace Prog

def bind {α β} : Prog α → (α → Prog β) → Prog β
  | .ret (.ok a), f => f a
  | .ret (.error e), _ => .ret (.error e)
  | .read π k, f => .read π fun v => (k v).bind f
  | .cls π k, f => .cls π fun v => (k v).bind f
  | .hash π k, f => .hash π fun v => (k v).bind f
  | .dataHash π k, f => .dataHash π fun v => (k v).bind f

instance : Monad Prog where
  pure a := .ret (.ok a)
  bind := Prog.bind

/-- `x.a.b.c` -/
def walk (T : Table) (v : HVal) : List Nat → HM HVal
  | [] => return v
  | i :: π => match v with
    | .prim _ => HM.fail .attributeError
    | .ref r => do
      let w ← Prf.getAttr T r i
      walk T w π

/-- The sub-proof at a path; other values have no hash or known class. -/
def asProof : HVal → HM Nat
  | .prim _ => HM.fail .attributeError
  | .ref r => return r

/-- Run on the object `r`.  The outer result is an error if an attribute (or hash) could not be obtained; the inner one
is what the computation returns or raises. -/
def run (T : Table) (H : HashFns) {α} : Prog α → Nat → HM (Py α)
  | .ret a, _ => return a
  | .read π k, r => do
    let v ← walk T (.ref r) π
    (k (match v with | .prim w => some w | .ref _ => none)).run T H r
  | .cls π k, r => do
    let v ← walk T (.ref r) π
    let q ← asProof v
    let o ← HM.obj q
    (k o.cls).run T H r
  | .hash π k, r => do
    let v ← walk T (.ref r) π
    let q ← asProof v
    let h ← Prf.hash T H q
    (k h).run T H r
  | .dataHash π k, r => do
    let v ← walk T (.ref r) π
    let q ← asProof v
    let h ← Prf.dataHash T H q
    (k h).run T H r

end Prog

/-- Reading an attribute of a tree. -/
def PTree.attr (T : Table) (inited : List Nat) (t : PTree) (i : Nat) : Py TVal :=
  match t.get? i with
  | some v => .ok v
  | none => .error (match t with
    | .node _ _ => .attributeError
    | .pruned c _ => Prf.missing T inited c i)

def TVal.walk (T : Table) (inited : List Nat) (v : TVal) : List Nat → Py TVal
  | [] => .ok v
  | i :: π => match v with
    | .prim _ => .error .attributeError
    | .sub t => do
      let w ← t.attr T inited i
      w.walk T inited π

def TVal.asProof : TVal → Py PTree
  | .prim _ => .error .attributeError
  | .sub t => .ok t

/-- The same computation on a tree. -/
def Prog.eval (T : Table) (H : HashFns) (inited : List Nat) {α} : Prog α → PTree → Py (Py α)
  | .ret a, _ => .ok a
  | .read π k, t => do
    let v ← (TVal.sub t).walk T inited π
    (k (match v with | .prim w => some w | .sub _ => none)).eval T H inited t
  | .cls π k, t => do
    let v ← (TVal.sub t).walk T inited π
    let q ← v.asProof
    (k q.cls).eval T H inited t
  | .hash π k, t => do
    let v ← (TVal.sub t).walk T inited π
    let q ← v.asProof
    let h ← q.hash T H
    (k h).eval T H inited t
  | .dataHash π k, t => do
    let v ← (TVal.sub t).walk T inited π
    let q ← v.asProof
    let h ← q.dataHash T H
    (k h).eval T H inited t

end Verif
