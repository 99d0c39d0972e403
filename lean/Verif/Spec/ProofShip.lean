import Verif.Spec.ProofTyped
/-! # What is read of a proof, and what is sent of it -/
namespace Verif

/-- The proofs, by their paths below `v`, of which an attribute is read when following the path. -/
def TVal.readsOn : TVal → List Nat → List (List Nat)
  | .prim _, _ => []
  | .sub _, [] => []
  | .sub t, i :: π =>
    match t.get? i with
    | none => []
    | some w => [] :: (w.readsOn π).map (i :: ·)

/-- The proofs of which a computation reads an attribute, by their paths, up to where it ends or an attribute (or hash)
cannot be obtained. -/
def Prog.reads (T : Table) (H : HashFns) {α} : Prog α → PTree → List (List Nat)
  | .ret _, _ => []
  | .read π k, t => (TVal.sub t).readsOn π ++
    match (TVal.sub t).walk T [] π with
    | .ok v => (k (match v with | .prim w => some w | .sub _ => none)).reads T H t
    | .error _ => []
  | .cls π k, t => (TVal.sub t).readsOn π ++
    match (TVal.sub t).walk T [] π with
    | .ok (.sub q) => (k q.cls).reads T H t
    | _ => []
  | .hash π k, t => (TVal.sub t).readsOn π ++
    match (TVal.sub t).walk T [] π with
    | .ok (.sub q) => (match q.hash T H with | .ok h => (k h).reads T H t | .error _ => [])
    | _ => []
  | .dataHash π k, t => (TVal.sub t).readsOn π ++
    match (TVal.sub t).walk T [] π with
    | .ok (.sub q) => (match q.dataHash T H with | .ok h => (k h).reads T H t | .error _ => [])
    | _ => []

mutual
/-- The tree in which the sub-proofs at the paths in `S` (relative to the path `π` of this one) are kept, with their
plain attributes, and all others are replaced by their data hash. -/
def PTree.reveal (T : Table) (H : HashFns) (S : List (List Nat)) (π : List Nat) : PTree → PTree
  | .node c fs => if π ∈ S then .node c (fs.reveal T H S π 0) else (PTree.node c fs).stub T H
  | .pruned c d => .pruned c d
def PFields.reveal (T : Table) (H : HashFns) (S : List (List Nat)) (π : List Nat) (i : Nat) : PFields → PFields
  | .nil => .nil
  | .prim v fs => .prim v (fs.reveal T H S π (i + 1))
  | .sub t fs => .sub (t.reveal T H S (π ++ [i])) (fs.reveal T H S π (i + 1))
end

mutual
/-- Nothing pruned in it is a `VarProof` or a `TxProof`. -/
def PTree.KeepsSpecial (T : Table) : PTree → Prop
  | .node _ fs => fs.KeepsSpecial T
  | .pruned c _ => (T c).variants = none ∧ (T c).isTx = false
def PFields.KeepsSpecial (T : Table) : PFields → Prop
  | .nil => True
  | .prim _ fs => fs.KeepsSpecial T
  | .sub t fs => t.KeepsSpecial T ∧ fs.KeepsSpecial T
end

mutual
/-- Like `Represents`, and nothing is pruned: neither the object nor, recursively, its attributes. -/
inductive Whole (s : PState) : Nat → PTree → Prop where
  | node {r o fs} : s.objs[r]? = some o → o.orig = none → o.isFullyPruned = false → o.isPruned = false → WholeFields s o.fields fs →
      Whole s r (.node o.cls fs)
inductive WholeFields (s : PState) : List (Option HVal) → PFields → Prop where
  | nil : WholeFields s [] .nil
  | prim {v vs fs} : WholeFields s vs fs → WholeFields s (some (.prim v) :: vs) (.prim v fs)
  | sub {r t vs fs} : Whole s r t → WholeFields s vs fs → WholeFields s (some (.ref r) :: vs) (.sub t fs)
end

/-- The object `d` is found from `p` by following attributes that are set. -/
inductive PathTo (s : PState) (p : Nat) : List Nat → Nat → Prop where
  | root : PathTo s p [] p
  | step {π d i c} : PathTo s p π d → s.field d i = some (.ref c) → PathTo s p (π ++ [i]) c

/-- `r` is not found from `p`. -/
def Off (s : PState) (p r : Nat) : Prop := ∀ π, ¬ PathTo s p π r

/-- An execution that begins with `p = r.prune()`; `S` are the paths below `p` of the proofs an attribute of which has been
read through `p` since.  Proofs found from `p` are read, hashed and serialized, but not pruned again or put into new
proofs; anything may be done with other objects, in particular with `r`. -/
inductive Tracked (T : Table) (H : HashFns) (r p : Nat) : PState → List (List Nat) → Prop where
  | prune {s s'} : Reachable T H s → Prf.prune T r s = (.ok p, s') → Tracked T H r p s' []
  | read {s s' S π d i v} : Tracked T H r p s S → PathTo s p π d → Prf.getAttr T d i s = (.ok v, s') → Tracked T H r p s' (π :: S)
  | readFails {s s' S π d i e} : Tracked T H r p s S → PathTo s p π d → Prf.getAttr T d i s = (.error e, s') → Tracked T H r p s' S
  | hash {s S π d} : Tracked T H r p s S → PathTo s p π d → Tracked T H r p (Prf.hash T H d s).2 S
  | dataHash {s S π d} : Tracked T H r p s S → PathTo s p π d → Tracked T H r p (Prf.dataHash T H d s).2 S
  | serialize {s S π d} : Tracked T H r p s S → PathTo s p π d → Tracked T H r p (Prf.serialize T H d s).2 S
  | otherNew {s S} (c : Nat) (vs : List HVal) : Tracked T H r p s S → (∀ q, .ref q ∈ vs → q < s.objs.length ∧ Off s p q) →
      Tracked T H r p (Prf.new T c vs s).2 S
  | otherPrune {s S q} : Tracked T H r p s S → Off s p q → Tracked T H r p (Prf.prune T q s).2 S
  | otherGetAttr {s S q} (i : Nat) : Tracked T H r p s S → Off s p q → Tracked T H r p (Prf.getAttr T q i s).2 S
  | otherHash {s S q} : Tracked T H r p s S → Off s p q → Tracked T H r p (Prf.hash T H q s).2 S
  | otherDataHash {s S q} : Tracked T H r p s S → Off s p q → Tracked T H r p (Prf.dataHash T H q s).2 S
  | otherSerialize {s S q} : Tracked T H r p s S → Off s p q → Tracked T H r p (Prf.serialize T H q s).2 S
  | otherDeserialize {s S} (c : Nat) (b : Bytes) : Tracked T H r p s S → Tracked T H r p (Prf.deserialize T c b s).2 S

end Verif
