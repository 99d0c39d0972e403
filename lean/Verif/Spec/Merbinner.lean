import Verif.Model.Merbinner
import Verif.Spec.Bits
/-! # What a merbinner tree should be: a finite map, laid out as described at merbinnertree.py:49-83 -/
namespace Verif
variable {K V : Type} [DecidableEq K]

/-- No key's prefix is a prefix of another's (e.g. digests of a fixed length). -/
def PrefixFreeKeys (C : MBClass K V) : Prop := ∀ k k', C.key2prefix k <+: C.key2prefix k' → k = k'

/-- A dictionary. -/
abbrev Dict (K V : Type) := K → Option V
def Dict.set (m : Dict K V) (k : K) (v : V) : Dict K V := fun k' => if k' = k then some v else m k'
def Dict.del (m : Dict K V) (k : K) : Dict K V := fun k' => if k' = k then none else m k'

/-- `t` results from the empty tree by some `put` and `remove` calls that all returned, and `m` is what the same calls
make of an empty dictionary. -/
inductive MBHistory (C : MBClass K V) : Dict K V → MB K V → Prop where
  | new : MBHistory C (fun _ => none) .empty
  | put {m t k v t'} : MBHistory C m t → t.put C k v = .ok t' → MBHistory C (m.set k v) t'
  | remove {m t k t'} : MBHistory C m t → t.remove C k = .ok t' → MBHistory C (m.del k) t'

namespace MB

/-- The pairs below a node, in order. -/
def pairs : MB K V → List (K × V)
  | empty => []
  | leaf k v => [(k, v)]
  | inner _ l r => l.pairs ++ r.pairs

/-- The documented layout of a non-empty tree: below an inner node all keys start with its prefix, those on the left go on with 0,
those on the right with 1, and neither side is empty. -/
inductive WF (C : MBClass K V) : MB K V → Prop where
  | leaf (k : K) (v : V) : WF C (.leaf k v)
  | inner {p l r} : WF C l → WF C r → (∀ kv ∈ l.pairs, p ++ [false] <+: C.key2prefix kv.1) →
      (∀ kv ∈ r.pairs, p ++ [true] <+: C.key2prefix kv.1) → WF C (.inner p l r)

/-- Empty, or well-formed. -/
def Tree (C : MBClass K V) (t : MB K V) : Prop := t = .empty ∨ WF C t

end MB

/-- `s` is a node of `t` (or `t` itself). -/
inductive MBSubtree (s : MB K V) : MB K V → Prop where
  | refl : MBSubtree s s
  | left {p l r} : MBSubtree s l → MBSubtree s (.inner p l r)
  | right {p l r} : MBSubtree s r → MBSubtree s (.inner p l r)

end Verif
