import Verif.Model.Proof
/-! # What can go wrong in reading, and what reading costs: the words in which C145 and C146 are stated -/
namespace Verif

/-- The exceptions, besides `DeserializationError` and its subclass `TruncationError`, that reading a value can end with. -/
def PrimTy.Strange : PrimTy → PyErr → Prop
  | .bool, _ => False
  | .uint _, _ => False
  | .fixed n, e => e = .overflow ∧ 2 ^ 63 ≤ n
  | .varBytes _ mx, e => e = .overflow ∧ 2 ^ 63 ≤ mx
  | .bits, e => e = .assertion ∨ e = .indexError ∨ e = .overflow
  | .tx, e => e = .btcSer ∨ e = .btcTrunc ∨ e = .btcExtra ∨ e = .overflow
  | .outpoint, e => e = .btcSer ∨ e = .btcTrunc ∨ e = .btcExtra ∨ e = .overflow

namespace Table
variable (T : Table)

/-- The classes of the instances that are read in full for a class: itself, or its variants. -/
def forms (c : Nat) : List Nat :=
  match (T c).variants with
  | none => [c]
  | some us => us

/-- In reading an instance of `c` an instance of another class may have to be read. -/
inductive Leads (c : Nat) : Nat → Prop
  | self : Leads c c
  | proof {d u e : Nat} : Leads c d → u ∈ T.forms d → Kind.proof e ∈ (T u).attrs → Leads c e
  | union {d u e : Nat} {es : List Nat} : Leads c d → u ∈ T.forms d → Kind.union es ∈ (T u).attrs → e ∈ es → Leads c e

/-- In reading an instance of `c` an attribute of this kind may have to be read. -/
def Has (c : Nat) (k : Kind) : Prop := ∃ d u, T.Leads c d ∧ u ∈ T.forms d ∧ k ∈ (T u).attrs

/-- The exceptions that reading an instance of `c` can end with. -/
inductive MayRaise (c : Nat) : PyErr → Prop
  /-- what is documented: `DeserializationError`, `TruncationError` -/
  | documented {e : PyErr} : e.isDeserialization = true → MayRaise c e
  /-- what reading a value raises -/
  | value {τ : PrimTy} {e : PyErr} : T.Has c (.prim τ) → τ.Strange e → MayRaise c e
  /-- the number of a variant or of a class of a union is too high -/
  | variant {d : Nat} {us : List Nat} : T.Leads c d → (T d).variants = some us → MayRaise c .nameError
  | union {us : List Nat} : T.Has c (.union us) → MayRaise c .nameError
  /-- a pruned instance of a class with variants -/
  | pruned {d : Nat} {us : List Nat} : T.Has c (.proof d) → (T d).variants = some us → MayRaise c .serType
  | prunedUnion {ds us : List Nat} {d : Nat} : T.Has c (.union ds) → d ∈ ds → (T d).variants = some us → MayRaise c .serType

/-- Classes of which only documented exceptions are to be expected: no variants, no unions, and only values whose serializers are in serialize.py, for
strings that Python can have. -/
def Tame (c : Nat) : Prop :=
  (∀ d, T.Leads c d → (T d).variants = none) ∧ (∀ us, ¬ T.Has c (.union us)) ∧
  ∀ τ, T.Has c (.prim τ) → match τ with
    | .bool | .uint _ => True
    | .fixed n => n < 2 ^ 63
    | .varBytes _ mx => mx < 2 ^ 63
    | _ => False

end Table
end Verif
