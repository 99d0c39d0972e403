import Verif.Model.ClassDecl
/-!
# Inheritance

What `issubclass` and the lookup of class attributes are to be, independently of how the model computes them.
-/
namespace Verif.Decl

variable {S V : Type}

/-- Class `c` is `u` or derived from it. -/
inductive Sub (w : World S) : Nat → Nat → Prop where
  | refl {c : Nat} {k : Cls S} : w.classes[c]? = some k → Sub w c c
  | up {c b u : Nat} {k : Cls S} : w.classes[c]? = some k → k.base = some b → Sub w b u → Sub w c u

/-- The class nearest to `c`, itself or an ancestor, which has set the attribute `f`, is `u`, and the value is `a`. -/
inductive Nearest {α : Type} (w : World S) (f : Cls S → Option α) : Nat → Nat → α → Prop where
  | own {c : Nat} {k : Cls S} {a : α} : w.classes[c]? = some k → f k = some a → Nearest w f c c a
  | up {c b u : Nat} {k : Cls S} {a : α} : w.classes[c]? = some k → f k = none → k.base = some b → Nearest w f b u a → Nearest w f c u a

/-- No class, from `c` upwards, has set the attribute. -/
def Unset {α : Type} (w : World S) (f : Cls S → Option α) (c : Nat) : Prop := ∀ u a, ¬ Nearest w f c u a

/-- The names a class declares in `SERIALIZED_ATTRS`, with their serializers: its own, or else those of the nearest ancestor that has some. -/
def Declares (w : World S) (c : Nat) (l : List (String × S)) : Prop := ∃ u, Nearest w (·.attrs) c u l

/-- The serializer that counts for a name: the last one. -/
def Last (l : List (String × S)) (n : String) (s : S) : Prop := ∃ l₁ l₂, l = l₁ ++ (n, s) :: l₂ ∧ ∀ e ∈ l₂, e.1 ≠ n

end Verif.Decl
