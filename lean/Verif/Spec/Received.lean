import Verif.Model.MMR
import Verif.Spec.Merbinner
/-! # Trees as received: lengths, prefixes and layout may be lies -/
namespace Verif

namespace MMR
variable {α : Type}

/-- Every inner node stores the number of items below it. -/
def Honest : MMR α → Prop
  | .inner l r n => n = l.items.length + r.items.length ∧ l.Honest ∧ r.Honest
  | _ => True

/-- What the stored lengths must be like for every item to be found under its number.  The length of a left side must be that of
its items, if there are any on the right; the others must not be too small. -/
def Findable : MMR α → Prop
  | .inner l r n => l.items ++ r.items ≠ [] →
    n < 2 ^ 63 ∧ l.items.length + r.items.length ≤ n ∧
    (∃ a, l.len = .ok a ∧ l.items.length ≤ a ∧ (r.items ≠ [] → a = l.items.length ∧ ∃ b, r.len = .ok b ∧ r.items.length ≤ b)) ∧
    l.Findable ∧ r.Findable
  | _ => True

end MMR

namespace MB
variable {K V : Type}

/-- Every key is on the side where it is looked for: those on the left go on with 0 after the prefix, those on the right with 1.
(`MB.WF` also says that no side is empty.) -/
def Findable (C : MBClass K V) : MB K V → Prop
  | .inner p l r => (∀ kv ∈ l.pairs, p ++ [false] <+: C.key2prefix kv.1) ∧ (∀ kv ∈ r.pairs, p ++ [true] <+: C.key2prefix kv.1) ∧
    l.Findable C ∧ r.Findable C
  | _ => True

end MB
end Verif
