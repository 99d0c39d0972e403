import Verif.Model.MMR
/-!
# What an MMR is, from the "Simplified formal construction" in the module docstring (mmr.py:155-170)

"For n > 1, let k be the smallest power of two such that k < n and n & k == k, or if no such power of two exists,
n / 2 ... MMR(D[n]) = H(n || MMR(D[0:n-k]) || MMR(D[n-k:n]))"
-/
namespace Verif

def IsPow2 (k : Nat) : Prop := ∃ e, k = 2 ^ e

/-- `k` is the number of items on the right of an `n`-item MMR. -/
def IsSplit (n k : Nat) : Prop :=
  (IsPow2 k ∧ k < n ∧ n &&& k = k ∧ ∀ j, IsPow2 j → j < n → n &&& j = j → k ≤ j) ∨
  ((¬ ∃ j, IsPow2 j ∧ j < n ∧ n &&& j = j) ∧ k = n / 2)

/-- `t` is the MMR of the list. -/
inductive IsMMR {α : Type} : List α → MMR α → Prop where
  | empty : IsMMR [] .empty
  | leaf (v : α) : IsMMR [v] (.leaf v)
  | inner {xs ys : List α} {l r : MMR α} : 1 < (xs ++ ys).length → IsSplit (xs ++ ys).length ys.length →
      IsMMR xs l → IsMMR ys r → IsMMR (xs ++ ys) (.inner l r (xs ++ ys).length)

/-- Where slices of `n` items from `a` to `b` end in this library.  If `a ≤ b` they end at `b`.  Otherwise, in the tree that contains `a`, a
`b` left of it is counted from the end of that tree; going on with smaller trees, this ends if `b` has got behind `a`, or with nothing. -/
inductive SliceEnd : Nat → Nat → Nat → Nat → Prop where
  | forward {n a b : Nat} : a ≤ b → SliceEnd n a b b
  | nothing {n a b : Nat} : b < a → n ≤ 1 ∨ n ≤ a → SliceEnd n a b a
  | left {n k a b e : Nat} : b < a → 1 < n → IsSplit n k → a < n - k → SliceEnd (n - k) a b e → SliceEnd n a b e
  | right {n k a b e : Nat} : b < a → 1 < n → IsSplit n k → n - k ≤ a → a < n →
      SliceEnd k (a - (n - k)) (if n - k ≤ b then b - (n - k) else b + k - (n - k)) e → SliceEnd n a b (n - k + e)

/-- `s` is a node of `t` (or `t` itself). -/
inductive Subtree {α : Type} (s : MMR α) : MMR α → Prop where
  | refl : Subtree s s
  | left {l r n} : Subtree s l → Subtree s (.inner l r n)
  | right {l r n} : Subtree s r → Subtree s (.inner l r n)

/-- Length of the longest path from the root. -/
def MMR.depth {α : Type} : MMR α → Nat
  | .inner l r _ => max l.depth r.depth + 1
  | _ => 0

end Verif
