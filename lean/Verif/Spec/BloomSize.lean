import Mathlib.Analysis.SpecialFunctions.Log.Basic
/-!
# How large a Bloom filter should be

The textbook formulas for a filter for `n` elements that takes another element for one of them with probability `p`.
-/
namespace Verif.Btc

/-- The number of bits: `-n·ln p / (ln 2)²`. -/
noncomputable def idealBits (n : Int) (p : ℚ) : ℝ := n * -Real.log p / Real.log 2 ^ 2

/-- The number of hash functions for a filter of `size` bytes: `bits / n · ln 2`. -/
noncomputable def idealHashes (size : Nat) (n : Int) : ℝ := 8 * size / n * Real.log 2

/-- What is assumed of `math.log`: the error is at most 2^-50 of the logarithm (a few units in the last place). -/
def LogLike (lg : ℚ → ℚ) : Prop := ∀ p : ℚ, 0 < p → |(lg p : ℝ) - Real.log p| ≤ |Real.log p| / 2 ^ 50

end Verif.Btc
