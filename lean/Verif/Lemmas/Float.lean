import Verif.Lemmas.Rpc
import Mathlib.Tactic.NormNum.Pow
import Mathlib.Algebra.Order.Field.Power
/-! # Floating point numbers -/
namespace Verif.Rpc
open Verif

theorem roundEven_err (q : ℚ) : |(roundEven q : ℚ) - q| ≤ 1 / 2 := by
  have h1 := Int.floor_le q
  have h2 := Int.lt_floor_add_one q
  unfold roundEven
  simp only
  rw [abs_le]
  split
  · constructor <;> linarith
  · split
    · push_cast; constructor <;> linarith
    · split
      · constructor <;> linarith
      · push_cast; constructor <;> linarith

/-- Nearest among the integers. -/
theorem roundEven_nearest (q : ℚ) (m : Int) : |(roundEven q : ℚ) - q| ≤ |(m : ℚ) - q| := by
  have h0 := roundEven_err q
  by_cases h : m = roundEven q
  · rw [h]
  · have h1 : (1 : ℚ) ≤ |(m : ℚ) - roundEven q| := by
      have : 1 ≤ |m - roundEven q| := Int.one_le_abs (sub_ne_zero.mpr h)
      exact_mod_cast this
    have h2 : |(m : ℚ) - roundEven q| ≤ |(m : ℚ) - q| + |(roundEven q : ℚ) - q| := by
      rw [abs_sub_comm (roundEven q : ℚ) q]
      exact abs_sub_le _ _ _
    linarith

theorem roundEven_int (n : Int) : roundEven (n : ℚ) = n := by
  unfold roundEven
  simp

theorem toFloat_int {n : Nat} (h : n < 2 ^ 53) : toFloat (n : ℚ) = n := by
  unfold toFloat
  split
  · rename_i h0; rw [h0]
  · rename_i h0
    have hn : 0 < n := by
      rcases Nat.eq_zero_or_pos n with rfl | h
      · simp at h0
      · exact h
    have hL : Int.log 2 |(n : ℚ)| = (Nat.log 2 n : Int) := by
      rw [abs_of_nonneg (by positivity)]
      exact Int.log_natCast 2 n
    have hlog : Nat.log 2 n < 53 := Nat.log_lt_of_lt_pow (by omega) h
    rw [hL, max_eq_left (by omega)]
    obtain ⟨k, hk⟩ : ∃ k : Nat, (Nat.log 2 n : Int) - 52 = -(k : Int) := ⟨52 - Nat.log 2 n, by omega⟩
    simp only [hk, zpow_neg, zpow_natCast, div_inv_eq_mul]
    have : (n : ℚ) * 2 ^ k = ((n * 2 ^ k : Int) : ℚ) := by push_cast; ring
    rw [this, roundEven_int]
    push_cast
    field_simp

/-- `toFloat` of a number that is not too small. -/
theorem toFloat_eq {q : ℚ} (hq : (2 : ℚ) ^ (-1022 : Int) ≤ q) : ∃ L : Int, -1022 ≤ L ∧ (2 : ℚ) ^ L ≤ q ∧ q < 2 ^ (L + 1) ∧
    toFloat q = roundEven (q / 2 ^ (L - 52)) * 2 ^ (L - 52) := by
  have hp : (0 : ℚ) < q := lt_of_lt_of_le (by positivity) hq
  have h1 : (2 : ℚ) ^ Int.log 2 q ≤ q := by exact_mod_cast Int.zpow_log_le_self (b := 2) (by norm_num) hp
  have h2 : q < (2 : ℚ) ^ (Int.log 2 q + 1) := by exact_mod_cast Int.lt_zpow_succ_log_self (b := 2) (by norm_num) q
  have h3 : -1022 ≤ Int.log 2 q := by
    have := lt_of_le_of_lt hq h2
    rw [zpow_lt_zpow_iff_right₀ (by norm_num)] at this
    omega
  refine ⟨Int.log 2 q, h3, h1, h2, ?_⟩
  unfold toFloat
  rw [if_neg hp.ne', abs_of_pos hp, max_eq_left h3]

theorem toFloat_isFloat {q : ℚ} (hq : (2 : ℚ) ^ (-1022 : Int) ≤ q) : IsFloat (toFloat q) := by
  obtain ⟨L, h0, h1, h2, h3⟩ := toFloat_eq hq
  refine ⟨roundEven (q / 2 ^ (L - 52)), L - 52, ?_, by omega, h3⟩
  have hu : (0 : ℚ) < 2 ^ (L - 52) := by positivity
  have hx : q / 2 ^ (L - 52) < 2 ^ 53 := by
    rw [div_lt_iff₀ hu, ← zpow_natCast, ← zpow_add₀ (by norm_num)]
    have : ((53 : ℕ) : ℤ) + (L - 52) = L + 1 := by push_cast; omega
    rw [this]
    exact h2
  have hx0 : 0 ≤ q / 2 ^ (L - 52) := div_nonneg (le_trans (by positivity) h1) hu.le
  have he := abs_le.mp (roundEven_err (q / 2 ^ (L - 52)))
  rw [abs_le]
  constructor
  · have : (-1 : ℚ) < roundEven (q / 2 ^ (L - 52)) := by linarith
    have : -1 < roundEven (q / 2 ^ (L - 52)) := by exact_mod_cast this
    omega
  · have : (roundEven (q / 2 ^ (L - 52)) : ℚ) < 2 ^ 53 + 1 := by linarith
    have : roundEven (q / 2 ^ (L - 52)) < 2 ^ 53 + 1 := by exact_mod_cast this
    omega

theorem toFloat_err {q : ℚ} (hq : (2 : ℚ) ^ (-1022 : Int) ≤ q) : |q - toFloat q| ≤ q / 2 ^ 53 := by
  obtain ⟨L, h0, h1, h2, h3⟩ := toFloat_eq hq
  have hu : (0 : ℚ) < 2 ^ (L - 52) := by positivity
  have he := roundEven_err (q / 2 ^ (L - 52))
  have : |q - toFloat q| = |(roundEven (q / 2 ^ (L - 52)) : ℚ) - q / 2 ^ (L - 52)| * 2 ^ (L - 52) := by
    rw [h3, abs_sub_comm, ← abs_of_pos hu, ← abs_mul, abs_of_pos hu]
    congr 1
    rw [sub_mul, div_mul_cancel₀ _ hu.ne']
  rw [this, le_div_iff₀ (by positivity)]
  have h5 : (2 : ℚ) ^ (L - 52) * 2 ^ 53 = 2 * 2 ^ L := by
    rw [← zpow_natCast, ← zpow_add₀ (by norm_num), show L - 52 + ((53 : ℕ) : ℤ) = L + 1 by push_cast; ring, zpow_add₀ (by norm_num)]
    ring
  have h6 : |(roundEven (q / 2 ^ (L - 52)) : ℚ) - q / 2 ^ (L - 52)| * 2 ^ (L - 52) * 2 ^ 53 =
      |(roundEven (q / 2 ^ (L - 52)) : ℚ) - q / 2 ^ (L - 52)| * (2 * 2 ^ L) := by rw [mul_assoc, h5]
  rw [h6]
  have hL : (0 : ℚ) < 2 ^ L := by positivity
  nlinarith

theorem toFloat_nearest {q : ℚ} (hq : (2 : ℚ) ^ (-1022 : Int) ≤ q) : Nearest q (toFloat q) := by
  refine ⟨toFloat_isFloat hq, ?_⟩
  rintro g ⟨m, k, hm, hk, rfl⟩
  obtain ⟨L, h0, h1, h2, h3⟩ := toFloat_eq hq
  have hu : (0 : ℚ) < 2 ^ (L - 52) := by positivity
  -- at least as near as any multiple of the unit
  have key : ∀ i : Int, |q - toFloat q| ≤ |q - i * 2 ^ (L - 52)| := by
    intro i
    have e1 : ∀ j : Int, |q - j * 2 ^ (L - 52)| = |(j : ℚ) - q / 2 ^ (L - 52)| * 2 ^ (L - 52) := by
      intro j
      rw [abs_sub_comm, ← abs_of_pos hu, ← abs_mul, abs_of_pos hu]
      congr 1
      rw [sub_mul, div_mul_cancel₀ _ hu.ne']
    rw [h3, e1, e1]
    exact mul_le_mul_of_nonneg_right (roundEven_nearest _ _) hu.le
  by_cases hkL : L - 52 ≤ k
  · obtain ⟨d, hd⟩ := Int.eq_ofNat_of_zero_le (sub_nonneg.mpr hkL)
    have : (m : ℚ) * 2 ^ k = ((m * 2 ^ d : Int) : ℚ) * 2 ^ (L - 52) := by
      push_cast
      rw [mul_assoc, ← zpow_natCast, ← zpow_add₀ (by norm_num)]
      congr 2
      omega
    rw [this]
    exact key _
  · have hle : (m : ℚ) * 2 ^ k ≤ 2 ^ L := by
      have hm' : (m : ℚ) ≤ 2 ^ 53 := by
        have := (abs_le.mp hm).2
        exact_mod_cast this
      calc (m : ℚ) * 2 ^ k ≤ 2 ^ 53 * 2 ^ k := mul_le_mul_of_nonneg_right hm' (by positivity)
        _ = 2 ^ (k + 53) := by rw [zpow_add₀ (by norm_num)]; norm_num; ring
        _ ≤ 2 ^ L := zpow_le_zpow_right₀ (by norm_num) (by omega)
    have := key (2 ^ 52)
    have e2 : ((2 ^ 52 : Int) : ℚ) * 2 ^ (L - 52) = 2 ^ L := by
      rw [show ((2 ^ 52 : Int) : ℚ) = (2 : ℚ) ^ (52 : Int) by norm_num, ← zpow_add₀ (by norm_num)]
      congr 1
      omega
    rw [e2] at this
    refine le_trans this ?_
    rw [abs_of_nonneg (by linarith), abs_of_nonneg (by linarith)]
    linarith

/-- A number that is read as a `float` that is not too small is near it. -/
theorem Nearest.err {x f : ℚ} (hx : 0 ≤ x) (h : Nearest x f) (hf : (2 : ℚ) ^ (-1000 : Int) ≤ f) : |x - f| ≤ x / 2 ^ 53 := by
  by_cases hq : (2 : ℚ) ^ (-1022 : Int) ≤ x
  · exact le_trans (h.2 _ (toFloat_isFloat hq)) (toFloat_err hq)
  · exfalso
    have h1 := h.2 0 ⟨0, 0, by norm_num, by norm_num, by norm_num⟩
    rw [sub_zero, abs_of_nonneg hx] at h1
    have h2 := (abs_le.mp h1).1
    have h3 : (2 : ℚ) ^ (-1000 : Int) < 2 * 2 ^ (-1022 : Int) := by
      push Not at hq
      linarith
    have h4 : (2 : ℚ) * 2 ^ (-1022 : Int) = 2 ^ (-1021 : Int) := by
      rw [show (-1021 : Int) = 1 + -1022 by norm_num, zpow_add₀ (by norm_num), zpow_one]
    rw [h4, zpow_lt_zpow_iff_right₀ (by norm_num)] at h3
    omega

end Verif.Rpc
