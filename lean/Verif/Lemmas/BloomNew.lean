import Verif.Model.BloomNew
import Verif.Spec.Rpc
import Verif.Spec.BloomSize
import Verif.Lemmas.Float
import Mathlib.Analysis.SpecialFunctions.Log.Basic
import Mathlib.Analysis.Complex.ExponentialBounds
import Mathlib.Tactic.Linarith
import Mathlib.Tactic.NormNum.Pow
/-! # Sizes of Bloom filters: errors of floats -/
namespace Verif.Btc
open Verif Rpc

/-- `x` is `y`, up to a factor between `1 - d` and `1 + d`. -/
def Btw (d x y : ℝ) : Prop := y * (1 - d) ≤ x ∧ x ≤ y * (1 + d)

theorem Btw.mono {d e x y : ℝ} (h : Btw d x y) (hy : 0 ≤ y) (hd : d ≤ e) : Btw e x y :=
  ⟨le_trans (by nlinarith) h.1, le_trans h.2 (by nlinarith)⟩

theorem Btw.trans {d e x y z : ℝ} (h : Btw d x y) (g : Btw e y z) (hz : 0 ≤ z) (hd : 0 ≤ d) (hd1 : d ≤ 1) (he : 0 ≤ e) : Btw (d + e + d * e) x z := by
  obtain ⟨h1, h2⟩ := h
  obtain ⟨g1, g2⟩ := g
  constructor
  · refine le_trans ?_ h1
    have : z * (1 - e) * (1 - d) ≤ y * (1 - d) := mul_le_mul_of_nonneg_right g1 (by linarith)
    nlinarith [mul_nonneg hz (mul_nonneg hd he)]
  · refine le_trans h2 ?_
    have : y * (1 + d) ≤ z * (1 + e) * (1 + d) := mul_le_mul_of_nonneg_right g2 (by linarith)
    nlinarith

theorem Btw.mul {d e x y z w : ℝ} (h : Btw d x y) (g : Btw e z w) (hy : 0 ≤ y) (hw : 0 ≤ w) (hd : 0 ≤ d) (hd1 : d ≤ 1) (he : 0 ≤ e) (he1 : e ≤ 1) :
    Btw (d + e + d * e) (x * z) (y * w) := by
  obtain ⟨h1, h2⟩ := h
  obtain ⟨g1, g2⟩ := g
  have h0 : 0 ≤ y * (1 - d) := mul_nonneg hy (by linarith)
  have g0 : 0 ≤ w * (1 - e) := mul_nonneg hw (by linarith)
  have a := mul_le_mul h1 g1 g0 (h0.trans h1)
  have b := mul_le_mul h2 g2 (g0.trans g1) (mul_nonneg hy (by linarith))
  have c : 0 ≤ y * w * (d * e) := mul_nonneg (mul_nonneg hy hw) (mul_nonneg hd he)
  constructor
  · nlinarith
  · nlinarith

theorem Btw.min {d x y c : ℝ} (h : Btw d x y) (hy : 0 ≤ y) (hc : 0 ≤ c) (hd : 0 ≤ d) (hd1 : d ≤ 1) : Btw d (min x c) (min y c) := by
  obtain ⟨h1, h2⟩ := h
  rcases le_total y c with h3 | h3
  · rw [min_eq_left h3]
    refine ⟨le_min h1 (by nlinarith), (min_le_left _ _).trans h2⟩
  · rw [min_eq_right h3]
    refine ⟨le_min (by nlinarith) (by nlinarith), (min_le_right _ _).trans (by nlinarith)⟩

theorem Btw.floor {d x y : ℝ} (h : Btw d x y) : (⌊x⌋ : ℝ) ≤ y * (1 + d) ∧ y * (1 - d) < ⌊x⌋ + 1 :=
  ⟨(Int.floor_le x).trans h.2, h.1.trans_lt (Int.lt_floor_add_one x)⟩

theorem roundEven_neg (q : ℚ) : roundEven (-q) = -roundEven q := by
  have h1 := Int.floor_le q
  have h2 := Int.lt_floor_add_one q
  by_cases hq : q = ⌊q⌋
  · rw [hq, ← Int.cast_neg, roundEven_int, roundEven_int]
  · have h3 : (⌊q⌋ : ℚ) < q := lt_of_le_of_ne h1 (Ne.symm hq)
    have h4 : ⌊-q⌋ = -⌊q⌋ - 1 := by
      rw [Int.floor_eq_iff]
      push_cast
      constructor <;> linarith
    unfold roundEven
    simp only [h4]
    push_cast
    split_ifs <;> first | omega | (exfalso; linarith)

theorem toFloat_neg (q : ℚ) : toFloat (-q) = -toFloat q := by
  unfold toFloat
  by_cases h : q = 0
  · rw [h]; simp
  · rw [if_neg (by simpa using h), if_neg h]
    simp only [abs_neg, neg_div, roundEven_neg]
    push_cast
    ring

theorem toFloat_zero : toFloat 0 = 0 := by unfold toFloat; simp

/-- Rounding changes a number that is not too small by a factor close to 1. -/
theorem toFloat_btw {q : ℚ} (hq : (2 : ℚ) ^ (-1022 : Int) ≤ q) : Btw (1 / 2 ^ 53) (toFloat q : ℝ) (q : ℝ) := by
  have h := toFloat_err hq
  rw [abs_le] at h
  have h1 : ((-(q / 2 ^ 53) : ℚ) : ℝ) ≤ ((q - toFloat q : ℚ) : ℝ) := by exact_mod_cast h.1
  have h2 : ((q - toFloat q : ℚ) : ℝ) ≤ ((q / 2 ^ 53 : ℚ) : ℝ) := by exact_mod_cast h.2
  push_cast at h1 h2
  unfold Btw
  constructor <;> linarith

theorem tiny_le {q : ℚ} {k : Int} (h : (2 : ℚ) ^ k ≤ q) (hk : -1022 ≤ k) : (2 : ℚ) ^ (-1022 : Int) ≤ q :=
  le_trans (zpow_le_zpow_right₀ (by norm_num) hk) h

theorem LN2SQUARED_btw : (480453013918201 / 10 ^ 15 : ℚ) ≤ LN2SQUARED ∧ LN2SQUARED ≤ 480453013918202 / 10 ^ 15 := by
  have h := toFloat_err (q := 4804530139182014246671025263266649717305529515945455 / 10 ^ 52) (tiny_le (k := -2) (by norm_num) (by norm_num))
  rw [abs_le] at h
  unfold LN2SQUARED
  constructor
  · have := h.2; norm_num at this ⊢; linarith
  · have := h.1; norm_num at this ⊢; linarith

theorem LN2_btw : (693147180559945 / 10 ^ 15 : ℚ) ≤ LN2 ∧ LN2 ≤ 693147180559946 / 10 ^ 15 := by
  have h := toFloat_err (q := 6931471805599453094172321214581765680755001343602552 / 10 ^ 52) (tiny_le (k := -2) (by norm_num) (by norm_num))
  rw [abs_le] at h
  unfold LN2
  constructor
  · have := h.2; norm_num at this ⊢; linarith
  · have := h.1; norm_num at this ⊢; linarith

theorem log2_btw : (6931471804 / 10 ^ 10 : ℝ) ≤ Real.log 2 ∧ Real.log 2 ≤ 6931471807 / 10 ^ 10 := by
  have h := Real.log_two_near_10
  rw [abs_le] at h
  constructor <;> [have := h.1; have := h.2] <;> norm_num at this ⊢ <;> linarith

/-- The factor `1 / LN2SQUARED` is close to what it should be. -/
theorem factor_btw : Btw (9 / 10 ^ 10) (toFloat (1 / LN2SQUARED) : ℝ) (1 / (Real.log 2) ^ 2) := by
  obtain ⟨a1, a2⟩ := LN2SQUARED_btw
  have h0 : (0 : ℚ) < LN2SQUARED := lt_of_lt_of_le (by norm_num) a1
  have b1 : (2081368981005 / 10 ^ 12 : ℚ) ≤ 1 / LN2SQUARED := by rw [le_div_iff₀ h0]; norm_num at a2 ⊢; linarith
  have b2 : 1 / LN2SQUARED ≤ (2081368981006 / 10 ^ 12 : ℚ) := by rw [div_le_iff₀ h0]; norm_num at a1 ⊢; linarith
  have e := toFloat_err (q := 1 / LN2SQUARED) (tiny_le (k := 0) (by norm_num at b1 ⊢; linarith) (by norm_num))
  rw [abs_le] at e
  have c1 : (2081368981004 / 10 ^ 12 : ℚ) ≤ toFloat (1 / LN2SQUARED) := by have := e.2; norm_num at this b1 b2 ⊢; linarith
  have c2 : toFloat (1 / LN2SQUARED) ≤ (2081368981007 / 10 ^ 12 : ℚ) := by have := e.1; norm_num at this b1 b2 ⊢; linarith
  have d1 : ((2081368981004 / 10 ^ 12 : ℚ) : ℝ) ≤ (toFloat (1 / LN2SQUARED) : ℝ) := by exact_mod_cast c1
  have d2 : (toFloat (1 / LN2SQUARED) : ℝ) ≤ ((2081368981007 / 10 ^ 12 : ℚ) : ℝ) := by exact_mod_cast c2
  obtain ⟨l1, l2⟩ := log2_btw
  have s1 : (6931471804 / 10 ^ 10 : ℝ) ^ 2 ≤ Real.log 2 ^ 2 := by gcongr
  have s2 : Real.log 2 ^ 2 ≤ (6931471807 / 10 ^ 10 : ℝ) ^ 2 := by gcongr
  have s0 : (0 : ℝ) < Real.log 2 ^ 2 := lt_of_lt_of_le (by norm_num) s1
  unfold Btw
  constructor
  · refine le_trans ?_ d1
    rw [div_mul_eq_mul_div, div_le_iff₀ s0]
    push_cast
    norm_num at s1 ⊢
    linarith
  · refine le_trans d2 ?_
    rw [div_mul_eq_mul_div, le_div_iff₀ s0]
    push_cast
    norm_num at s2 ⊢
    linarith

theorem ln2_near : Btw (3 / 10 ^ 10) (LN2 : ℝ) (Real.log 2) := by
  obtain ⟨a1, a2⟩ := LN2_btw
  have d1 : ((693147180559945 / 10 ^ 15 : ℚ) : ℝ) ≤ (LN2 : ℝ) := by exact_mod_cast a1
  have d2 : (LN2 : ℝ) ≤ ((693147180559946 / 10 ^ 15 : ℚ) : ℝ) := by exact_mod_cast a2
  obtain ⟨l1, l2⟩ := log2_btw
  unfold Btw
  constructor
  · refine le_trans ?_ d1
    push_cast
    norm_num at l1 l2 ⊢
    linarith
  · refine le_trans d2 ?_
    push_cast
    norm_num at l1 l2 ⊢
    linarith

/-- A float below 1 is not too close to 1. -/
theorem float_lt_one {p : ℚ} (hp : IsFloat p) (h1 : p < 1) : p ≤ 1 - 1 / 2 ^ 53 := by
  obtain ⟨m, k, hm, hk, rfl⟩ := hp
  rcases lt_or_ge k 0 with hk0 | hk0
  · obtain ⟨j, rfl⟩ : ∃ j : Nat, k = -(j : Int) := ⟨k.natAbs, by omega⟩
    rw [zpow_neg, zpow_natCast, ← div_eq_mul_inv] at h1 ⊢
    have hj : (0 : ℚ) < 2 ^ j := by positivity
    rw [div_lt_one hj] at h1
    rcases Nat.lt_or_ge 53 j with h53 | h53
    · have h3 : (m : ℚ) ≤ 2 ^ 53 := by exact_mod_cast (le_abs_self m).trans hm
      have h4 : (2 : ℚ) ^ 54 ≤ 2 ^ j := pow_le_pow_right₀ (by norm_num) h53
      rw [div_le_iff₀ hj]
      norm_num at h3 h4 ⊢
      linarith
    · have h3 : (m : ℚ) ≤ 2 ^ j - 1 := by
        have : m < 2 ^ j := by exact_mod_cast h1
        have : m ≤ 2 ^ j - 1 := by omega
        exact_mod_cast this
      have h4 : (2 : ℚ) ^ j ≤ 2 ^ 53 := pow_le_pow_right₀ (by norm_num) h53
      rw [div_le_iff₀ hj]
      norm_num at h4 ⊢
      linarith
  · obtain ⟨j, rfl⟩ : ∃ j : Nat, k = (j : Int) := ⟨k.natAbs, by omega⟩
    rw [zpow_natCast] at h1 ⊢
    have h2 : m * 2 ^ j < (1 : Int) := by exact_mod_cast h1
    have h3 : m * 2 ^ j ≤ (0 : Int) := by omega
    have h4 : (m : ℚ) * 2 ^ j ≤ 0 := by exact_mod_cast h3
    refine h4.trans (by norm_num)

theorem factor_ge : (2 : ℚ) ≤ toFloat (1 / LN2SQUARED) := by
  obtain ⟨a1, a2⟩ := LN2SQUARED_btw
  have h0 : (0 : ℚ) < LN2SQUARED := lt_of_lt_of_le (by norm_num) a1
  have b1 : (2081368981005 / 10 ^ 12 : ℚ) ≤ 1 / LN2SQUARED := by rw [le_div_iff₀ h0]; norm_num at a2 ⊢; linarith
  have e := toFloat_err (q := 1 / LN2SQUARED) (tiny_le (k := 0) (by norm_num at b1 ⊢; linarith) (by norm_num))
  rw [abs_le] at e
  have := e.2
  norm_num at this b1 ⊢
  linarith

theorem toFloat_half {q : ℚ} (hq : (2 : ℚ) ^ (-1022 : Int) ≤ q) : q / 2 ≤ toFloat q := by
  have h := toFloat_err hq
  rw [abs_le] at h
  have h0 : (0 : ℚ) < q := lt_of_lt_of_le (by positivity) hq
  have := h.2
  norm_num at this
  linarith

theorem log_bounds {lg : ℚ → ℚ} (hl : LogLike lg) {p : ℚ} (h0 : 0 < p) (h1 : p < 1) (hf : IsFloat p) :
    (1 / 2 ^ 53 : ℝ) ≤ -Real.log p ∧ Btw (1 / 2 ^ 50) (-lg p : ℚ) (-Real.log p) ∧ (1 / 2 ^ 54 : ℚ) ≤ -lg p := by
  have hp : (0 : ℝ) < (p : ℝ) := by exact_mod_cast h0
  have a : (p : ℝ) ≤ 1 - 1 / 2 ^ 53 := by
    have : ((p : ℚ) : ℝ) ≤ ((1 - 1 / 2 ^ 53 : ℚ) : ℝ) := by exact_mod_cast float_lt_one hf h1
    push_cast at this
    exact this
  have b := Real.log_le_sub_one_of_pos hp
  have c : (1 / 2 ^ 53 : ℝ) ≤ -Real.log p := by linarith
  have d := hl p h0
  have c0 : (0 : ℝ) < 1 / 2 ^ 53 := by positivity
  rw [abs_of_nonpos (a := Real.log p) (by linarith), abs_le] at d
  have e : Btw (1 / 2 ^ 50) (-lg p : ℚ) (-Real.log p) := by
    unfold Btw
    push_cast
    constructor <;> linarith [d.1, d.2]
  refine ⟨c, e, ?_⟩
  have e1 := e.1
  have : ((1 / 2 ^ 54 : ℚ) : ℝ) ≤ ((-lg p : ℚ) : ℝ) := by
    push_cast at e1 ⊢
    norm_num at c e1 ⊢
    linarith
  exact_mod_cast this

/-- The number of bytes before rounding. -/
theorem bytes_btw {lg : ℚ → ℚ} (hl : LogLike lg) {n : Int} (hn : 1 ≤ n) {p : ℚ} (h0 : 0 < p) (h1 : p < 1) (hf : IsFloat p) :
    ∃ x : ℚ, 0 ≤ x ∧ filterBytes n (lg p) = ⌊x⌋ ∧ Btw (1 / 10 ^ 9) (x : ℝ) (min (idealBits n p) 288000 / 8) := by
  obtain ⟨l1, l2, l3⟩ := log_bounds hl h0 h1 hf
  have hn1 : (1 : ℚ) ≤ (n : ℚ) := by exact_mod_cast hn
  have hnt : (2 : ℚ) ^ (-1022 : Int) ≤ (n : ℚ) := tiny_le (k := 0) (by simpa using hn1) (by norm_num)
  have hN := toFloat_btw hnt
  have hNh := toFloat_half hnt
  have hfge := factor_ge
  have hft := factor_btw
  set f := toFloat (1 / LN2SQUARED) with hfd
  set N := toFloat (n : ℚ) with hNd
  have u1 : (1 : ℚ) ≤ f * N := by nlinarith
  have ut : (2 : ℚ) ^ (-1022 : Int) ≤ f * N := tiny_le (k := 0) (by simpa using u1) (by norm_num)
  have hu := toFloat_btw ut
  have huh := toFloat_half ut
  set u := toFloat (f * N) with hud
  have a1 : (1 / 2 ^ 55 : ℚ) ≤ u * -lg p := by
    have : (1 / 2 : ℚ) * (1 / 2 ^ 54) ≤ u * -lg p := mul_le_mul (by linarith) l3 (by norm_num) (by linarith)
    norm_num at this ⊢
    linarith
  have at' : (2 : ℚ) ^ (-1022 : Int) ≤ u * -lg p := tiny_le (k := -55) (by norm_num at a1 ⊢; linarith) (by norm_num)
  have ha := toFloat_btw at'
  have hah := toFloat_half at'
  set a := toFloat (u * -lg p) with had
  have b1 : (1 / 2 ^ 59 : ℚ) ≤ min a 288000 / 8 := by
    have : (1 / 2 ^ 56 : ℚ) ≤ min a 288000 := le_min (by norm_num at a1 hah ⊢; linarith) (by norm_num)
    rw [show (1 / 2 ^ 59 : ℚ) = 1 / 2 ^ 56 / 8 by norm_num]
    exact div_le_div_of_nonneg_right this (by norm_num)
  have bt : (2 : ℚ) ^ (-1022 : Int) ≤ min a 288000 / 8 := tiny_le (k := -59) (by norm_num at b1 ⊢; linarith) (by norm_num)
  have hb := toFloat_btw bt
  have hbh := toFloat_half bt
  refine ⟨toFloat (min a 288000 / 8), ?_, ?_, ?_⟩
  · have : (0 : ℚ) ≤ 1 / 2 ^ 59 := by norm_num
    linarith
  · unfold filterBytes truncate
    rw [neg_div, toFloat_neg, ← hfd, ← hNd, neg_mul, toFloat_neg, ← hud, show -u * lg p = u * -lg p by ring, ← had, show (36000 * 8 : ℚ) = 288000 by norm_num, if_pos]
    have : (0 : ℚ) ≤ 1 / 2 ^ 59 := by norm_num
    linarith
  · have n0 : (0 : ℝ) ≤ (n : ℝ) := by exact_mod_cast (by omega : (0 : Int) ≤ n)
    have i0 : (0 : ℝ) ≤ 1 / Real.log 2 ^ 2 := by positivity
    have L0 : (0 : ℝ) ≤ -Real.log p := le_trans (by positivity) l1
    have hN' : Btw (1 / 2 ^ 53) (N : ℝ) (n : ℝ) := by simpa using hN
    have s1 : Btw (91 / 10 ^ 11) ((f * N : ℚ) : ℝ) (1 / Real.log 2 ^ 2 * n) := by
      push_cast
      exact (hft.mul hN' i0 n0 (by norm_num) (by norm_num) (by norm_num) (by norm_num)).mono (mul_nonneg i0 n0) (by norm_num)
    have s2 : Btw (92 / 10 ^ 11) (u : ℝ) (1 / Real.log 2 ^ 2 * n) :=
      (hu.trans s1 (mul_nonneg i0 n0) (by norm_num) (by norm_num) (by norm_num)).mono (mul_nonneg i0 n0) (by norm_num)
    have s3 : Btw (93 / 10 ^ 11) ((u * -lg p : ℚ) : ℝ) (1 / Real.log 2 ^ 2 * n * -Real.log p) := by
      rw [Rat.cast_mul]
      exact (s2.mul l2 (mul_nonneg i0 n0) L0 (by norm_num) (by norm_num) (by norm_num) (by norm_num)).mono (mul_nonneg (mul_nonneg i0 n0) L0) (by norm_num)
    have hI : 1 / Real.log 2 ^ 2 * n * -Real.log p = idealBits n p := by unfold idealBits; ring
    have I0 : 0 ≤ idealBits n p := by rw [← hI]; exact mul_nonneg (mul_nonneg i0 n0) L0
    rw [hI] at s3
    have s4 : Btw (94 / 10 ^ 11) (a : ℝ) (idealBits n p) := (ha.trans s3 I0 (by norm_num) (by norm_num) (by norm_num)).mono I0 (by norm_num)
    have s5 := s4.min (c := 288000) I0 (by norm_num) (by norm_num) (by norm_num)
    have m0 : 0 ≤ min (idealBits n p) 288000 / 8 := div_nonneg (le_min I0 (by norm_num)) (by norm_num)
    have s6 : Btw (94 / 10 ^ 11) ((min a 288000 / 8 : ℚ) : ℝ) (min (idealBits n p) 288000 / 8) := by
      push_cast
      obtain ⟨s51, s52⟩ := s5
      constructor <;> linarith
    exact (hb.trans s6 m0 (by norm_num) (by norm_num) (by norm_num)).mono m0 (by norm_num)

/-- The number of hash functions before rounding. -/
theorem hashes_btw {size : Nat} {n : Int} (hn : 1 ≤ n) (hmax : n ≤ 2 ^ 1000) :
    ∃ x : ℚ, 0 ≤ x ∧ filterHashes size n = ⌊x⌋ ∧ x ≤ 50 ∧ Btw (1 / 10 ^ 9) (x : ℝ) (min (idealHashes size n) 50) := by
  have hn1 : (1 : ℚ) ≤ (n : ℚ) := by exact_mod_cast hn
  rcases Nat.eq_zero_or_pos size with rfl | hs
  · refine ⟨0, le_rfl, ?_, by norm_num, ?_⟩
    · unfold filterHashes truncate
      simp [toFloat_zero]
    · unfold idealHashes Btw
      simp
  · have hs1 : (1 : ℚ) ≤ (size : ℚ) := by exact_mod_cast hs
    have q1 : (2 : ℚ) ^ (-1000 : Int) ≤ ((size * 8 : Nat) : ℚ) / n := by
      rw [le_div_iff₀ (by linarith)]
      have : (n : ℚ) ≤ 2 ^ 1000 := by exact_mod_cast hmax
      have h2 : (2 : ℚ) ^ (-1000 : Int) * 2 ^ 1000 = 1 := by
        rw [← zpow_natCast, ← zpow_add₀ (by norm_num)]; norm_num
      calc (2 : ℚ) ^ (-1000 : Int) * n ≤ (2 : ℚ) ^ (-1000 : Int) * 2 ^ 1000 := by gcongr
        _ = 1 := h2
        _ ≤ ((size * 8 : Nat) : ℚ) := by push_cast; linarith
    have qt := tiny_le q1 (by norm_num)
    have hq := toFloat_btw qt
    have hqh := toFloat_half qt
    set q := ((size * 8 : Nat) : ℚ) / n with hqd
    have hL := LN2_btw
    have c1 : (2 : ℚ) ^ (-1002 : Int) ≤ toFloat q * LN2 := by
      have h1 : (2 : ℚ) ^ (-1001 : Int) ≤ toFloat q := by
        refine le_trans ?_ hqh
        rw [show (-1001 : Int) = -1000 + -1 by norm_num, zpow_add₀ (by norm_num)]
        norm_num1
        linarith
      rw [show (-1002 : Int) = -1001 + -1 by norm_num, zpow_add₀ (by norm_num)]
      refine mul_le_mul h1 ?_ (by norm_num) (le_trans (by positivity) h1)
      refine le_trans ?_ hL.1
      norm_num
    have ct := tiny_le c1 (by norm_num)
    have hc := toFloat_btw ct
    have hch := toFloat_half ct
    have cpos : 0 ≤ toFloat (toFloat q * LN2) := by
      have : (0 : ℚ) < toFloat q * LN2 := lt_of_lt_of_le (by positivity) ct
      linarith
    refine ⟨min (toFloat (toFloat q * LN2)) 50, le_min cpos (by norm_num), ?_, min_le_right _ _, ?_⟩
    · unfold filterHashes truncate
      rw [if_pos (le_min cpos (by norm_num))]
    · have n0 : (0 : ℝ) < (n : ℝ) := by exact_mod_cast (by omega : (0 : Int) < n)
      have q0 : (0 : ℝ) ≤ 8 * size / n := by positivity
      have l0 : (0 : ℝ) ≤ Real.log 2 := le_trans (by norm_num) log2_btw.1
      have hq' : Btw (1 / 2 ^ 53) (toFloat q : ℝ) (8 * size / n) := by
        rw [show (8 * size / n : ℝ) = ((q : ℚ) : ℝ) by rw [hqd]; push_cast; ring]
        exact hq
      have I0 : 0 ≤ idealHashes size n := mul_nonneg q0 l0
      have s1 : Btw (4 / 10 ^ 10) ((toFloat q * LN2 : ℚ) : ℝ) (idealHashes size n) := by
        push_cast
        exact (hq'.mul ln2_near q0 l0 (by norm_num) (by norm_num) (by norm_num) (by norm_num)).mono I0 (by norm_num)
      have s2 : Btw (1 / 10 ^ 9) (toFloat (toFloat q * LN2) : ℝ) (idealHashes size n) :=
        (hc.trans s1 I0 (by norm_num) (by norm_num) (by norm_num)).mono I0 (by norm_num)
      have := s2.min (c := 50) I0 (by norm_num) (by norm_num) (by norm_num)
      push_cast
      exact this

/-- There is such a logarithm. -/
theorem exists_logLike : ∃ lg, LogLike lg := by
  have h : ∀ p : ℚ, 0 < p → ∃ q : ℚ, |(q : ℝ) - Real.log p| ≤ |Real.log p| / 2 ^ 50 := fun p _ => by
    by_cases h0 : Real.log p = 0
    · exact ⟨0, by rw [h0]; simp⟩
    · have : 0 < |Real.log p| / 2 ^ 50 := div_pos (abs_pos.mpr h0) (by norm_num)
      obtain ⟨q, h1, h2⟩ := exists_rat_btwn (show Real.log p - |Real.log p| / 2 ^ 50 < Real.log p by linarith)
      exact ⟨q, by rw [abs_le]; constructor <;> linarith⟩
  choose lg hlg using h
  exact ⟨fun p => if hp : 0 < p then lg p hp else 0, fun p hp => by simp only [dif_pos hp]; exact hlg p hp⟩

theorem roundEven_nonneg {q : ℚ} (h : 0 ≤ q) : 0 ≤ roundEven q := by
  have h1 := Int.lt_floor_add_one q
  have : 0 ≤ ⌊q⌋ := Int.floor_nonneg.mpr h
  unfold roundEven
  simp only
  split_ifs <;> omega

theorem toFloat_nonneg {q : ℚ} (h : 0 ≤ q) : 0 ≤ toFloat q := by
  unfold toFloat
  split
  · exact le_rfl
  · simp only
    have : (0 : ℚ) < 2 ^ (max (Int.log 2 |q|) (-1022) - 52) := by positivity
    exact mul_nonneg (by exact_mod_cast roundEven_nonneg (div_nonneg h this.le)) this.le

theorem toFloat_nonpos {q : ℚ} (h : q ≤ 0) : toFloat q ≤ 0 := by
  have := toFloat_nonneg (q := -q) (by linarith)
  rw [toFloat_neg] at this
  linarith

/-- Rounding does not go beyond a float. -/
theorem toFloat_le {q c : ℚ} (hc : IsFloat c) (h1 : 1 ≤ c) (h : q ≤ c) : toFloat q ≤ c := by
  rcases le_or_gt q 0 with h0 | h0
  · linarith [toFloat_nonpos h0]
  · rcases le_or_gt ((2 : ℚ) ^ (-1022 : Int)) q with ht | ht
    · have := (toFloat_nearest ht).2 c hc
      rw [abs_of_nonpos (show q - c ≤ 0 by linarith)] at this
      have h3 := neg_abs_le (q - toFloat q)
      linarith
    · unfold toFloat
      rw [if_neg h0.ne']
      simp only
      have hlog : Int.log 2 |q| ≤ -1022 := by
        rw [abs_of_pos h0]
        have h4 : (2 : ℚ) ^ Int.log 2 q ≤ q := by exact_mod_cast Int.zpow_log_le_self (b := 2) (by norm_num) h0
        by_contra hcon
        have : (2 : ℚ) ^ (-1022 : Int) ≤ 2 ^ Int.log 2 q := zpow_le_zpow_right₀ (by norm_num) (by omega)
        linarith
      rw [max_eq_right hlog]
      have hu : (0 : ℚ) < 2 ^ (-1022 - 52 : Int) := by positivity
      have he := (abs_le.mp (roundEven_err (q / 2 ^ (-1022 - 52 : Int)))).2
      have h5 : (roundEven (q / 2 ^ (-1022 - 52 : Int)) : ℚ) * 2 ^ (-1022 - 52 : Int) ≤ (1 / 2 + q / 2 ^ (-1022 - 52 : Int)) * 2 ^ (-1022 - 52 : Int) :=
        mul_le_mul_of_nonneg_right (by linarith) hu.le
      rw [add_mul, div_mul_cancel₀ _ hu.ne'] at h5
      have h6 : (2 : ℚ) ^ (-1022 - 52 : Int) ≤ 1 / 2 := by
        rw [show (1 / 2 : ℚ) = 2 ^ (-1 : Int) by norm_num]
        exact zpow_le_zpow_right₀ (by norm_num) (by norm_num)
      have h7 : (2 : ℚ) ^ (-1022 : Int) ≤ 1 / 2 := by
        rw [show (1 / 2 : ℚ) = 2 ^ (-1 : Int) by norm_num]
        exact zpow_le_zpow_right₀ (by norm_num) (by norm_num)
      linarith

theorem truncate_le {q : ℚ} {c : Int} (h : q ≤ c) (hc : 0 ≤ c) : truncate q ≤ c := by
  unfold truncate
  split
  · have := Int.floor_le q
    exact_mod_cast this.trans h
  · rename_i h0
    exact (Int.ceil_le.mpr (by push_cast; linarith : q ≤ ((0 : Int) : ℚ))).trans hc

theorem filterBytes_le (n : Int) (l : ℚ) : filterBytes n l ≤ 36000 := by
  unfold filterBytes
  refine truncate_le ?_ (by norm_num)
  push_cast
  refine toFloat_le ⟨36000, 0, by norm_num, by norm_num, by norm_num⟩ (by norm_num) ?_
  have := min_le_right (toFloat (toFloat (toFloat (-1 / LN2SQUARED) * toFloat n) * l)) (36000 * 8)
  linarith

theorem filterHashes_le (size : Nat) (n : Int) : filterHashes size n ≤ 50 := by
  unfold filterHashes
  exact truncate_le (by push_cast; exact min_le_right _ _) (by norm_num)

theorem filterHashes_zero (n : Int) : filterHashes 0 n = 0 := by
  unfold filterHashes truncate
  simp [toFloat_zero]

/-- With a rate of 1 or more, no byte is asked for. -/
theorem filterBytes_nonpos {n : Int} (hn : 0 ≤ n) {l : ℚ} (hl : 0 ≤ l) : filterBytes n l ≤ 0 := by
  unfold filterBytes
  refine truncate_le ?_ le_rfl
  have hn' : (0 : ℚ) ≤ n := by exact_mod_cast hn
  have h1 : toFloat (-1 / LN2SQUARED) ≤ 0 := by
    rw [neg_div, toFloat_neg]
    linarith [factor_ge]
  have h2 := toFloat_nonpos (mul_nonpos_of_nonpos_of_nonneg h1 (toFloat_nonneg hn'))
  have h3 := toFloat_nonpos (mul_nonpos_of_nonpos_of_nonneg h2 hl)
  push_cast
  refine toFloat_nonpos ?_
  have := min_le_left (toFloat (toFloat (toFloat (-1 / LN2SQUARED) * toFloat n) * l)) (36000 * 8)
  linarith

end Verif.Btc
