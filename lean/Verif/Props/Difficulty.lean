import Verif.Model.Difficulty
import Verif.Spec.Rpc
import Verif.Lemmas.Float
import Mathlib.Tactic.Linarith
import Mathlib.Tactic.FieldSimp
/-!
# C137: the difficulty of a header
-/
namespace Verif.Btc
open Verif Rpc

theorem normal_le {q : ℚ} {k : Int} (h : (2 : ℚ) ^ k ≤ q) (hk : -1022 ≤ k) : (2 : ℚ) ^ (-1022 : Int) ≤ q :=
  le_trans (zpow_le_zpow_right₀ (by norm_num) hk) h

/-- A power of two does not change the rounding. -/
theorem toFloat_scale {q : ℚ} {k : Int} (h1 : (2 : ℚ) ^ (-1022 : Int) ≤ q) (h2 : (2 : ℚ) ^ (-1022 : Int) ≤ q * 2 ^ k) : toFloat (q * 2 ^ k) = toFloat q * 2 ^ k := by
  obtain ⟨L, -, a1, a2, a3⟩ := toFloat_eq h1
  obtain ⟨M, -, b1, b2, b3⟩ := toFloat_eq h2
  have hk : (0 : ℚ) < 2 ^ k := by positivity
  have c1 : (2 : ℚ) ^ (L + k) ≤ q * 2 ^ k := by rw [zpow_add₀ (by norm_num)]; exact mul_le_mul_of_nonneg_right a1 hk.le
  have c2 : q * 2 ^ k < (2 : ℚ) ^ (L + k + 1) := by
    rw [show L + k + 1 = L + 1 + k by ring, zpow_add₀ (by norm_num)]
    exact mul_lt_mul_of_pos_right a2 hk
  have hM : M = L + k := by
    have d1 := lt_of_le_of_lt b1 c2
    have d2 := lt_of_le_of_lt c1 b2
    rw [zpow_lt_zpow_iff_right₀ (by norm_num)] at d1 d2
    omega
  rw [a3, b3, hM, show L + k - 52 = L - 52 + k by ring, zpow_add₀ (by norm_num)]
  have : q * 2 ^ k / (2 ^ (L - 52) * 2 ^ k) = q / 2 ^ (L - 52) := by field_simp
  rw [this]
  ring

theorem toFloat_idem {q : ℚ} (h : (2 : ℚ) ^ (-1022 : Int) ≤ q) (hf : IsFloat q) : toFloat q = q := by
  have := (toFloat_nearest h).2 q hf
  rw [sub_self, abs_zero, abs_nonpos_iff] at this
  linarith

theorem toFloat_ge {q : ℚ} {k : Int} (hk : -1022 ≤ k) (h : (2 : ℚ) ^ k ≤ q) : (2 : ℚ) ^ k ≤ toFloat q := by
  have hq := normal_le h hk
  have hf : IsFloat ((2 : ℚ) ^ k) := ⟨1, k, by norm_num, by omega, by simp⟩
  have h1 := (toFloat_nearest hq).2 _ hf
  rw [abs_of_nonneg (show 0 ≤ q - 2 ^ k by linarith)] at h1
  have := le_abs_self (q - toFloat q)
  linarith

theorem diffUp_eq : ∀ (k : Nat) {d : ℚ}, (2 : ℚ) ^ (-1022 : Int) ≤ d → toFloat d = d → diffUp k d = d * 256 ^ k
  | 0, d, _, _ => by simp [diffUp]
  | k + 1, d, h, hd => by
    have h8 : d * 256 = d * (2 : ℚ) ^ (8 : Int) := by norm_num
    have hp : (0 : ℚ) < d := lt_of_lt_of_le (by positivity) h
    have h' : (2 : ℚ) ^ (-1022 : Int) ≤ d * 256 := by linarith
    have e : toFloat (d * 256) = d * 256 := by rw [h8, toFloat_scale h (by rw [← h8]; exact h'), hd]
    rw [diffUp, e, diffUp_eq k h' e]
    ring

theorem diffDown_eq : ∀ (k : Nat) {d : ℚ}, (2 : ℚ) ^ (-1022 : Int) ≤ d / 256 ^ k → (2 : ℚ) ^ (-1022 : Int) ≤ d → toFloat d = d → diffDown k d = d / 256 ^ k
  | 0, d, _, _, _ => by simp [diffDown]
  | k + 1, d, h, hn, hd => by
    have h8 : d / 256 = d * (2 : ℚ) ^ (-8 : Int) := by rw [zpow_neg, div_eq_mul_inv]; norm_num
    have hp : (0 : ℚ) < d := lt_of_lt_of_le (by positivity) hn
    have e1 : d / 256 ^ (k + 1) = d / 256 / 256 ^ k := by rw [pow_succ]; field_simp
    have h' : (2 : ℚ) ^ (-1022 : Int) ≤ d / 256 := by
      refine h.trans ?_
      rw [e1]
      exact div_le_self (by positivity) (one_le_pow₀ (by norm_num))
    have e : toFloat (d / 256) = d / 256 := by rw [h8, toFloat_scale hn (by rw [← h8]; exact h'), hd]
    rw [diffDown, e, diffDown_eq k (by rw [← e1]; exact h) h' e, e1]

/-- The parts of a compact number. -/
theorem compact_parts {nBits t : Nat} (h : uint256FromCompact nBits = .ok t) :
    ∃ m s, (nBits &&& 0x00ffffff) = m ∧ (nBits >>> 24) &&& 0xff = s ∧ m < 2 ^ 24 ∧ 3 ≤ s ∧ t = m * 2 ^ (8 * (s - 3)) := by
  unfold uint256FromCompact at h
  simp only at h
  split at h
  · cases h
  · cases h
    refine ⟨_, _, rfl, rfl, ?_, by omega, Nat.shiftLeft_eq _ _⟩
    exact Nat.lt_of_le_of_lt Nat.and_le_right (by norm_num)

/-- What the difficulty is meant to be: the ratio of the largest target to this one. -/
def trueDifficulty (t : Nat) : ℚ := (0xffff * 2 ^ 208 : Nat) / t

theorem calc_eq {nBits t : Nat} (h : uint256FromCompact nBits = .ok t) (h0 : 0 < t) (h1 : t < 2 ^ 256) :
    (2 : ℚ) ^ (-40 : Int) ≤ trueDifficulty t ∧ calcDifficulty nBits = .ok (toFloat (trueDifficulty t)) := by
  obtain ⟨m, s, hm, hs, hm24, hs3, ht⟩ := compact_parts h
  have hm0 : 0 < m := Nat.pos_of_ne_zero fun e => by rw [e, Nat.zero_mul] at ht; omega
  have hs34 : s ≤ 34 := by
    by_contra hc
    have h2 : 2 ^ 256 ≤ 2 ^ (8 * (s - 3)) := Nat.pow_le_pow_right (by norm_num) (by omega)
    have h3 : 2 ^ (8 * (s - 3)) ≤ t := by rw [ht]; exact Nat.le_mul_of_pos_left _ hm0
    omega
  have hmq : (0 : ℚ) < m := by exact_mod_cast hm0
  have hm2 : (m : ℚ) ≤ 2 ^ 24 := by exact_mod_cast hm24.le
  have htq : (0 : ℚ) < t := by exact_mod_cast h0
  have hb : (2 : ℚ) ^ (-40 : Int) ≤ trueDifficulty t := by
    unfold trueDifficulty
    rw [le_div_iff₀ htq]
    have : (t : ℚ) ≤ 2 ^ 256 := by exact_mod_cast h1.le
    calc (2 : ℚ) ^ (-40 : Int) * t ≤ 2 ^ (-40 : Int) * 2 ^ 256 := by gcongr
      _ ≤ _ := by push_cast; norm_num
  refine ⟨hb, ?_⟩
  have hr : ((65535 : Nat) : ℚ) / m * 2 ^ ((232 : Int) - 8 * s) = trueDifficulty t := by
    unfold trueDifficulty
    rw [ht]
    push_cast
    rw [show (232 : Int) - 8 * s = 208 - ((8 * (s - 3) : Nat) : Int) by omega, zpow_sub₀ (by norm_num), zpow_natCast]
    have : (2 : ℚ) ^ (208 : Int) = 2 ^ 208 := by norm_cast
    rw [this]
    field_simp
    norm_num
  have hq0 : (2 : ℚ) ^ (-24 : Int) ≤ ((65535 : Nat) : ℚ) / m := by
    rw [le_div_iff₀ hmq]
    calc (2 : ℚ) ^ (-24 : Int) * m ≤ 2 ^ (-24 : Int) * 2 ^ 24 := by gcongr
      _ ≤ _ := by norm_num
  have hqn := normal_le hq0 (by norm_num)
  set x := toFloat (((65535 : Nat) : ℚ) / m) with hx
  have hx0 : (2 : ℚ) ^ (-24 : Int) ≤ x := toFloat_ge (by norm_num) hq0
  have hxn := normal_le hx0 (by norm_num)
  have hxi : toFloat x = x := toFloat_idem hxn (toFloat_isFloat hqn)
  have hfin : toFloat (trueDifficulty t) = x * 2 ^ ((232 : Int) - 8 * s) := by
    rw [← hr, toFloat_scale hqn (by rw [hr]; exact normal_le hb (by norm_num))]
  unfold calcDifficulty
  simp only [hm, hs]
  rw [if_neg hm0.ne', toFloat_int (n := 0x0000ffff) (by norm_num), toFloat_int (n := m) (lt_trans hm24 (by norm_num)), ← hx, hfin]
  congr 1
  rcases Nat.le_total s 29 with hle | hle
  · rw [show s - 29 = 0 by omega, diffDown, diffUp_eq _ hxn hxi]
    congr 1
    rw [show (232 : Int) - 8 * s = ((8 * (29 - s) : Nat) : Int) by omega, zpow_natCast, pow_mul]
    norm_num
  · rw [show 29 - s = 0 by omega, diffUp]
    have e : x / 256 ^ (s - 29) = x * 2 ^ ((232 : Int) - 8 * s) := by
      rw [show (232 : Int) - 8 * s = -((8 * (s - 29) : Nat) : Int) by omega, zpow_neg, zpow_natCast, pow_mul]
      norm_num
      rfl
    rw [diffDown_eq _ ?_ hxn hxi, e]
    rw [e, ← hfin]
    exact normal_le (toFloat_ge (by norm_num) hb) (by norm_num)

/-- C137: the difficulty of a header with a target below 2^256 is the float nearest to the ratio of the largest target, 0xffff·2^208, to its target. -/
theorem C137_nearest {nBits t : Nat} (h : uint256FromCompact nBits = .ok t) (h0 : 0 < t) (h1 : t < 2 ^ 256) :
    ∃ d, calcDifficulty nBits = .ok d ∧ Nearest (trueDifficulty t) d ∧ 0 < d := by
  obtain ⟨a, b⟩ := calc_eq h h0 h1
  exact ⟨_, b, toFloat_nearest (normal_le a (by norm_num)), lt_of_lt_of_le (by positivity) (toFloat_ge (by norm_num) a)⟩

/-- Targets differ by at least one part in 2^24. -/
theorem targets_apart {n1 n2 t1 t2 : Nat} (h1 : uint256FromCompact n1 = .ok t1) (h2 : uint256FromCompact n2 = .ok t2) (hlt : t1 < t2) : t1 * (2 ^ 24 + 1) ≤ t2 * 2 ^ 24 := by
  obtain ⟨m1, s1, -, -, a1, -, rfl⟩ := compact_parts h1
  obtain ⟨m2, s2, -, -, a2, -, rfl⟩ := compact_parts h2
  generalize 8 * (s1 - 3) = i at *
  generalize 8 * (s2 - 3) = j at *
  rcases Nat.le_total i j with hij | hij
  · obtain ⟨k, rfl⟩ := Nat.exists_eq_add_of_le hij
    have e : m2 * 2 ^ (i + k) = m2 * 2 ^ k * 2 ^ i := by ring
    rw [e] at hlt ⊢
    have : m1 < m2 * 2 ^ k := Nat.lt_of_mul_lt_mul_right hlt
    have h5 : m1 * (2 ^ 24 + 1) ≤ m2 * 2 ^ k * 2 ^ 24 := by omega
    calc m1 * 2 ^ i * (2 ^ 24 + 1) = m1 * (2 ^ 24 + 1) * 2 ^ i := by ring
      _ ≤ m2 * 2 ^ k * 2 ^ 24 * 2 ^ i := Nat.mul_le_mul_right _ h5
      _ = m2 * 2 ^ k * 2 ^ i * 2 ^ 24 := by ring
  · obtain ⟨k, rfl⟩ := Nat.exists_eq_add_of_le hij
    have e : m1 * 2 ^ (j + k) = m1 * 2 ^ k * 2 ^ j := by ring
    rw [e] at hlt ⊢
    have : m1 * 2 ^ k < m2 := Nat.lt_of_mul_lt_mul_right hlt
    have h5 : m1 * 2 ^ k * (2 ^ 24 + 1) ≤ m2 * 2 ^ 24 := by
      have : m1 * 2 ^ k * (2 ^ 24 + 1) = m1 * 2 ^ k * 2 ^ 24 + m1 * 2 ^ k := by ring
      omega
    calc m1 * 2 ^ k * 2 ^ j * (2 ^ 24 + 1) = m1 * 2 ^ k * (2 ^ 24 + 1) * 2 ^ j := by ring
      _ ≤ m2 * 2 ^ 24 * 2 ^ j := Nat.mul_le_mul_right _ h5
      _ = m2 * 2 ^ j * 2 ^ 24 := by ring

theorem difficulty_lt {n1 n2 t1 t2 : Nat} {d1 d2 : ℚ} (h1 : uint256FromCompact n1 = .ok t1) (h2 : uint256FromCompact n2 = .ok t2) (p1 : 0 < t1)
    (q2 : t2 < 2 ^ 256) (e1 : calcDifficulty n1 = .ok d1) (e2 : calcDifficulty n2 = .ok d2) (hlt : t1 < t2) : d2 < d1 := by
  obtain ⟨a1, b1⟩ := calc_eq h1 p1 (hlt.trans q2)
  obtain ⟨a2, b2⟩ := calc_eq h2 (p1.trans hlt) q2
  rw [b1] at e1
  rw [b2] at e2
  cases e1
  cases e2
  have c1 := (abs_le.mp (toFloat_err (normal_le a1 (by norm_num)))).2
  have c2 := (abs_le.mp (toFloat_err (normal_le a2 (by norm_num)))).1
  have hg : trueDifficulty t2 * (2 ^ 24 + 1) ≤ trueDifficulty t1 * 2 ^ 24 := by
    have hap := targets_apart h1 h2 hlt
    have hap' : (t1 : ℚ) * (2 ^ 24 + 1) ≤ t2 * 2 ^ 24 := by exact_mod_cast hap
    have p1' : (0 : ℚ) < t1 := by exact_mod_cast p1
    have p2' : (0 : ℚ) < t2 := by exact_mod_cast p1.trans hlt
    unfold trueDifficulty
    rw [div_mul_eq_mul_div, div_mul_eq_mul_div, div_le_div_iff₀ p2' p1']
    have hc : (0 : ℚ) ≤ ((0xffff * 2 ^ 208 : Nat) : ℚ) := by positivity
    generalize ((0xffff * 2 ^ 208 : Nat) : ℚ) = c at hc ⊢
    nlinarith
  have pos : (0 : ℚ) < trueDifficulty t2 := lt_of_lt_of_le (by positivity) a2
  norm_num at c1 c2 hg ⊢
  linarith

/-- C137: the difficulty orders headers as their targets do, the smaller the target the higher. -/
theorem C137_order {n1 n2 t1 t2 : Nat} {d1 d2 : ℚ} (h1 : uint256FromCompact n1 = .ok t1) (h2 : uint256FromCompact n2 = .ok t2) (p1 : 0 < t1) (p2 : 0 < t2)
    (q1 : t1 < 2 ^ 256) (q2 : t2 < 2 ^ 256) (e1 : calcDifficulty n1 = .ok d1) (e2 : calcDifficulty n2 = .ok d2) : (d2 < d1 ↔ t1 < t2) ∧ (d1 = d2 ↔ t1 = t2) := by
  have eq : t1 = t2 → d1 = d2 := by
    rintro rfl
    rw [(calc_eq h1 p1 q1).2] at e1
    rw [(calc_eq h2 p1 q1).2] at e2
    cases e1
    cases e2
    rfl
  rcases Nat.lt_trichotomy t1 t2 with hlt | he | hlt
  · have := difficulty_lt h1 h2 p1 q2 e1 e2 hlt
    exact ⟨iff_of_true this hlt, iff_of_false this.ne' hlt.ne⟩
  · have := eq he
    exact ⟨iff_of_false (by rw [this]; exact lt_irrefl _) (by omega), iff_of_true this he⟩
  · have := difficulty_lt h2 h1 p2 q1 e2 e1 hlt
    exact ⟨iff_of_false (not_lt.mpr this.le) (by omega), iff_of_false this.ne (by omega)⟩

/-- C137: it fails exactly if the 24 low bits are 0, that is, if the target is 0 where there is one. -/
theorem C137_fails (nBits : Nat) : (∃ e, calcDifficulty nBits = .error e) ↔ nBits % 2 ^ 24 = 0 := by
  have hm : nBits &&& 0x00ffffff = nBits % 2 ^ 24 := Nat.and_two_pow_sub_one_eq_mod nBits 24
  unfold calcDifficulty
  simp only [hm]
  split
  · exact iff_of_true ⟨_, rfl⟩ (by assumption)
  · exact iff_of_false (by rintro ⟨e, h⟩; cases h) (by assumption)

/-- The first block has difficulty 1; the block of July 2014 in the documentation of Bitcoin, 16307.42. -/
example : calcDifficulty 0x1d00ffff = .ok 1 ∧ uint256FromCompact 0x1d00ffff = .ok (0xffff * 2 ^ 208) := by decide +kernel
example : ∃ d, calcDifficulty 0x1b0404cb = .ok d ∧ 16307.42093852 < d ∧ d < 16307.42093853 := ⟨_, rfl, by decide +kernel, by decide +kernel⟩

end Verif.Btc
