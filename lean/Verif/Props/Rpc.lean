import Verif.Lemmas.Rpc
import Verif.Lemmas.Float
import Verif.Props.SusText
/-! # The proxy for a node (C117-C121) -/
namespace Verif.Rpc
open Verif Btc Sus

/-! ## C117: amounts in responses -/

section
variable {σ : Type} {S : Server σ} {st : PSt σ} {t : σ}

/-- C117: `getbalance` returns the number the node writes, in units of 1/COIN and without a remaining fraction. -/
theorem C117_balance {s acc : Str} {minconf : Int} {neg : Bool} {c : Nat} {e : Int} {j : Json} (h : NumText s neg c e) (hc : c < 10 ^ 20) (he : e ≤ 900000)
    (hj : jsonNumber s = some j) (ha : Answers S st "getbalance" [.str acc, .int minconf] j t) (n : Int) :
    getbalance S acc minconf st = (.ok n, ⟨st.count + 1, t⟩) ↔ IsTrunc (numValue neg c e * 10 ^ 8) n := by
  obtain ⟨j', m, h1, h2, h3⟩ := toSat_of h hc he
  cases hj.symm.trans h1
  unfold getbalance
  rw [RM.bind_ok (call_answers ha)]
  unfold RM.lift
  simp only [h2, Prod.mk.injEq, Except.ok.injEq, and_true]
  exact ⟨fun h => h ▸ h3, fun h => h3.unique h⟩

/-- C117: the same for `getreceivedbyaddress`. -/
theorem C117_received {H : HashFns} {s a : Str} {addr : B58Data} {minconf : Int} {neg : Bool} {c : Nat} {e : Int} {j : Json} (h : NumText s neg c e)
    (hc : c < 10 ^ 20) (he : e ≤ 900000) (hj : jsonNumber s = some j) (hs : strB58 H addr = .ok a)
    (ha : Answers S st "getreceivedbyaddress" [.str a, .int minconf] j t) (n : Int) :
    getreceivedbyaddress S H addr minconf st = (.ok n, ⟨st.count + 1, t⟩) ↔ IsTrunc (numValue neg c e * 10 ^ 8) n := by
  obtain ⟨j', m, h1, h2, h3⟩ := toSat_of h hc he
  cases hj.symm.trans h1
  unfold getreceivedbyaddress
  have hl : (RM.lift (strB58 H addr) : RM σ Str) st = (.ok a, st) := by unfold RM.lift; rw [hs]
  rw [RM.bind_ok hl, RM.bind_ok (call_answers ha)]
  unfold RM.lift
  simp only [h2, Prod.mk.injEq, Except.ok.injEq, and_true]
  exact ⟨fun h => h ▸ h3, fun h => h3.unique h⟩

/-- C117: every number is read, and if it is a whole number of units it is that. -/
theorem C117_whole {s : Str} {neg : Bool} {c : Nat} {e n : Int} (h : NumText s neg c e) (hc : c < 10 ^ 20) (he : e ≤ 900000)
    (hn : numValue neg c e * 10 ^ 8 = n) : ∃ j, jsonNumber s = some j ∧ toSat j = .ok n := by
  obtain ⟨j, m, h1, h2, h3⟩ := toSat_of h hc he
  have : IsTrunc (numValue neg c e * 10 ^ 8) n := by
    rw [hn]
    refine ⟨le_refl _, by simp, mul_self_nonneg _⟩
  rw [h3.unique this] at h2
  exact ⟨j, h1, h2⟩
end

/-! ## C118: amounts in requests -/

theorem small_le {n : Nat} (h1 : 1 ≤ n) : (2 : ℚ) ^ (-900 : Int) ≤ n / 10 ^ 8 := by
  have h : (1 : ℚ) ≤ n := by exact_mod_cast h1
  calc (2 : ℚ) ^ (-900 : Int) ≤ 2 ^ (-27 : Int) := zpow_le_zpow_right₀ (by norm_num) (by norm_num)
    _ ≤ 1 / 10 ^ 8 := by norm_num
    _ ≤ n / 10 ^ 8 := by apply div_le_div_of_nonneg_right h; positivity

theorem floatAmount_eq {n : Nat} (h : n ≤ 21 * 10 ^ 14) : floatAmount n = toFloat (n / 10 ^ 8) := by
  unfold floatAmount COIN
  rw [show ((n : Int) : ℚ) = ((n : ℕ) : ℚ) by push_cast; rfl, toFloat_int (by omega)]
  norm_num

theorem floatAmount_nearest {n : Nat} (h1 : 1 ≤ n) (h : n ≤ 21 * 10 ^ 14) : Nearest (n / 10 ^ 8) (floatAmount n) ∧
    |(n : ℚ) / 10 ^ 8 - floatAmount n| ≤ (n : ℚ) / 10 ^ 8 / 2 ^ 53 ∧ (2 : ℚ) ^ (-1000 : Int) ≤ floatAmount n := by
  have h2 : (2 : ℚ) ^ (-1022 : Int) ≤ n / 10 ^ 8 := le_trans (zpow_le_zpow_right₀ (by norm_num) (by norm_num)) (small_le h1)
  rw [floatAmount_eq h]
  refine ⟨toFloat_nearest h2, toFloat_err h2, ?_⟩
  have h3 := (abs_le.mp (toFloat_err h2)).2
  have h4 : (2 : ℚ) ^ (-900 : Int) = 2 ^ (100 : Int) * 2 ^ (-1000 : Int) := by rw [← zpow_add₀ (by norm_num)]; norm_num
  have h5 := small_le h1
  have h6 : (0 : ℚ) < 2 ^ (-1000 : Int) := by positivity
  rw [h4] at h5
  have h7 : (4 : ℚ) * 2 ^ (-1000 : Int) ≤ n / 10 ^ 8 := by
    refine le_trans ?_ h5
    apply mul_le_mul_of_nonneg_right _ h6.le
    norm_num
  have h8 : (n : ℚ) / 10 ^ 8 / 2 ^ 53 ≤ n / 10 ^ 8 / 2 := by
    apply div_le_div_of_nonneg_left (by positivity) (by norm_num) (by norm_num)
  linarith

/-- Of the numbers with few digits only one is read as the `float` of an amount. -/
theorem few_digits {n c0 z k c : Nat} {e : Int} (hn : n = c0 * 10 ^ z) (h1 : 1 ≤ n) (h2 : n ≤ 21 * 10 ^ 14) (hk : 10 ^ k ≤ c0) (h10 : ¬ 10 ∣ c0)
    (hc : c < 10 ^ (k + 1)) (hr : Nearest (c * (10 : ℚ) ^ e) (floatAmount n)) : (c : ℚ) * (10 : ℚ) ^ e = n / 10 ^ 8 := by
  obtain ⟨g1, g2, g3⟩ := floatAmount_nearest h1 h2
  have hx0 : (0 : ℚ) ≤ c * (10 : ℚ) ^ e := by positivity
  have g4 := hr.err hx0 g3
  -- the two numbers are near each other
  have g5 : |(c : ℚ) * (10 : ℚ) ^ e - n / 10 ^ 8| ≤ 3 * ((n : ℚ) / 10 ^ 8) / 2 ^ 53 := by
    obtain ⟨a1, a2⟩ := abs_le.mp g2
    obtain ⟨b1, b2⟩ := abs_le.mp g4
    have hy : (0 : ℚ) ≤ n / 10 ^ 8 := by positivity
    generalize (c : ℚ) * (10 : ℚ) ^ e = x at *
    generalize (n : ℚ) / 10 ^ 8 = y at *
    generalize floatAmount (n : Int) = f at *
    rw [abs_le]
    norm_num at *
    constructor <;> linarith
  have g6 : |(c : ℚ) * (10 : ℚ) ^ (e + 8) - n| ≤ 3 * (n : ℚ) / 2 ^ 53 := by
    have : (c : ℚ) * (10 : ℚ) ^ (e + 8) - n = (c * (10 : ℚ) ^ e - n / 10 ^ 8) * 10 ^ 8 := by
      rw [zpow_add₀ (by norm_num)]
      norm_num
      ring
    rw [this, abs_mul, abs_of_pos (by positivity : (0 : ℚ) < 10 ^ 8)]
    calc _ ≤ 3 * ((n : ℚ) / 10 ^ 8) / 2 ^ 53 * 10 ^ 8 := mul_le_mul_of_nonneg_right g5 (by positivity)
      _ = _ := by ring
  have h2' : (n : ℚ) ≤ 21 * 10 ^ 14 := by exact_mod_cast h2
  have done : (c : ℚ) * (10 : ℚ) ^ (e + 8) = n → (c : ℚ) * (10 : ℚ) ^ e = n / 10 ^ 8 := by
    intro h
    rw [← h, zpow_add₀ (by norm_num)]
    norm_num
    ring
  by_cases he : 0 ≤ e + 8
  · obtain ⟨m, hm⟩ := Int.eq_ofNat_of_zero_le he
    apply done
    rw [hm] at g6 ⊢
    simp only [Int.ofNat_eq_natCast, zpow_natCast] at g6 ⊢
    have g7 : |((c * 10 ^ m : Nat) : Int) - (n : Int)| < 1 := by
      have : |(c : ℚ) * 10 ^ m - n| < 1 := by
        refine lt_of_le_of_lt g6 ?_
        rw [div_lt_iff₀ (by positivity)]
        norm_num
        linarith
      exact_mod_cast this
    have g8 : c * 10 ^ m = n := by
      have := abs_lt.mp g7
      omega
    exact_mod_cast g8
  · obtain ⟨j, hj⟩ : ∃ j : Nat, e + 8 = -(j : Int) ∧ 1 ≤ j := ⟨(-(e + 8)).toNat, by omega, by omega⟩
    obtain ⟨hj, hj1⟩ := hj
    exfalso
    rw [hj, zpow_neg, zpow_natCast] at g6
    have hp : (0 : ℚ) < 10 ^ j := by positivity
    have g7 : |(c : ℚ) - n * 10 ^ j| ≤ 3 * ((n : ℚ) * 10 ^ j) / 2 ^ 53 := by
      have : (c : ℚ) - n * 10 ^ j = (c * ((10 : ℚ) ^ j)⁻¹ - n) * 10 ^ j := by field_simp
      rw [this, abs_mul, abs_of_pos hp]
      calc _ ≤ 3 * (n : ℚ) / 2 ^ 53 * 10 ^ j := mul_le_mul_of_nonneg_right g6 hp.le
        _ = _ := by ring
    have g8 := (abs_le.mp g7).1
    have hc' : c < 10 * c0 := by
      calc c < 10 ^ (k + 1) := hc
        _ = 10 * 10 ^ k := by ring
        _ ≤ 10 * c0 := by omega
    by_cases hw : z + j = 1
    · have hz : z = 0 := by omega
      have hj' : j = 1 := by omega
      subst hz; subst hj'
      rw [pow_zero, mul_one] at hn
      subst hn
      have e1 : 10 * n < c + 7 := by
        have : (10 : ℚ) * n < c + 7 := by
          norm_num at g8
          linarith
        exact_mod_cast this
      have e2 : n = 10 ^ k := by
        have : (10 : Nat) ^ (k + 1) = 10 * 10 ^ k := by ring
        omega
      have e3 : k = 0 := by
        by_contra hk0
        obtain ⟨i, rfl⟩ := Nat.exists_eq_succ_of_ne_zero hk0
        exact h10 ⟨10 ^ i, by rw [e2, pow_succ]; ring⟩
      subst e3
      have e4 : n = 1 := by rw [e2]; rfl
      subst e4
      have e5 : (c : ℚ) ≤ 9 := by
        have : c ≤ 9 := by omega
        exact_mod_cast this
      norm_num at g8
      linarith
    · have e1 : (10 * c0) * 10 ≤ n * 10 ^ j := by
        rw [hn, mul_assoc c0, ← pow_add]
        have : (10 : Nat) ^ 2 ≤ 10 ^ (z + j) := Nat.pow_le_pow_right (by norm_num) (by omega)
        calc 10 * c0 * 10 = c0 * 10 ^ 2 := by ring
          _ ≤ _ := Nat.mul_le_mul_left _ this
      have e2 : (c : ℚ) * 10 ≤ n * 10 ^ j := by
        have : c * 10 ≤ n * 10 ^ j := by omega
        exact_mod_cast this
      have e3 : (0 : ℚ) < n * 10 ^ j := by
        have : (1 : ℚ) ≤ n := by exact_mod_cast h1
        positivity
      norm_num at g8
      linarith

/-- A number without the zeros at its end, and its number of digits. -/
theorem stripped (n : Nat) (h : 1 ≤ n) : ∃ c0 z k, n = c0 * 10 ^ z ∧ ¬ 10 ∣ c0 ∧ 10 ^ k ≤ c0 ∧ c0 < 10 ^ (k + 1) := by
  obtain ⟨c0, z, h1, h2⟩ : ∃ c0 z, n = c0 * 10 ^ z ∧ ¬ 10 ∣ c0 := by
    induction n using Nat.strong_induction_on with
    | _ n ih =>
      by_cases hd : 10 ∣ n
      · obtain ⟨m, rfl⟩ := hd
        obtain ⟨c0, z, e1, e2⟩ := ih m (by omega) (by omega)
        exact ⟨c0, z + 1, by rw [e1, pow_succ]; ring, e2⟩
      · exact ⟨n, 0, by simp, hd⟩
  have h0 : c0 ≠ 0 := by rintro rfl; exact h2 (by simp)
  exact ⟨c0, z, Nat.log 10 c0, h1, h2, Nat.pow_log_le_self 10 h0, Nat.lt_pow_succ_log_self (by norm_num) c0⟩

theorem stripped_reads {n c0 z : Nat} (hn : n = c0 * 10 ^ z) (h1 : 1 ≤ n) (h2 : n ≤ 21 * 10 ^ 14) :
    Nearest (c0 * (10 : ℚ) ^ ((z : Int) - 8)) (floatAmount n) := by
  have : (c0 : ℚ) * (10 : ℚ) ^ ((z : Int) - 8) = n / 10 ^ 8 := by
    rw [hn, zpow_sub₀ (by norm_num), zpow_natCast]
    push_cast
    norm_num
    ring
  rw [this]
  exact (floatAmount_nearest h1 h2).1

/-- C118: whatever text the JSON encoder may write for the amount of `sendtoaddress`, it stands for exactly this amount. -/
theorem C118_text {n c : Nat} {e : Int} (h : n ≤ 21 * 10 ^ 14) (hs : Shortest (floatAmount n) c e) : (c : ℚ) * (10 : ℚ) ^ e = n / 10 ^ 8 := by
  rcases Nat.eq_zero_or_pos n with rfl | h1
  · have h0 : floatAmount ((0 : Nat) : Int) = 0 := by
      rw [floatAmount_eq h]
      unfold toFloat
      simp
    rw [h0] at hs
    have hz : Nearest (((0 : Nat) : ℚ) * (10 : ℚ) ^ (0 : Int)) 0 := by
      refine ⟨⟨0, 0, by norm_num, by norm_num, by norm_num⟩, ?_⟩
      intro g _
      simp
    have h3 : ∀ k, c < 10 ^ (k + 1) := fun k => hs.short 0 0 hz k (by positivity)
    have h4 := hs.close 0 0 hz (fun k => ⟨fun _ => h3 k, fun _ => by positivity⟩)
    have h5 : |(c : ℚ) * (10 : ℚ) ^ e| ≤ 0 := by simpa using h4
    have h6 : (c : ℚ) * (10 : ℚ) ^ e = 0 := abs_eq_zero.mp (le_antisymm h5 (abs_nonneg _))
    rw [h6]; simp
  · obtain ⟨c0, z, k, e1, e2, e3, e4⟩ := stripped n h1
    exact few_digits e1 h1 h e3 e2 (hs.short c0 _ (stripped_reads e1 h1 h) k e4) hs.reads

/-- C118: there is such a text. -/
theorem C118_exists {n : Nat} (h1 : 1 ≤ n) (h : n ≤ 21 * 10 ^ 14) : ∃ c e, Shortest (floatAmount n) c e := by
  obtain ⟨c0, z, k, e1, e2, e3, e4⟩ := stripped n h1
  have hr := stripped_reads e1 h1 h
  refine ⟨c0, _, hr, ?_, ?_⟩
  · intro c' e' hr' i hi
    by_contra hlt
    push Not at hlt
    have hik : i + 1 ≤ k := by
      by_contra hik
      have : (10 : Nat) ^ (k + 1) ≤ 10 ^ (i + 1) := Nat.pow_le_pow_right (by norm_num) (by omega)
      omega
    have hc' : c' < 10 ^ (k + 1) := lt_of_lt_of_le hi (Nat.pow_le_pow_right (by norm_num) (by omega))
    have hv := few_digits e1 h1 h e3 e2 hc' hr'
    have hv' : (c' : ℚ) * (10 : ℚ) ^ (e' + 8) = n := by
      rw [zpow_add₀ (by norm_num), ← mul_assoc, hv]
      norm_num
    have hlt' : c' < c0 := by omega
    by_cases he : 0 ≤ e' + 8
    · obtain ⟨m, hm⟩ := Int.eq_ofNat_of_zero_le he
      rw [hm] at hv'
      simp only [Int.ofNat_eq_natCast, zpow_natCast] at hv'
      have hv2 : c' * 10 ^ m = c0 * 10 ^ z := by rw [← e1]; exact_mod_cast hv'
      have hzm : z < m := by
        by_contra hzm
        have : (10 : Nat) ^ m ≤ 10 ^ z := Nat.pow_le_pow_right (by norm_num) (by omega)
        have : c' * 10 ^ m < c0 * 10 ^ z := by
          calc c' * 10 ^ m < c0 * 10 ^ m := by apply Nat.mul_lt_mul_of_pos_right hlt'; positivity
            _ ≤ _ := Nat.mul_le_mul_left _ this
        omega
      obtain ⟨d, rfl⟩ : ∃ d, m = z + (d + 1) := ⟨m - z - 1, by omega⟩
      apply e2
      refine ⟨c' * 10 ^ d, ?_⟩
      have hp : (0 : Nat) < 10 ^ z := by positivity
      apply Nat.eq_of_mul_eq_mul_right hp
      rw [← hv2, pow_add, pow_succ]
      ring
    · obtain ⟨j, hj⟩ : ∃ j : Nat, e' + 8 = -(j : Int) := ⟨(-(e' + 8)).toNat, by omega⟩
      rw [hj, zpow_neg, zpow_natCast] at hv'
      have hp : (0 : ℚ) < 10 ^ j := by positivity
      have hv2 : (c' : ℚ) = n * 10 ^ j := by rw [← hv']; field_simp
      have hv3 : c' = n * 10 ^ j := by exact_mod_cast hv2
      have h9 : c0 ≤ c' := by
        rw [hv3, e1, mul_assoc]
        exact Nat.le_mul_of_pos_right _ (by positivity)
      omega
  · intro c' e' hr' hk'
    rw [few_digits e1 h1 h e3 e2 e4 hr, few_digits e1 h1 h e3 e2 ((hk' k).mpr e4) hr']

/-- C118: a node that reads the number as a `float`, multiplies and rounds gets the amount as well. -/
theorem C118_double {n : Nat} (h : n ≤ 21 * 10 ^ 14) : |floatAmount n * 10 ^ 8 - n| < 1 / 2 := by
  rcases Nat.eq_zero_or_pos n with rfl | h1
  · rw [floatAmount_eq h]
    unfold toFloat
    norm_num
  · have g := (floatAmount_nearest h1 h).2.1
    have h2' : (n : ℚ) ≤ 21 * 10 ^ 14 := by exact_mod_cast h
    obtain ⟨a, b⟩ := abs_le.mp g
    rw [abs_lt]
    norm_num at a b ⊢
    constructor <;> linarith

section
variable {σ : Type} {S : Server σ} {st : PSt σ} {t : σ}

/-- C118: this is the number in the one request that `sendtoaddress` makes; its result is the transaction id in the answer. -/
theorem C118_request {H : HashFns} {addr : B58Data} {a r : Str} {n : Nat} {id : Bytes} (hs : strB58 H addr = .ok a)
    (ha : Answers S st "sendtoaddress" [.str a, .flt (floatAmount n)] (.str r) t) (hr : HexText r id.reverse) :
    sendtoaddress S H addr n st = (.ok id, ⟨st.count + 1, t⟩) := by
  unfold sendtoaddress
  rw [RM.bind_ok (RM.lift_ok hs), RM.bind_ok (call_answers ha)]
  exact RM.lift_ok ((C83_txid r id).mpr hr)
end

end Verif.Rpc
