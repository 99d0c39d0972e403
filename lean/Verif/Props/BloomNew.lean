import Verif.Lemmas.BloomNew
import Verif.Props.Bloom
/-!
# C135: a new Bloom filter
-/
namespace Verif.Btc
open Verif Bloom Rpc

/-- C135, the claim: a new filter, for any number of elements and any rate of errors between 0 and 1, is within the limits of the protocol
and contains nothing. -/
def C135_statement : Prop := ∀ lg, LogLike lg → ∀ (n : Int) (p : ℚ) (tweak flags : Int), 1 ≤ n → n ≤ 2 ^ 1000 → 0 < p → p < 1 → IsFloat p →
  ∃ f, CBloomFilter.new lg n p tweak flags = .ok f ∧ f.isWithinSizeConstraints = true ∧ ∀ e d, e.data = .ok d → f.contains e = .ok false

/-- C135, what is made: the number of bits is the textbook one, at most 288000, rounded down to bytes; the number of hash functions
is the textbook one for this size, at most 50, rounded down; both up to an error of 10^-9. -/
theorem C135_made_partial {lg : ℚ → ℚ} (hl : LogLike lg) {n : Int} {p : ℚ} (tweak flags : Int) (hn : 1 ≤ n) (hm : n ≤ 2 ^ 1000) (h0 : 0 < p) (h1 : p < 1) (hf : IsFloat p) :
    ∃ (size : Nat) (k : Int), CBloomFilter.new lg n p tweak flags = .ok ⟨List.replicate size 0#8, k, tweak, flags⟩ ∧ size ≤ 36000 ∧ 0 ≤ k ∧ k ≤ 50 ∧
      (8 * size : ℝ) ≤ min (idealBits n p) 288000 * (1 + 1 / 10 ^ 9) ∧ min (idealBits n p) 288000 * (1 - 1 / 10 ^ 9) < 8 * size + 8 ∧
      (k : ℝ) ≤ min (idealHashes size n) 50 * (1 + 1 / 10 ^ 9) ∧ min (idealHashes size n) 50 * (1 - 1 / 10 ^ 9) < k + 1 := by
  obtain ⟨x, hx0, hx, hxb⟩ := bytes_btw hl hn h0 h1 hf
  have hle := filterBytes_le n (lg p)
  have hpos : 0 ≤ filterBytes n (lg p) := by rw [hx]; exact Int.floor_nonneg.mpr hx0
  obtain ⟨size, hs⟩ := Int.eq_ofNat_of_zero_le hpos
  obtain ⟨y, hy0, hy, hy50, hyb⟩ := hashes_btw (size := size) hn hm
  refine ⟨size, filterHashes size n, ?_, by omega, by rw [hy]; exact Int.floor_nonneg.mpr hy0, filterHashes_le _ _, ?_, ?_, ?_⟩
  · unfold CBloomFilter.new mathLog
    rw [if_neg (not_le.mpr h0), Except.bind_ok]
    simp only
    rw [if_neg (by omega), if_neg (by omega), hs]
    rfl
  · have h := hxb.floor.1
    have e : (⌊(x : ℝ)⌋ : ℝ) = size := by rw [Rat.floor_cast, ← hx, hs]; simp
    rw [e] at h
    linarith
  · have h := hxb.floor.2
    have e : (⌊(x : ℝ)⌋ : ℝ) = size := by rw [Rat.floor_cast, ← hx, hs]; simp
    rw [e] at h
    linarith
  · have h := hyb.floor
    rw [Rat.floor_cast, ← hy] at h
    exact h

/-- C135: whatever the arguments, a filter that is made is within the limits of the protocol, has no bit set, and can be used. -/
theorem C135_limits_partial {lg : ℚ → ℚ} {n : Int} {p : ℚ} {tweak flags : Int} {f : CBloomFilter} (h : CBloomFilter.new lg n p tweak flags = .ok f) :
    f.isWithinSizeConstraints = true ∧ (∀ b ∈ f.vData, b = 0#8) ∧ f.Usable ∧ f.nTweak = tweak ∧ f.nFlags = flags := by
  unfold CBloomFilter.new at h
  obtain ⟨l, -, h⟩ := Except.bind_eq_ok h
  simp only at h
  split at h
  · cases h
  split at h
  · cases h
  cases h
  have hle := filterBytes_le n l
  refine ⟨?_, fun b hb => (List.mem_replicate.mp hb).2, ?_, rfl, rfl⟩
  · unfold CBloomFilter.isWithinSizeConstraints
    simp only [List.length_replicate, Bool.and_eq_true, decide_eq_true_eq]
    exact ⟨by omega, filterHashes_le _ _⟩
  · by_cases hs : (filterBytes n l).toNat = 0
    · right
      simp only [hs, filterHashes_zero]
      exact le_rfl
    · left
      intro he
      exact hs (List.replicate_eq_nil_iff _ |>.mp he)

/-- C135, exactly: a new filter contains nothing if it has a hash function, and everything if it has none. -/
theorem C135_contains_partial {lg : ℚ → ℚ} {n : Int} {p : ℚ} {tweak flags : Int} {f : CBloomFilter} (h : CBloomFilter.new lg n p tweak flags = .ok f) {e : Elem} {d : Bytes}
    (he : e.data = .ok d) : f.contains e = .ok (decide (f.nHashFuncs ≤ 0)) := by
  obtain ⟨-, hz, hu, -⟩ := C135_limits_partial h
  by_cases hk : f.nHashFuncs ≤ 0
  · rw [C110_contains hu he, decide_eq_true hk, CBloomFilter.bitsOf, bits, Int.toNat_of_nonpos hk]
    rfl
  · rw [decide_eq_false hk]
    exact C110_empty (hu.resolve_right hk) (by omega) hz he

/-- C135: what is inserted in a new filter is contained in it. -/
theorem C135_inserted_partial {lg : ℚ → ℚ} {n : Int} {p : ℚ} {tweak flags : Int} {f : CBloomFilter} (h : CBloomFilter.new lg n p tweak flags = .ok f) {es : List Elem}
    (hd : ∀ e ∈ es, ∃ d, e.data = .ok d) : ∃ g, insertAll es f = .ok g ∧ ∀ e ∈ es, g.contains e = .ok true := by
  obtain ⟨g, h1, h2, -⟩ := C110_no_false_negatives (C135_limits_partial h).2.2.1 hd
  exact ⟨g, h1, h2⟩

/-- C135: a rate that is not positive is `ValueError`, no elements `ZeroDivisionError`; with a rate of 1 or more, `ValueError`, or a filter
without bytes and hash functions is made. -/
theorem C135_errors_partial {lg : ℚ → ℚ} (hl : LogLike lg) {n : Int} {p : ℚ} (tweak flags : Int) :
    (p ≤ 0 → CBloomFilter.new lg n p tweak flags = .error .valueError) ∧ (0 < p → n = 0 → CBloomFilter.new lg n p tweak flags = .error .other) ∧
    (1 ≤ p → 1 ≤ n → CBloomFilter.new lg n p tweak flags = .error .valueError ∨ CBloomFilter.new lg n p tweak flags = .ok ⟨[], 0, tweak, flags⟩) := by
  refine ⟨fun h => ?_, fun h hn => ?_, fun h hn => ?_⟩
  · unfold CBloomFilter.new mathLog
    rw [if_pos h]
    rfl
  · unfold CBloomFilter.new mathLog
    rw [if_neg (not_le.mpr h), Except.bind_ok, hn]
    have : filterBytes 0 (lg p) = 0 := by
      unfold filterBytes truncate
      simp [toFloat_zero]
    simp only [this]
    rfl
  · have hp : 0 < p := lt_of_lt_of_le (by norm_num) h
    have hlg : 0 ≤ lg p := by
      have hr : (1 : ℝ) ≤ (p : ℝ) := by exact_mod_cast h
      have h1 := Real.log_nonneg hr
      have h2 := hl p hp
      rw [abs_of_nonneg h1, abs_le] at h2
      have : (0 : ℝ) ≤ (lg p : ℝ) := by
        have := h2.1
        norm_num at this
        linarith
      exact_mod_cast this
    have hb := filterBytes_nonpos (n := n) (by omega) hlg
    unfold CBloomFilter.new mathLog
    rw [if_neg (not_le.mpr hp), Except.bind_ok]
    simp only
    by_cases hneg : filterBytes n (lg p) < 0
    · left
      rw [if_pos hneg]
    · right
      have h0 : filterBytes n (lg p) = 0 := by omega
      rw [if_neg hneg, if_neg (by omega), h0]
      simp only [Int.toNat_zero, filterHashes_zero, List.replicate_zero]
      rfl

theorem small_le {n : Int} (h : n ≤ 190000) : n ≤ 2 ^ 1000 :=
  h.trans (le_trans (by norm_num : (190000 : Int) ≤ 2 ^ 18) (pow_le_pow_right₀ (by norm_num) (by norm_num)))

/-- C135: up to 190000 elements and a rate of at most 1/64 are enough: such a filter contains nothing when it is new. -/
theorem C135_ordinary_partial {lg : ℚ → ℚ} (hl : LogLike lg) {n : Int} {p : ℚ} (tweak flags : Int) (hn : 1 ≤ n) (hm : n ≤ 190000) (h0 : 0 < p) (h1 : p ≤ 1 / 64)
    (hf : IsFloat p) : ∃ f, CBloomFilter.new lg n p tweak flags = .ok f ∧ f.isWithinSizeConstraints = true ∧ ∀ e d, e.data = .ok d → f.contains e = .ok false := by
  obtain ⟨size, k, h, -, hk0, -, b1, b2, k1, k2⟩ := C135_made_partial hl tweak flags hn (small_le hm) h0 (by norm_num at h1 ⊢; linarith) hf
  refine ⟨_, h, (C135_limits_partial h).1, fun e d he => ?_⟩
  rw [C135_contains_partial h he]
  congr 1
  refine decide_eq_false ?_
  show ¬ k ≤ 0
  obtain ⟨l1, l2⟩ := log2_btw
  have hp : (0 : ℝ) < (p : ℝ) := by exact_mod_cast h0
  have hlog : 6 * Real.log 2 ≤ -Real.log p := by
    have : (p : ℝ) ≤ ((1 / 64 : ℚ) : ℝ) := by exact_mod_cast h1
    have h2 := Real.log_le_log hp this
    have h3 : Real.log ((1 / 64 : ℚ) : ℝ) = -(6 * Real.log 2) := by
      push_cast
      rw [show (1 / 64 : ℝ) = (2 ^ 6)⁻¹ by norm_num, Real.log_inv, Real.log_pow]
      push_cast
      ring
    linarith
  have hnr : (1 : ℝ) ≤ (n : ℝ) := by exact_mod_cast hn
  have hmr : (n : ℝ) ≤ 190000 := by exact_mod_cast hm
  have l0 : (0 : ℝ) < Real.log 2 := lt_of_lt_of_le (by norm_num) l1
  have hI : 8.65 * (n : ℝ) ≤ idealBits n p := by
    unfold idealBits
    rw [le_div_iff₀ (by positivity)]
    have : 8.65 * Real.log 2 ^ 2 ≤ -Real.log p := by nlinarith
    nlinarith
  have hS : (n : ℝ) * 1.01 ≤ 8 * size * Real.log 2 := by
    rcases le_total (idealBits n p) 288000 with hc | hc
    · rw [min_eq_left hc] at b2
      rcases (by omega : n = 1 ∨ 2 ≤ n) with rfl | hn2
      · have hs : 1 ≤ size := by
          rcases Nat.eq_zero_or_pos size with rfl | hs
          · norm_num at b2 hI
            linarith
          · exact hs
        have hs' : (1 : ℝ) ≤ size := by exact_mod_cast hs
        push_cast
        nlinarith
      · have hn2' : (2 : ℝ) ≤ (n : ℝ) := by exact_mod_cast hn2
        have : 4.6 * (n : ℝ) ≤ 8 * size := by nlinarith
        nlinarith
    · rw [min_eq_right hc] at b2
      have : (287990 : ℝ) ≤ 8 * size := by linarith
      nlinarith
  have hH : 1.01 ≤ idealHashes size n := by
    unfold idealHashes
    rw [div_mul_eq_mul_div, le_div_iff₀ (by linarith)]
    linarith
  have hM : (1.01 : ℝ) ≤ min (idealHashes size n) 50 := le_min hH (by norm_num)
  have : (0 : ℝ) < k := by linarith
  have : 0 < k := by exact_mod_cast this
  omega

/-- C135 is false: a filter for one element and the rate 1/16 has no byte and contains everything. -/
theorem C135_refuted : ¬ C135_statement := fun h => by
  obtain ⟨lg, hl⟩ := exists_logLike
  have hfl : IsFloat (1 / 16) := ⟨1, -4, by norm_num, by norm_num, by norm_num⟩
  obtain ⟨f, e1, -, h2⟩ := h lg hl 1 (1 / 16) 0 0 le_rfl (small_le (by norm_num)) (by norm_num) (by norm_num) hfl
  obtain ⟨size, k, e2, -, hk0, -, b1, -, k1, -⟩ := C135_made_partial hl 0 0 (n := 1) le_rfl (small_le (by norm_num)) (by norm_num) (by norm_num) hfl
  have h3 := h2 (.bytes []) [] rfl
  rw [C135_contains_partial e1 rfl] at h3
  rw [e1] at e2
  cases e2
  have hk : ¬ k ≤ 0 := by
    intro hk
    rw [decide_eq_true (by exact hk)] at h3
    cases h3
  obtain ⟨l1, l2⟩ := log2_btw
  have l0 : (0 : ℝ) < Real.log 2 := lt_of_lt_of_le (by norm_num) l1
  have hI : idealBits 1 (1 / 16) ≤ 6 := by
    unfold idealBits
    rw [show (((1 / 16 : ℚ)) : ℝ) = (2 ^ 4)⁻¹ by push_cast; norm_num, Real.log_inv, Real.log_pow, div_le_iff₀ (by positivity)]
    push_cast
    nlinarith
  have hs : size = 0 := by
    have hm := min_le_left (idealBits 1 (1 / 16)) 288000
    have : (8 * size : ℝ) < 8 := by
      refine lt_of_le_of_lt b1 ?_
      linarith
    have : (size : ℝ) < 1 := by linarith
    have : size < 1 := by exact_mod_cast this
    omega
  subst hs
  have hz : idealHashes 0 1 = 0 := by unfold idealHashes; simp
  rw [hz] at k1
  norm_num at k1
  have : k ≤ 0 := by exact_mod_cast k1
  exact hk this

/-- The filter of the unit test of Bitcoin: three elements, the rate 1/128 (instead of 0.01). -/
example : ∃ lg, LogLike lg ∧ IsFloat (1 / 128) ∧ ∃ f, CBloomFilter.new lg 3 (1 / 128) 0 1 = .ok f ∧ f.contains (.bytes []) = .ok false := by
  obtain ⟨lg, hl⟩ := exists_logLike
  have hfl : IsFloat (1 / 128) := ⟨1, -7, by norm_num, by norm_num, by norm_num⟩
  obtain ⟨f, h1, -, h3⟩ := C135_ordinary_partial hl 0 1 (n := 3) (p := 1 / 128) (by norm_num) (by norm_num) (by norm_num) (by norm_num) hfl
  exact ⟨lg, hl, hfl, f, h1, h3 _ _ rfl⟩

/-- The sizes for three elements and the rate 0.01, whose logarithm is the float below: 3 bytes, 5 hash functions; for one element and the rate 0.1, no byte. -/
example : filterBytes 3 (-4.605170185988091) = 3 ∧ filterHashes 3 3 = 5 ∧ filterBytes 1 (-2.3025850929940455) = 0 ∧ filterHashes 0 1 = 0 := by decide +kernel

end Verif.Btc
