import Verif.Lemmas.Script
/-! # Lemmas about numbers in scripts -/
namespace Verif.Btc
open Verif

theorem leBytes_succ : ∀ k n, leBytes (k + 1) n = leBytes k n ++ [BitVec.ofNat 8 (n / 256 ^ k)]
  | 0, n => by
    simp only [leBytes, Nat.pow_zero, Nat.div_one, List.nil_append]
    congr 1
    exact BitVec.eq_of_toNat_eq (by simp)
  | k + 1, n => by
    rw [leBytes, leBytes_succ k (n / 256), leBytes, List.cons_append, Nat.div_div_eq_div_mul, Nat.pow_succ, Nat.mul_comm 256]

theorem bn2binLoop_eq (v : Nat) : ∀ i, bn2binLoop v i = (leBytes i v).reverse
  | 0 => rfl
  | i + 1 => by
    rw [leBytes_succ, List.reverse_append, bn2binLoop, bn2binLoop_eq v i]
    simp only [List.reverse_cons, List.reverse_nil, List.nil_append, List.cons_append, List.cons.injEq, and_true]
    rw [Nat.shiftRight_eq_div_pow, show 2 ^ (i * 8) = 256 ^ i by rw [Nat.mul_comm, Nat.pow_mul]]
    exact BitVec.eq_of_toNat_eq (by simp)

theorem leNat_append : ∀ a b : Bytes, leNat (a ++ b) = leNat a + 256 ^ a.length * leNat b
  | [], b => by simp [leNat]
  | x :: a, b => by
    simp only [List.cons_append, leNat, leNat_append a b, List.length_cons, Nat.pow_succ]
    rw [Nat.mul_add, ← Nat.mul_assoc, Nat.mul_comm 256 (256 ^ a.length)]; omega

theorem bin2bn_aux : ∀ (s : Bytes) (l : Nat), s.foldl (fun l ch => (l <<< 8) ||| ch.toNat) l = l * 256 ^ s.length + leNat s.reverse
  | [], l => by simp [leNat]
  | c :: s, l => by
    rw [List.foldl_cons, bin2bn_aux s, List.reverse_cons, leNat_append, List.length_reverse, List.length_cons]
    rw [← Nat.shiftLeft_add_eq_or_of_lt c.isLt, Nat.shiftLeft_eq, Nat.add_mul]
    simp only [leNat, Nat.mul_zero, Nat.add_zero, Nat.reducePow, Nat.pow_succ]
    rw [Nat.mul_assoc l, Nat.mul_comm 256 (256 ^ s.length), Nat.mul_comm c.toNat]; omega

theorem bin2bn_eq (s : Bytes) : bin2bn s = leNat s.reverse := by simp [bin2bn, bin2bn_aux]

theorem sum_mul_left (c : Nat) (f : Nat → Nat) : ∀ l : List Nat, (l.map fun i => c * f i).sum = c * (l.map f).sum
  | [] => rfl
  | i :: l => by simp only [List.map_cons, List.sum_cons, sum_mul_left c f l, Nat.mul_add]

theorem sum_leNat : ∀ b : Bytes, ((List.range b.length).map fun i => (b.getD i 0).toNat * 256 ^ i).sum = leNat b
  | [] => rfl
  | x :: b => by
    rw [leNat, ← sum_leNat b, List.length_cons, List.range_succ_eq_map]
    simp only [List.map_cons, List.map_map, List.sum_cons, List.getD_cons_zero, Nat.pow_zero, Nat.mul_one]
    congr 1
    rw [← sum_mul_left]
    congr 1
    apply List.map_congr_left
    intro i _
    simp only [Function.comp, List.getD_cons_succ, Nat.succ_eq_add_one, Nat.pow_succ]
    rw [Nat.mul_comm (256 ^ i), ← Nat.mul_assoc, ← Nat.mul_assoc, Nat.mul_comm 256]

theorem numOf_nil : numOf [] = 0 := by decide

theorem numOf_snoc (a : Bytes) (x : Byte) :
    numOf (a ++ [x]) = if x.toNat < 128 then ((leNat a + 256 ^ a.length * x.toNat : Nat) : Int)
      else -((leNat a + 256 ^ a.length * (x.toNat - 128) : Nat) : Int) := by
  have ha := leNat_lt a
  rw [show 2 ^ (8 * a.length) = 256 ^ a.length by rw [Nat.pow_mul]] at ha
  have hp : 0 < 256 ^ a.length := Nat.pow_pos (by omega)
  unfold numOf
  rw [sum_leNat, leNat_append]
  simp only [List.length_append, List.length_cons, List.length_nil, Nat.zero_add, Nat.add_sub_cancel, leNat, Nat.mul_zero, Nat.add_zero]
  generalize 256 ^ a.length = p at *
  by_cases hx : x.toNat < 128
  · have : p * x.toNat ≤ p * 127 := Nat.mul_le_mul_left _ (by omega)
    rw [if_pos hx, if_pos (by omega)]
  · obtain ⟨y, hy⟩ : ∃ y, x.toNat = 128 + y := ⟨x.toNat - 128, by omega⟩
    rw [if_neg hx, hy, Nat.mul_add, if_neg (by omega), Nat.add_sub_cancel_left]
    push_cast
    omega

theorem leNat_mod : ∀ k m, leNat (leBytes k m) = m % 256 ^ k
  | 0, m => by simp [leBytes, leNat, Nat.mod_one]
  | k + 1, m => by
    rw [leBytes, leNat, leNat_mod k, BitVec.toNat_ofNat, show 256 ^ (k + 1) = 256 * 256 ^ k by rw [Nat.pow_succ, Nat.mul_comm], Nat.mod_mul]
    omega

/-- The bytes of a number of which the magnitude is `m`, `k` bytes and a byte with the sign. -/
def signed (k m : Nat) (neg : Bool) : Bytes := leBytes k m ++ [BitVec.ofNat 8 (m / 256 ^ k + if neg then 128 else 0)]

theorem numOf_signed {k m : Nat} {neg : Bool} (h : m < 128 * 256 ^ k) : numOf (signed k m neg) = if neg then -(m : Int) else m := by
  have hp : 0 < 256 ^ k := Nat.pow_pos (by omega)
  have hq : m / 256 ^ k < 128 := Nat.div_lt_of_lt_mul (by rw [Nat.mul_comm]; exact h)
  have e : leNat (leBytes k m) + 256 ^ k * (m / 256 ^ k) = m := by
    rw [leNat_mod]; exact Nat.mod_add_div m _
  rw [signed, numOf_snoc, leBytes_length, BitVec.toNat_ofNat]
  generalize m / 256 ^ k = q at *
  cases neg
  · simp only [Bool.false_eq_true, if_false, Nat.add_zero]
    rw [Nat.mod_eq_of_lt (by omega), if_pos hq, e]
  · simp only [if_true]
    rw [Nat.mod_eq_of_lt (by omega), if_neg (by omega), Nat.add_sub_cancel, e]

/-- The magnitude of what `n` bytes stand for. -/
theorem numOf_bound (b : Bytes) : (numOf b).natAbs < 2 ^ (8 * b.length - 1) := by
  rcases List.eq_nil_or_concat b with rfl | ⟨a, x, rfl⟩
  · simp [numOf_nil]
  · rw [List.concat_eq_append, numOf_snoc]
    have ha := leNat_lt a
    have hx := x.isLt
    rw [show 8 * (a ++ [x]).length - 1 = 7 + 8 * a.length by simp; omega, Nat.pow_add]
    rw [show 256 ^ a.length = 2 ^ (8 * a.length) by rw [Nat.pow_mul]]
    generalize 2 ^ (8 * a.length) = p at *
    split
    · have : p * x.toNat ≤ p * 127 := Nat.mul_le_mul_left _ (by omega)
      omega
    · have : p * (x.toNat - 128) ≤ p * 127 := Nat.mul_le_mul_left _ (by omega)
      omega

theorem bitLength_natAbs (v : Int) : bitLength (v.natAbs : Int) = bitLength v := by
  unfold bitLength
  by_cases h : v = 0
  · subst h; rfl
  · rw [if_neg h, if_neg (by omega), Int.natAbs_natCast]

theorem bitLength_pos {v : Int} (h : v ≠ 0) : 0 < bitLength v := by simp [bitLength, h]

theorem lt_bitLength (v : Int) : v.natAbs < 2 ^ bitLength v := by
  unfold bitLength
  split
  · next h => subst h; simp
  · exact Nat.lt_log2_self

theorem bitLength_le {v : Int} (h : v ≠ 0) : 2 ^ (bitLength v - 1) ≤ v.natAbs := by
  simp only [bitLength, h, if_false, Nat.add_sub_cancel]
  exact Nat.log2_self_le (by omega)

theorem top_lt {v : Int} : v.natAbs < 128 * 256 ^ (bitLength v / 8) := by
  refine Nat.lt_of_lt_of_le (lt_bitLength v) ?_
  rw [show (256 : Nat) = 2 ^ 8 by rfl, ← Nat.pow_mul, show (128 : Nat) = 2 ^ 7 by rfl, ← Nat.pow_add]
  exact Nat.pow_le_pow_right (by omega) (by omega)

theorem or80 {q : Nat} (h : q < 128) : BitVec.ofNat 8 q ||| 0x80#8 = BitVec.ofNat 8 (q + 128) := by
  have : ∀ q : Fin 128, BitVec.ofNat 8 q.1 ||| 0x80#8 = BitVec.ofNat 8 (q.1 + 128) := by decide
  exact this ⟨q, h⟩

theorem packU4 {n : Nat} (h : n < 2 ^ 32) : packU 4 n = .ok (leBytes 4 n) := by
  unfold packU; rw [if_pos (by constructor <;> omega)]; simp

theorem bn2vch_ok {v : Int} (h : v ≠ 0) (hk : bitLength v / 8 + 1 < 2 ^ 32) :
    bn2vch v = .ok (signed (bitLength v / 8) v.natAbs (decide (v < 0))) := by
  have hp := bitLength_pos h
  have ht := top_lt (v := v)
  have hl := lt_bitLength v
  have hd4 : ∀ (n : Nat) (a : Bytes), mpi2vch ((leBytes 4 n).reverse ++ a) = a.reverse := by
    intro n a
    rw [mpi2vch, List.drop_append_of_le_length (by simp [leBytes_length]), List.drop_of_length_le (by simp [leBytes_length]), List.nil_append]
  have h7 : bitLength v &&& 7 = bitLength v % 8 := Nat.and_two_pow_sub_one_eq_mod (bitLength v) 3
  have hb : bnBytes (v.natAbs : Int) (decide (0 < bitLength v) && decide (bitLength v &&& 7 = 0)) = bitLength v / 8 + 1 := by
    rw [bnBytes, bitLength_natAbs, h7]
    by_cases hm : bitLength v % 8 = 0
    · rw [if_pos (by simp [hp, hm])]; omega
    · rw [if_neg (by simp [hm])]; omega
  unfold bn2vch bn2mpi
  simp only [hb, packU4 hk, Except.bind_ok]
  rw [h7, bn2bin, bn2binLoop_eq, bnBytes, bitLength_natAbs]
  simp only [Bool.false_eq_true, if_false, Nat.add_zero]
  generalize hL : bitLength v = L at *
  generalize v.natAbs = m at *
  by_cases hm : L % 8 = 0
  · have e1 : (L + 7) / 8 = L / 8 := by omega
    have e2 : m / 256 ^ (L / 8) = 0 := by
      apply Nat.div_eq_of_lt
      rw [show (256 : Nat) = 2 ^ 8 by rfl, ← Nat.pow_mul, show 8 * (L / 8) = L by omega]; exact hl
    rw [e1, signed, e2]
    by_cases hn : v < 0
    · simp [hn, hm, hp, Except.bind_ok, pure, Except.pure, hd4, List.append_assoc]
    · simp [hn, hm, hp, Except.bind_ok, pure, Except.pure, hd4, List.append_assoc]
  · have e1 : (L + 7) / 8 = L / 8 + 1 := by omega
    have hq : m / 256 ^ (L / 8) < 128 := Nat.div_lt_of_lt_mul (by rw [Nat.mul_comm]; exact ht)
    rw [e1, signed, leBytes_succ (L / 8) m]
    by_cases hn : v < 0
    · simp [hn, hm, setSign, Except.bind_ok, pure, Except.pure, hd4, or80 hq]
    · simp [hn, hm, Except.bind_ok, pure, Except.pure, hd4]

theorem bn2vch_zero : bn2vch 0 = .ok [] := by decide

theorem bn2vch_big {v : Int} (h : v ≠ 0) (hk : ¬ bitLength v / 8 + 1 < 2 ^ 32) : bn2vch v = .error .structError := by
  have hp := bitLength_pos h
  have h7 : bitLength v &&& 7 = bitLength v % 8 := Nat.and_two_pow_sub_one_eq_mod (bitLength v) 3
  have hb : bnBytes (v.natAbs : Int) (decide (0 < bitLength v) && decide (bitLength v &&& 7 = 0)) = bitLength v / 8 + 1 := by
    rw [bnBytes, bitLength_natAbs, h7]
    by_cases hm : bitLength v % 8 = 0
    · rw [if_pos (by simp [hp, hm])]; omega
    · rw [if_neg (by simp [hm])]; omega
  have he : packU 4 ((bitLength v / 8 + 1 : Nat) : Int) = .error .structError := by
    unfold packU; rw [if_neg (by omega)]
  unfold bn2vch bn2mpi
  simp only [hb, he, Except.bind_error]

theorem signed_length (k m : Nat) (neg : Bool) : (signed k m neg).length = k + 1 := by simp [signed, leBytes_length]

theorem leBytes_of_leNat {a : Bytes} {k m : Nat} (ha : a.length = k) (h : leNat a = m % 256 ^ k) : leBytes k m = a := by
  have h2 := leBytes_leNat (leBytes k m)
  rw [leNat_mod, leBytes_length] at h2
  rw [← h2, ← h, ← ha, leBytes_leNat]

theorem numOf_unique {v : Int} (h : v ≠ 0) {b : Bytes} (hb : numOf b = v) (hl : b.length ≤ bitLength v / 8 + 1) :
    b = signed (bitLength v / 8) v.natAbs (decide (v < 0)) := by
  have hbd := numOf_bound b
  rw [hb] at hbd
  have h2 := bitLength_le h
  have h3 : bitLength v - 1 < 8 * b.length - 1 := (Nat.pow_lt_pow_iff_right (by omega)).mp (Nat.lt_of_le_of_lt h2 hbd)
  have hlen : b.length = bitLength v / 8 + 1 := by omega
  rcases List.eq_nil_or_concat b with rfl | ⟨a, x, rfl⟩
  · simp at hlen
  · rw [List.concat_eq_append] at *
    have hk : a.length = bitLength v / 8 := by simpa using hlen
    rw [← hk]
    rw [numOf_snoc] at hb
    have hx := x.isLt
    have ha := leNat_lt a
    rw [show 2 ^ (8 * a.length) = 256 ^ a.length by rw [Nat.pow_mul]] at ha
    have hp : 0 < 256 ^ a.length := Nat.pow_pos (by omega)
    have key : ∀ y : Nat, v.natAbs = leNat a + 256 ^ a.length * y → leBytes a.length v.natAbs = a ∧ v.natAbs / 256 ^ a.length = y := by
      intro y hy
      refine ⟨leBytes_of_leNat rfl ?_, ?_⟩
      · rw [hy, Nat.add_mul_mod_self_left, Nat.mod_eq_of_lt ha]
      · rw [hy, Nat.add_mul_div_left _ _ hp, Nat.div_eq_of_lt ha, Nat.zero_add]
    have hbyte : ∀ n : Nat, x.toNat = n → BitVec.ofNat 8 n = x := fun n hn => by rw [← hn, BitVec.ofNat_toNat, BitVec.setWidth_eq]
    split at hb
    · next hx1 =>
      obtain ⟨k1, k2⟩ := key x.toNat (by omega)
      rw [signed, k1, k2, if_neg (by simp; omega), Nat.add_zero, hbyte _ rfl]
    · next hx1 =>
      obtain ⟨k1, k2⟩ := key (x.toNat - 128) (by omega)
      rw [signed, k1, k2, if_pos (by simp; omega), hbyte _ (by omega)]

theorem vch2bn_eq {b : Bytes} (h : b.length < 2 ^ 32) : vch2bn b = .ok (some (numOf b)) := by
  unfold vch2bn vch2mpi
  simp only [packU4 h, Except.bind_ok, pure, Except.pure]
  unfold mpi2bn
  have hl : (leBytes 4 b.length).reverse.length = 4 := by rw [List.length_reverse, leBytes_length]
  rw [if_neg (by rw [List.length_append, hl]; omega), List.take_append_of_le_length (by omega), List.take_of_length_le (by omega),
    List.reverse_reverse, leNat_leBytes _ _ (by omega), if_neg (by rw [List.length_append, hl, List.length_reverse]; omega),
    List.drop_append_of_le_length (by omega), List.drop_of_length_le (by omega), List.nil_append]
  rcases List.eq_nil_or_concat b with rfl | ⟨a, x, rfl⟩
  · simp [numOf_nil]
  · rw [List.concat_eq_append, List.reverse_append, numOf_snoc]
    simp only [List.reverse_cons, List.reverse_nil, List.nil_append, List.cons_append]
    have hand : ∀ x : Byte, (x &&& 0x80#8 ≠ 0#8 ↔ ¬ x.toNat < 128) ∧ (¬ x.toNat < 128 → (x &&& 0x7f#8).toNat = x.toNat - 128) := by decide
    obtain ⟨h1, h2⟩ := hand x
    by_cases hx : x.toNat < 128
    · rw [if_neg (by rw [h1]; simpa using hx), if_pos hx, bin2bn_eq, List.reverse_cons, List.reverse_reverse, leNat_append]
      simp [leNat]
    · rw [if_pos (by rw [h1]; exact hx), if_neg hx, bin2bn_eq, List.reverse_cons, List.reverse_reverse, leNat_append]
      simp [leNat, h2 hx]

theorem size_iff {v : Int} (h : v ≠ 0) {n : Nat} : v.natAbs < 2 ^ (8 * n - 1) ↔ bitLength v / 8 + 1 ≤ n := by
  have h1 := bitLength_le h
  have h2 := lt_bitLength v
  have h0 := bitLength_pos h
  constructor
  · intro hv
    have := (Nat.pow_lt_pow_iff_right (by omega)).mp (Nat.lt_of_le_of_lt h1 hv)
    omega
  · intro hn
    exact Nat.lt_of_lt_of_le h2 (Nat.pow_le_pow_right (by omega) (by omega))

end Verif.Btc
