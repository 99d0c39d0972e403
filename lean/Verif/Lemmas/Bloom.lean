import Verif.Model.Bloom
import Verif.Spec.Bloom
import Verif.Lemmas.Btc
import Verif.Lemmas.Bits
/-!
# MurmurHash3 and Bloom filters: lemmas
-/
namespace Verif.Btc
open Verif Murmur

theorem mask32 (x : Nat) : x &&& 0xFFFFFFFF = x % 2 ^ 32 := Nat.and_two_pow_sub_one_eq_mod x 32

theorem word_le (x : Word) : x.toNat ≤ 0xFFFFFFFF := Nat.le_of_lt_succ x.isLt

theorem rotl32_eq (x : Word) (r : Nat) (hr : r < 32) : rotl32 x.toNat r = .ok (x.rotateLeft r).toNat := by
  unfold rotl32
  rw [decide_eq_true (word_le x)]
  show Except.ok _ = _
  rw [mask32, BitVec.toNat_rotateLeft, Nat.mod_eq_of_lt hr]

theorem mulMask (x c : Word) : (x.toNat * c.toNat) &&& 0xFFFFFFFF = (x * c).toNat := by rw [mask32, BitVec.toNat_mul]

theorem murmurK_eq (k : Word) : murmurK k.toNat = .ok (mix k).toNat := by
  unfold murmurK
  show (do let k1 ← rotl32 ((k.toNat * (0xcc9e2d51#32).toNat) &&& 0xFFFFFFFF) 15; _ : Py Nat) = _
  rw [mulMask, rotl32_eq _ _ (by decide), Except.bind_ok]
  show Except.ok ((_ * (0x1b873593#32).toNat) &&& 0xFFFFFFFF) = _
  rw [mulMask]
  rfl

theorem mix_zero : mix 0#32 = 0#32 := by simp [mix, BitVec.rotateLeft, BitVec.rotateLeftAux]

theorem word_toNat (a b c d : Byte) : (word a b c d).toNat = leNat [a, b, c, d] := by
  unfold word
  rw [BitVec.toNat_append, BitVec.toNat_append, BitVec.toNat_append]
  simp only [leNat]
  have ha := a.isLt; have hb := b.isLt; have hc := c.isLt
  rw [Nat.shiftLeft_eq, Nat.shiftLeft_eq, Nat.shiftLeft_eq]
  have e1 : d.toNat * 2 ^ 8 ||| c.toNat = d.toNat * 2 ^ 8 + c.toNat := by rw [Nat.mul_comm, Nat.two_pow_add_eq_or_of_lt hc]
  rw [e1]
  have e2 : (d.toNat * 2 ^ 8 + c.toNat) * 2 ^ 8 ||| b.toNat = (d.toNat * 2 ^ 8 + c.toNat) * 2 ^ 8 + b.toNat := by rw [Nat.mul_comm _ (2 ^ 8), Nat.two_pow_add_eq_or_of_lt hb]
  rw [e2, Nat.mul_comm _ (2 ^ 8), ← Nat.two_pow_add_eq_or_of_lt ha]
  omega

theorem blocks_cons (h : Word) (a b c d : Byte) (r : Bytes) : blocks h (a :: b :: c :: d :: r) = blocks (Murmur.body h (word a b c d)) r := by
  conv => lhs; unfold blocks

theorem blocks_three (h : Word) (a b c : Byte) : blocks h [a, b, c] = h ^^^ mix (word a b c 0#8) := by
  conv => lhs; unfold blocks

theorem blocks_two (h : Word) (a b : Byte) : blocks h [a, b] = h ^^^ mix (word a b 0#8 0#8) := by
  conv => lhs; unfold blocks

theorem blocks_one (h : Word) (a : Byte) : blocks h [a] = h ^^^ mix (word a 0#8 0#8 0#8) := by
  conv => lhs; unfold blocks

theorem blocks_nil (h : Word) : blocks h [] = h := by
  conv => lhs; unfold blocks

/-- The loop goes through the blocks; what is left of the blocks is the tail. -/
theorem murmurLoop_eq (data : Bytes) : ∀ (rest pre : Bytes) (fuel : Nat) (h : Word), data = pre ++ rest → pre.length % 4 = 0 → rest.length < fuel →
    ∃ (h' : Word) (pre' tail : Bytes), data = pre' ++ tail ∧ pre'.length % 4 = 0 ∧ tail.length < 4 ∧ murmurLoop data fuel pre.length h.toNat = .ok h'.toNat ∧
      blocks h rest = blocks h' tail
  | a :: b :: c :: d :: rest, pre, fuel + 1, h, hd, hp, hf => by
    have hl := congrArg List.length hd
    simp only [List.length_append, List.length_cons] at hl hf
    obtain ⟨h', pre', tail, h1, h2, h3, h4, h5⟩ := murmurLoop_eq data rest (pre ++ [a, b, c, d]) fuel (Murmur.body h (word a b c d)) (by rw [hd]; simp)
      (by simp only [List.length_append, List.length_cons, List.length_nil]; omega) (by omega)
    refine ⟨h', pre', tail, h1, h2, h3, ?_, (blocks_cons ..).trans h5⟩
    rw [murmurLoop, if_pos (by omega)]
    have hk : (data.drop pre.length).take 4 = [a, b, c, d] := by rw [hd, List.drop_left]; rfl
    rw [hk, ← word_toNat, murmurK_eq, Except.bind_ok]
    show (do let h1 ← rotl32 (h.toNat ^^^ (mix (word a b c d)).toNat) 13; _ : Py Nat) = _
    rw [← BitVec.toNat_xor, rotl32_eq _ _ (by decide), Except.bind_ok]
    show murmurLoop data fuel (pre.length + 4) ((((_ * (5#32).toNat) &&& 0xFFFFFFFF) + (0xe6546b64#32).toNat) &&& 0xFFFFFFFF) = _
    rw [mulMask, mask32, ← BitVec.toNat_add]
    rw [List.length_append] at h4
    exact h4
  | [], pre, fuel + 1, h, hd, hp, hf => by
    have hl := congrArg List.length hd
    simp only [List.length_append, List.length_nil] at hl
    exact ⟨h, pre, [], hd, hp, by decide, by rw [murmurLoop, if_neg (by omega)]; rfl, rfl⟩
  | [a], pre, fuel + 1, h, hd, hp, hf => by
    have hl := congrArg List.length hd
    simp only [List.length_append, List.length_cons, List.length_nil] at hl
    exact ⟨h, pre, [a], hd, hp, by simp, by rw [murmurLoop, if_neg (by omega)]; rfl, rfl⟩
  | [a, b], pre, fuel + 1, h, hd, hp, hf => by
    have hl := congrArg List.length hd
    simp only [List.length_append, List.length_cons, List.length_nil] at hl
    exact ⟨h, pre, [a, b], hd, hp, by simp, by rw [murmurLoop, if_neg (by omega)]; rfl, rfl⟩
  | [a, b, c], pre, fuel + 1, h, hd, hp, hf => by
    have hl := congrArg List.length hd
    simp only [List.length_append, List.length_cons, List.length_nil] at hl
    exact ⟨h, pre, [a, b, c], hd, hp, by simp, by rw [murmurLoop, if_neg (by omega)]; rfl, rfl⟩

theorem byteAt_eq {pre tail : Bytes} {b : Byte} {i : Nat} (h : tail[i]? = some b) : byteAt (pre ++ tail) (pre.length + i) = .ok b.toNat := by
  unfold byteAt
  rw [List.getElem?_append_right (by omega), Nat.add_sub_cancel_left, h]

theorem mod4 (n : Nat) : n &&& 3 = n % 4 := Nat.and_two_pow_sub_one_eq_mod n 2

/-- The tail word, zero if nothing is left. -/
def tailWord : Bytes → Word
  | [a, b, c] => word a b c 0#8
  | [a, b] => word a b 0#8 0#8
  | [a] => word a 0#8 0#8 0#8
  | _ => 0#32

theorem xor3 (a b c : Byte) : ((0 ^^^ (c.toNat <<< 16)) ^^^ (b.toNat <<< 8)) ^^^ a.toNat = leNat [a, b, c, 0#8] := by
  rw [← word_toNat]
  have : (word a b c 0#8).toNat = ((c.zeroExtend 32 <<< 16) ^^^ (b.zeroExtend 32 <<< 8) ^^^ a.zeroExtend 32 : BitVec 32).toNat := by
    congr 1
    unfold word
    apply BitVec.eq_of_getLsbD_eq
    intro i hi
    simp only [BitVec.getLsbD_append, BitVec.getLsbD_xor, BitVec.getLsbD_shiftLeft, BitVec.getLsbD_setWidth]
    by_cases h1 : i < 8
    · have : i < 16 := by omega
      simp [h1, this, hi]
    · by_cases h2 : i < 16
      · have : i - 8 < 8 := by omega
        have e : a.getLsbD i = false := BitVec.getLsbD_of_ge _ _ (by omega)
        have : i - 8 < 32 := by omega
        simp [h1, h2, hi, e, *]
      · have e : a.getLsbD i = false := BitVec.getLsbD_of_ge _ _ (by omega)
        have e2 : b.getLsbD (i - 8) = false := BitVec.getLsbD_of_ge _ _ (by omega)
        have h3 : ¬ i - 8 < 8 := by omega
        have h5 : i - 16 < 32 := by omega
        have h6 : i - 8 - 8 = i - 16 := by omega
        by_cases h4 : i - 16 < 8
        · have : i - 8 - 8 < 8 := by omega
          simp [h1, h2, hi, e, e2, h3, h5, h6, h4]
        · have e3 : c.getLsbD (i - 16) = false := BitVec.getLsbD_of_ge _ _ (by omega)
          simp [h1, h2, hi, e, e2, h3, h5, h6, h4, e3]
  rw [this]
  have ha := a.isLt; have hb := b.isLt; have hc := c.isLt
  rw [BitVec.toNat_xor, BitVec.toNat_xor, BitVec.toNat_shiftLeft, BitVec.toNat_shiftLeft]
  simp only [BitVec.truncate_eq_setWidth, BitVec.toNat_setWidth]
  rw [Nat.mod_eq_of_lt (a := a.toNat) (by omega), Nat.mod_eq_of_lt (a := b.toNat) (by omega), Nat.mod_eq_of_lt (a := c.toNat) (by omega),
    Nat.mod_eq_of_lt (by rw [Nat.shiftLeft_eq]; omega), Nat.mod_eq_of_lt (by rw [Nat.shiftLeft_eq]; omega), Nat.zero_xor]

theorem murmurTail_eq {data pre tail : Bytes} (hd : data = pre ++ tail) (hp : pre.length % 4 = 0) (ht : tail.length < 4) : murmurTail data = .ok (tailWord tail).toNat := by
  subst hd
  have hj : (pre ++ tail).length / 4 * 4 = pre.length := by rw [List.length_append]; omega
  have hm : (pre ++ tail).length &&& 3 = tail.length := by rw [mod4, List.length_append]; omega
  unfold murmurTail
  simp only [hj, hm]
  match tail, ht with
  | [], _ => rfl
  | [a], _ =>
    have h0 : byteAt (pre ++ [a]) pre.length = .ok a.toNat := byteAt_eq (i := 0) rfl
    rw [h0]
    show Except.ok ((0 ^^^ a.toNat) &&& 0xFFFFFFFF) = _
    have := xor3 a 0#8 0#8
    have e : tailWord [a] = word a 0#8 0#8 0#8 := rfl
    rw [e, word_toNat, ← this, mask32, Nat.mod_eq_of_lt]
    · simp
    · have := a.isLt
      rw [Nat.zero_xor]
      omega
  | [a, b], _ =>
    have h0 : byteAt (pre ++ [a, b]) pre.length = .ok a.toNat := byteAt_eq (i := 0) rfl
    have h1 : byteAt (pre ++ [a, b]) (pre.length + 1) = .ok b.toNat := byteAt_eq (i := 1) rfl
    rw [h0, h1]
    show Except.ok (((0 ^^^ (b.toNat <<< 8)) ^^^ a.toNat) &&& 0xFFFFFFFF) = _
    have := xor3 a b 0#8
    have e : tailWord [a, b] = word a b 0#8 0#8 := rfl
    rw [show (0 ^^^ ((0#8).toNat <<< 16)) = 0 from rfl] at this
    rw [this, ← word_toNat, e, mask32, Nat.mod_eq_of_lt (word _ _ _ _).isLt]
  | [a, b, c], _ =>
    have h0 : byteAt (pre ++ [a, b, c]) pre.length = .ok a.toNat := byteAt_eq (i := 0) rfl
    have h1 : byteAt (pre ++ [a, b, c]) (pre.length + 1) = .ok b.toNat := byteAt_eq (i := 1) rfl
    have h2 : byteAt (pre ++ [a, b, c]) (pre.length + 2) = .ok c.toNat := byteAt_eq (i := 2) rfl
    rw [h0, h1, h2]
    show Except.ok ((((0 ^^^ (c.toNat <<< 16)) ^^^ (b.toNat <<< 8)) ^^^ a.toNat) &&& 0xFFFFFFFF) = _
    have e : tailWord [a, b, c] = word a b c 0#8 := rfl
    rw [xor3, ← word_toNat, e, mask32, Nat.mod_eq_of_lt (word _ _ _ _).isLt]

theorem blocks_tail (h : Word) : ∀ {tail : Bytes}, tail.length < 4 → blocks h tail = h ^^^ mix (tailWord tail)
  | [], _ => by
    have : mix (tailWord []) = 0#32 := mix_zero
    rw [this, blocks_nil, BitVec.xor_zero]
  | [a], _ => blocks_one h a
  | [a, b], _ => blocks_two h a b
  | [a, b, c], _ => blocks_three h a b c
  | _ :: _ :: _ :: _ :: _, h => by simp only [List.length_cons] at h; omega

theorem xor_shift_mod (x : Nat) (y : Word) (h : x % 2 ^ 32 = y.toNat) (r : Nat) : (x ^^^ ((x &&& 0xFFFFFFFF) >>> r)) % 2 ^ 32 = (y ^^^ y >>> r).toNat := by
  rw [Nat.xor_mod_two_pow, mask32, h, BitVec.toNat_xor, BitVec.toNat_ushiftRight, Nat.mod_eq_of_lt (Nat.lt_of_le_of_lt (Nat.shiftRight_le _ _) y.isLt)]

theorem mul_mod32 (x : Nat) (y : Word) (c : Nat) (h : x % 2 ^ 32 = y.toNat) : (x * c) % 2 ^ 32 = (y * BitVec.ofNat 32 c).toNat := by
  rw [Nat.mul_mod, h, BitVec.toNat_mul, BitVec.toNat_ofNat]

theorem murmurHash3_eq (seed : Word) (data : Bytes) : murmurHash3 seed.toNat data = .ok (Murmur.hash seed data).toNat := by
  obtain ⟨h', pre, tail, h1, h2, h3, h4, h5⟩ := murmurLoop_eq data data [] (data.length + 1) seed rfl rfl (by omega)
  unfold murmurHash3
  rw [decide_eq_true (word_le seed)]
  show (do let h1 ← murmurLoop data (data.length + 1) 0 seed.toNat; _ : Py Nat) = _
  rw [List.length_nil] at h4
  rw [h4, Except.bind_ok, murmurTail_eq h1 h2 h3, Except.bind_ok, murmurK_eq, Except.bind_ok]
  dsimp only
  unfold Murmur.hash
  rw [h5, blocks_tail h' h3]
  have e0 : ((h'.toNat ^^^ (mix (tailWord tail)).toNat) ^^^ (data.length &&& 0xFFFFFFFF)) % 2 ^ 32 = (h' ^^^ mix (tailWord tail) ^^^ BitVec.ofNat 32 data.length).toNat := by
    rw [mask32, BitVec.toNat_xor, BitVec.toNat_xor, BitVec.toNat_ofNat]
    exact Nat.mod_eq_of_lt (Nat.xor_lt_two_pow (Nat.xor_lt_two_pow h'.isLt (mix _).isLt) (Nat.mod_lt _ (Nat.two_pow_pos 32)))
  generalize (h'.toNat ^^^ (mix (tailWord tail)).toNat) ^^^ (data.length &&& 0xFFFFFFFF) = x at e0 ⊢
  generalize (h' ^^^ mix (tailWord tail) ^^^ BitVec.ofNat 32 data.length) = y at e0 ⊢
  have e1 := xor_shift_mod x y e0 16
  have e2 := mul_mod32 _ _ 0x85ebca6b e1
  have e3 := xor_shift_mod _ _ e2 13
  have e4 := mul_mod32 _ _ 0xc2b2ae35 e3
  have e5 := xor_shift_mod _ _ e4 16
  rw [← mask32] at e5
  rw [e5]
  simp only [Murmur.final]
  rfl

end Verif.Btc

namespace Verif.Btc
open Verif Bloom

/-- The bit for hash function `i`. -/
def CBloomFilter.index (f : CBloomFilter) (data : Bytes) (i : Nat) : Nat :=
  (Murmur.hash (BitVec.ofInt 32 ((i : Int) * 0xFBA4C795 + f.nTweak)) data).toNat % (8 * f.vData.length)

theorem bloomHash_eq {f : CBloomFilter} (hv : f.vData ≠ []) (i : Nat) (data : Bytes) : f.bloomHash i data = .ok (f.index data i) := by
  unfold CBloomFilter.bloomHash
  have h0 : f.vData.length ≠ 0 := fun h => hv (List.eq_nil_of_length_eq_zero h)
  have h1 : (((i * 0xFBA4C795 : Nat) + f.nTweak) % 2 ^ 32).toNat = (BitVec.ofInt 32 ((i : Int) * 0xFBA4C795 + f.nTweak)).toNat := by
    rw [BitVec.toNat_ofInt, Int.natCast_mul]
    rfl
  rw [h1, murmurHash3_eq, Except.bind_ok, if_neg (by omega), Nat.mul_comm]
  rfl

theorem bloomHash_error {f : CBloomFilter} (hv : f.vData = []) (i : Nat) (data : Bytes) : f.bloomHash i data = .error .other := by
  unfold CBloomFilter.bloomHash
  have h1 : (((i * 0xFBA4C795 : Nat) + f.nTweak) % 2 ^ 32).toNat = (BitVec.ofInt 32 ((i : Int) * 0xFBA4C795 + f.nTweak)).toNat := by
    rw [BitVec.toNat_ofInt, Int.natCast_mul]
    rfl
  rw [h1, murmurHash3_eq, Except.bind_ok, hv]
  rfl

theorem index_lt {f : CBloomFilter} (hv : f.vData ≠ []) (data : Bytes) (i : Nat) : f.index data i < 8 * f.vData.length := by
  have h0 : f.vData.length ≠ 0 := fun h => hv (List.eq_nil_of_length_eq_zero h)
  exact Nat.mod_lt _ (by omega)

theorem shift3 (n : Nat) : n >>> 3 = n / 8 := Nat.shiftRight_eq_div_pow n 3

theorem and7 (n : Nat) : 7 &&& n = n % 8 := by rw [Nat.and_comm]; exact Nat.and_two_pow_sub_one_eq_mod n 3

theorem bitMask_get : ∀ k < 8, ∃ m, bitMask[k]? = some m ∧ (∀ j < 8, m.getLsbD j = decide (j = k)) ∧ ∀ b : Byte, b &&& m = 0#8 ↔ b.getLsbD k = false := by
  have h : ∀ k < 8, ∃ m ∈ bitMask, bitMask[k]? = some m ∧ (∀ j < 8, m.getLsbD j = decide (j = k)) ∧ ∀ b : Byte, b &&& m = 0#8 ↔ b.getLsbD k = false := by decide +kernel
  intro k hk
  obtain ⟨m, _, h⟩ := h k hk
  exact ⟨m, h⟩

theorem getElem?_getD {v : Bytes} {i : Nat} (h : i < v.length) : v[i]? = some (v.getD i 0#8) := by
  rw [List.getD_eq_getElem?_getD, List.getElem?_eq_getElem h]
  rfl

theorem bit_set {v : Bytes} {n : Nat} (hn : n < 8 * v.length) {m : Byte} (hm : ∀ j < 8, m.getLsbD j = decide (j = n % 8)) (j : Nat) :
    bit (v.set (n / 8) (v.getD (n / 8) 0#8 ||| m)) j = (bit v j || decide (j = n)) := by
  unfold bit
  have hlt : n / 8 < v.length := by omega
  by_cases h : j / 8 = n / 8
  · rw [h, List.getD_eq_getElem?_getD, List.getElem?_set_self hlt, Option.getD_some, BitVec.getLsbD_or, hm _ (Nat.mod_lt _ (by decide))]
    congr 1
    rw [decide_eq_decide]
    omega
  · rw [List.getD_eq_getElem?_getD, List.getElem?_set_ne (Ne.symm h), ← List.getD_eq_getElem?_getD, decide_eq_false (p := j = n) (fun e => h (by rw [e])), Bool.or_false]

theorem insertLoop_eq (data : Bytes) : ∀ (is : List Nat) {f : CBloomFilter}, f.vData ≠ [] →
    ∃ v, insertLoop data is f = .ok { f with vData := v } ∧ v.length = f.vData.length ∧ ∀ j, bit v j = (bit f.vData j || decide (j ∈ is.map (f.index data)))
  | [], f, _ => ⟨f.vData, rfl, rfl, fun j => by simp⟩
  | i :: is, f, hv => by
    have hn := index_lt hv data i
    obtain ⟨m, hm1, hm2, _⟩ := bitMask_get (f.index data i % 8) (Nat.mod_lt _ (by decide))
    have hset := bit_set hn hm2
    have hlen : (f.vData.set (f.index data i / 8) (f.vData.getD (f.index data i / 8) 0#8 ||| m)).length = f.vData.length := List.length_set
    obtain ⟨v, h1, h2, h3⟩ := insertLoop_eq data is (f := { f with vData := f.vData.set (f.index data i / 8) (f.vData.getD (f.index data i / 8) 0#8 ||| m) })
      (fun h => hv (List.eq_nil_of_length_eq_zero (by rw [← hlen]; exact congrArg List.length h)))
    refine ⟨v, ?_, h2.trans hlen, fun j => ?_⟩
    · rw [insertLoop, bloomHash_eq hv, Except.bind_ok, shift3, and7, hm1, getElem?_getD (by omega)]
      exact h1
    · rw [h3 j]
      have : CBloomFilter.index { f with vData := f.vData.set (f.index data i / 8) (f.vData.getD (f.index data i / 8) 0#8 ||| m) } data = f.index data := by
        funext k
        unfold CBloomFilter.index
        dsimp only
        rw [List.length_set]
      rw [this]
      dsimp only
      rw [hset, Bool.or_assoc]
      congr 1
      simp

theorem containsLoop_eq (data : Bytes) {f : CBloomFilter} (hv : f.vData ≠ []) :
    ∀ is : List Nat, containsLoop f data is = .ok (is.all fun i => bit f.vData (f.index data i))
  | [] => rfl
  | i :: is => by
    have hn := index_lt hv data i
    obtain ⟨m, hm1, _, hm3⟩ := bitMask_get (f.index data i % 8) (Nat.mod_lt _ (by decide))
    rw [containsLoop, bloomHash_eq hv, Except.bind_ok, shift3, and7, hm1, getElem?_getD (by omega)]
    dsimp only
    rw [List.all_cons]
    unfold bit at *
    by_cases h : (f.vData.getD (f.index data i / 8) 0#8).getLsbD (f.index data i % 8) = false
    · rw [if_pos ((hm3 _).mpr h), h]
      rfl
    · rw [if_neg (fun h' => h ((hm3 _).mp h')), containsLoop_eq data hv is, Bool.not_eq_false _ |>.mp h, Bool.true_and]
      rfl

theorem full_bits {j : Nat} (h : j < 8) : bit [0xff#8] j = true := by
  have : ∀ j < 8, bit [0xff#8] j = true := by decide
  exact this j h

theorem bits_ext {v w : Bytes} (hl : v.length = w.length) (h : ∀ j < 8 * v.length, bit v j = bit w j) : v = w := by
  apply List.ext_getElem hl
  intro i h1 h2
  apply BitVec.eq_of_getLsbD_eq
  intro k hk
  have := h (8 * i + k) (by omega)
  unfold bit at this
  rw [show (8 * i + k) / 8 = i by omega, show (8 * i + k) % 8 = k by omega] at this
  rw [List.getD_eq_getElem?_getD, List.getElem?_eq_getElem h1, List.getD_eq_getElem?_getD, List.getElem?_eq_getElem h2] at this
  exact this

end Verif.Btc
