import Verif.Lemmas.Rpc
/-!
# C117: which texts are read as numbers, and how those with too many digits are rounded
-/
namespace Verif.Rpc
open Verif Btc Sus

theorem digs_of : ∀ {s : Str}, (∀ c ∈ s, isDig c = true) → ∃ ds, Digs s ds
  | [], _ => ⟨[], .nil⟩
  | c :: s, h => by
    obtain ⟨ds, hd⟩ := digs_of (s := s) fun d hd => h d (by simp [hd])
    have hc := h c (by simp)
    unfold isDig at hc
    simp only [decide_eq_true_eq] at hc
    have key : ∀ v : Fin 10, "0123456789".toList[v.val]? = some (Char.ofNat (48 + v.val)) := by decide
    have e : Char.ofNat (48 + (c.toNat - 48)) = c := by
      rw [show 48 + (c.toNat - 48) = c.toNat by omega, Char.ofNat_toNat]
    have := key ⟨c.toNat - 48, by omega⟩
    simp only at this
    rw [e] at this
    exact ⟨_ :: ds, .cons this hd⟩

theorem digs_len {s : Str} {ds : List Nat} (h : Digs s ds) : s.length = ds.length := List.Forall₂.length_eq h

theorem digs_ne {s : Str} {ds : List Nat} (h : Digs s ds) (hs : s ≠ []) : ds ≠ [] := by
  rintro rfl
  exact hs (List.length_eq_zero_iff.mp (digs_len h))

theorem exp_of {s : Str} {o : Option Int} (h : jsonExp s = some o) : ∃ e, ExpPart s e := by
  unfold jsonExp at h
  split at h
  · exact ⟨0, .none⟩
  · rename_i c s
    split at h
    · rename_i hc
      split at h
      rename_i neg t hm
      split at h
      · rename_i ht
        obtain ⟨ds, hd⟩ := digs_of (List.all_eq_true.mp ht.2)
        have hn := digs_ne hd ht.1
        split at hm
        · cases hm; exact ⟨_, .minus hc hd hn⟩
        · cases hm; exact ⟨_, .plus hc hd hn⟩
        · cases hm; exact ⟨_, .plain hc hd hn⟩
      · cases h
    · cases h

theorem takeWhile_dig (s : Str) : ∀ c ∈ s.takeWhile isDig, isDig c = true := by
  intro c hc
  induction s with
  | nil => cases hc
  | cons a s ih =>
    rw [List.takeWhile_cons] at hc
    split at hc
    · rename_i ha
      rcases List.mem_cons.mp hc with rfl | hc
      · exact ha
      · exact ih hc
    · cases hc

theorem frac_of {s r : Str} {o : Option Str} (h : jsonFrac s = some (o, r)) : ∃ f fs, FracPart f fs ∧ s = f ++ r := by
  unfold jsonFrac at h
  split at h
  · rename_i s
    simp only at h
    split at h
    · cases h
    · rename_i hf
      cases h
      obtain ⟨ds, hd⟩ := digs_of (takeWhile_dig s)
      refine ⟨_, ds, .some hd (digs_ne hd hf), ?_⟩
      rw [List.cons_append, List.takeWhile_append_dropWhile]
  · cases h
    exact ⟨[], [], .none, rfl⟩

/-- C117: exactly the numbers of the JSON grammar are read as numbers. -/
theorem C117_grammar (s : Str) : (∃ j, jsonNumber s = some j) ↔ ∃ neg c e, NumText s neg c e := by
  constructor
  · rintro ⟨j, h⟩
    unfold jsonNumber at h
    simp only at h
    split at h
    · cases h
    · rename_i hi
      rw [not_or, not_and_or, not_not] at hi
      obtain ⟨⟨o, r⟩, hf, h⟩ := Option.bind_eq_some_iff.mp h
      obtain ⟨x, hx, _⟩ := Option.bind_eq_some_iff.mp h
      obtain ⟨f, fs, hf1, hf2⟩ := frac_of hf
      obtain ⟨e, he⟩ := exp_of hx
      obtain ⟨ds, hd⟩ := digs_of (takeWhile_dig (jsonSign s).2)
      have hp : IntPart ((jsonSign s).2.takeWhile isDig) ds := by
        refine ⟨hd, digs_ne hd hi.1, fun h0 => ?_⟩
        have hl := digs_len hd
        rcases hi.2 with h1 | h1
        · exfalso
          apply h1
          cases hs : (jsonSign s).2.takeWhile isDig with
          | nil => exact absurd hs hi.1
          | cons c t =>
            rw [hs] at hd
            cases hd with
            | @cons _ d _ ds' hc _ =>
              cases h0
              have := (isDec_toNat hc).2
              have e : c = '0' := by
                rw [← Char.ofNat_toNat c, this]
              rw [e]
              rfl
        · omega
      have e1 : (jsonSign s).2 = (jsonSign s).2.takeWhile isDig ++ (f ++ r) := by
        rw [← hf2, List.takeWhile_append_dropWhile]
      have e2 : s = (if (jsonSign s).1 then ['-'] else []) ++ (jsonSign s).2 := by
        unfold jsonSign
        split <;> rfl
      rw [e1] at e2
      revert e2
      generalize (jsonSign s).2.takeWhile isDig = i at hp
      intro e2
      cases hs : (jsonSign s).1 with
      | true => rw [hs, if_pos rfl, List.singleton_append] at e2; subst e2; exact ⟨true, _, _, .neg hp hf1 he⟩
      | false => rw [hs, if_neg (by decide), List.nil_append] at e2; subst e2; exact ⟨false, _, _, .pos hp hf1 he⟩
  · rintro ⟨neg, c, e, h⟩
    rcases jsonNumber_of h with h | ⟨h, _⟩
    · exact ⟨_, h⟩
    · exact ⟨_, h⟩

/-- `m`·10^k is the multiple of 10^k nearest to `x`, the even one of two that are as near. -/
def HalfEven (x k m : Nat) : Prop := |2 * (x : Int) - 2 * (m * 10 ^ k)| ≤ 10 ^ k ∧ (|2 * (x : Int) - 2 * (m * 10 ^ k)| = 10 ^ k → m % 2 = 0)

theorem dropDigits_spec (c k : Nat) : HalfEven c k (dropDigits c k) := by
  have hp : 0 < 10 ^ k := by positivity
  have e := Nat.div_add_mod c (10 ^ k)
  have hr := Nat.mod_lt c hp
  unfold HalfEven dropDigits
  simp only
  generalize c / 10 ^ k = q at *
  generalize c % 10 ^ k = r at *
  have hc : (c : Int) = ((10 ^ k : Nat) : Int) * q + r := by exact_mod_cast e.symm
  have hk : (10 : Int) ^ k = ((10 ^ k : Nat) : Int) := by push_cast; rfl
  rw [hk, hc]
  generalize 10 ^ k = t at *
  split
  · rename_i h
    push_cast
    have : 2 * ((t : Int) * q + r) - 2 * ((q + 1) * t) = 2 * r - 2 * t := by ring
    rw [this]
    have hx : |2 * (r : Int) - 2 * t| = 2 * t - 2 * r := by rw [abs_of_neg (by omega)]; ring
    rw [hx]
    omega
  · rename_i h
    have : 2 * ((t : Int) * q + r) - 2 * (q * t) = 2 * r := by ring
    rw [this, abs_of_nonneg (by omega)]
    omega

/-- C117: an amount with more digits than the decimal module keeps is rounded to 28 digits, half to even, before the fraction is dropped. -/
theorem C117_rounded {c e n : Int} (hc : 10 ^ 20 ≤ c.natAbs) (h : toSat (.dec c e) = .ok n) :
    ∃ k m : Nat, 10 ^ 27 ≤ m ∧ m ≤ 10 ^ 28 ∧ HalfEven (c.natAbs * 10 ^ 8) k m ∧ IsTrunc (numValue (decide (c < 0)) m (e + k)) n := by
  have h28 : ¬ numDigits (c.natAbs * COIN) ≤ 28 := by
    rw [numDigits_le 27]
    unfold COIN
    omega
  obtain ⟨k, hk⟩ : ∃ k, numDigits (c.natAbs * COIN) = k + 28 := ⟨numDigits (c.natAbs * COIN) - 28, by omega⟩
  have hk0 : 1 ≤ k := by omega
  have lo : 10 ^ 27 * 10 ^ k ≤ c.natAbs * COIN := by
    by_contra hlt
    rw [← pow_add] at hlt
    have := (numDigits_le (k + 26) (c.natAbs * COIN)).mpr (by rw [show k + 26 + 1 = 27 + k by omega]; omega)
    omega
  have hi : c.natAbs * COIN < 10 ^ 28 * 10 ^ k := by
    have := (numDigits_le (k + 27) (c.natAbs * COIN)).mp (by omega)
    rwa [show k + 27 + 1 = 28 + k by omega, pow_add] at this
  have e1 : round28 (c.natAbs * COIN) e = (dropDigits (c.natAbs * COIN) k, e + k) := by
    unfold round28
    rw [if_neg h28, hk, show k + 28 - 28 = k by omega]
  have hp : 0 < 10 ^ k := by positivity
  have q1 : 10 ^ 27 ≤ c.natAbs * COIN / 10 ^ k := (Nat.le_div_iff_mul_le hp).mpr lo
  have q2 : c.natAbs * COIN / 10 ^ k < 10 ^ 28 := (Nat.div_lt_iff_lt_mul hp).mpr hi
  have hm : 10 ^ 27 ≤ dropDigits (c.natAbs * COIN) k ∧ dropDigits (c.natAbs * COIN) k ≤ 10 ^ 28 := by
    unfold dropDigits
    simp only
    split <;> omega
  refine ⟨k, dropDigits (c.natAbs * COIN) k, hm.1, hm.2, dropDigits_spec _ k, ?_⟩
  have h : decToSat c e = .ok n := h
  unfold decToSat at h
  rw [e1] at h
  simp only at h
  split at h
  · cases h
  · cases h
    obtain ⟨t1, t2⟩ := truncDec_spec (dropDigits (c.natAbs * COIN) k) (e + k)
    have := IsTrunc.of_trunc (decide (c < 0)) _ (e + k) _ t1 t2
    simpa using this

/-- Texts that are no numbers, and one that is. -/
example : jsonNumber "1.".toList = none ∧ jsonNumber "01".toList = none ∧ jsonNumber ".5".toList = none ∧ jsonNumber "1e".toList = none ∧
    jsonNumber "+1".toList = none := by
  refine ⟨?_, ?_, ?_, ?_, ?_⟩ <;> rfl
/-- An amount between two: the even one is taken. -/
example : dropDigits 12345 1 = 1234 ∧ dropDigits 12355 1 = 1236 ∧ dropDigits 12356 1 = 1236 := by decide +kernel
example : toSat (.dec 100000000000000000005 (-9)) = .ok 10000000000000000000 := by decide +kernel

end Verif.Rpc
