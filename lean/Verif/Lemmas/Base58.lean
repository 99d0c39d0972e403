import Verif.Spec.Base58
import Verif.Lemmas.SusText
/-! # Numbers in base 58, 16 and 256 -/
namespace Verif.Btc
open Verif
open Verif.Sus (Str hexChar hexVal b2x unhex hexVal_hexChar)

theorem alphabet_eq : alphabet = B58_DIGITS := by decide

/-! ## Positional numbers -/

/-- The same with the least significant digit first. -/
def lval (B : Nat) : List Nat → Nat
  | [] => 0
  | d :: l => d + B * lval B l

theorem positional_eq (B : Nat) (ds : List Nat) : positional B ds = lval B ds.reverse := by
  unfold positional
  rw [← List.foldr_reverse]
  induction ds.reverse with
  | nil => rfl
  | cons d l ih => rw [List.foldr_cons, ih, lval, Nat.add_comm]

theorem positional_cons_zero (B : Nat) (ds : List Nat) : positional B (0 :: ds) = positional B ds := by
  unfold positional
  rw [List.foldl_cons]
  rfl

theorem positional_zeros (B k : Nat) (ds : List Nat) : positional B (List.replicate k 0 ++ ds) = positional B ds := by
  induction k with
  | zero => rfl
  | succ k ih => rw [List.replicate_succ, List.cons_append, positional_cons_zero, ih]

theorem lval_inj {B : Nat} (hB : 1 < B) : ∀ {a b : List Nat}, (∀ d ∈ a, d < B) → (∀ d ∈ b, d < B) → a.getLast? ≠ some 0 → b.getLast? ≠ some 0 → lval B a = lval B b → a = b := by
  have nil : ∀ {l : List Nat}, l.getLast? ≠ some 0 → lval B l = 0 → l = [] := by
    intro l
    induction l with
    | nil => intro _ _; rfl
    | cons d l ih =>
      intro h h0
      rw [lval] at h0
      have hd : d = 0 := by omega
      have hl : lval B l = 0 := by
        have : B * lval B l = 0 := by omega
        rcases Nat.mul_eq_zero.mp this with h | h
        · omega
        · exact h
      have : l = [] := ih (fun h' => h (by rw [List.getLast?_cons, h']; rfl)) hl
      rw [this, hd] at h
      exact absurd rfl h
  intro a
  induction a with
  | nil => intro b _ _ _ hb h; exact (nil hb h.symm).symm
  | cons d a ih =>
    intro b ha hb ha' hb' h
    rcases b with _ | ⟨e, b⟩
    · exact nil ha' h
    · rw [lval, lval] at h
      have hd := ha d (by simp)
      have he := hb e (by simp)
      have h1 : d = e := by
        have := congrArg (· % B) h
        simp only [Nat.add_mul_mod_self_left] at this
        rwa [Nat.mod_eq_of_lt hd, Nat.mod_eq_of_lt he] at this
      have h2 : lval B a = lval B b := by
        have : B * lval B a = B * lval B b := by omega
        exact Nat.eq_of_mul_eq_mul_left (by omega) this
      have tl : ∀ {x : Nat} {l : List Nat}, (x :: l).getLast? ≠ some 0 → l.getLast? ≠ some 0 := fun h h' => h (by rw [List.getLast?_cons, h']; rfl)
      rw [h1, ih (fun x hx => ha x (by simp [hx])) (fun x hx => hb x (by simp [hx])) (tl ha') (tl hb') h2]

theorem positional_inj {B : Nat} (hB : 1 < B) {a b : List Nat} (ha : ∀ d ∈ a, d < B) (hb : ∀ d ∈ b, d < B) (ha' : a.head? ≠ some 0) (hb' : b.head? ≠ some 0)
    (h : positional B a = positional B b) : a = b := by
  rw [positional_eq, positional_eq] at h
  refine List.reverse_inj.mp (lval_inj hB ?_ ?_ ?_ ?_ h)
  · intro d hd; exact ha d (List.mem_reverse.mp hd)
  · intro d hd; exact hb d (List.mem_reverse.mp hd)
  · rw [List.getLast?_reverse]; exact ha'
  · rw [List.getLast?_reverse]; exact hb'

/-- The digits of a number, last first. -/
def dig (B : Nat) : Nat → Nat → List Nat
  | 0, _ => []
  | f + 1, n => if n > 0 then n % B :: dig B f (n / B) else []

theorem dig_spec {B : Nat} (hB : 1 < B) : ∀ (f n : Nat), n < B ^ f → lval B (dig B f n) = n ∧ (∀ d ∈ dig B f n, d < B) ∧ (dig B f n).getLast? ≠ some 0
  | 0, n, h => by
    have : n = 0 := by simpa using h
    subst this
    exact ⟨rfl, by simp [dig], by simp [dig]⟩
  | f + 1, n, h => by
    rw [dig]
    by_cases hn : n > 0
    · rw [if_pos hn]
      obtain ⟨h1, h2, h3⟩ := dig_spec hB f (n / B) (by rw [Nat.div_lt_iff_lt_mul (by omega)]; rwa [Nat.pow_succ] at h)
      refine ⟨by rw [lval, h1]; exact Nat.mod_add_div n B, ?_, ?_⟩
      · intro d hd
        rcases List.mem_cons.mp hd with rfl | hd
        · exact Nat.mod_lt _ (by omega)
        · exact h2 d hd
      · rw [List.getLast?_cons]
        rcases hl : (dig B f (n / B)).getLast? with _ | d
        · have : dig B f (n / B) = [] := List.getLast?_eq_none_iff.mp hl
          rw [this] at h1
          have h1 : n / B = 0 := h1.symm
          have h4 : n < B := by
            have := (Nat.div_eq_zero_iff).mp h1
            omega
          simp only [Option.getD_none, ne_eq, Option.some.injEq]
          rw [Nat.mod_eq_of_lt h4]
          omega
        · rw [hl] at h3
          simpa using h3
    · rw [if_neg hn]
      have : n = 0 := by omega
      subst this
      exact ⟨rfl, by simp, by simp⟩

theorem dig_positional {B : Nat} (hB : 1 < B) {f n : Nat} (h : n < B ^ f) : positional B (dig B f n).reverse = n ∧ (∀ d ∈ (dig B f n).reverse, d < B) ∧ (dig B f n).reverse.head? ≠ some 0 := by
  obtain ⟨h1, h2, h3⟩ := dig_spec hB f n h
  refine ⟨by rw [positional_eq, List.reverse_reverse, h1], fun d hd => h2 d (List.mem_reverse.mp hd), ?_⟩
  rw [List.head?_reverse]
  exact h3

theorem positional_lt {B : Nat} (hB : 0 < B) : ∀ {ds : List Nat}, (∀ d ∈ ds, d < B) → positional B ds < B ^ ds.length := by
  intro ds h
  rw [positional_eq]
  have : ∀ {l : List Nat}, (∀ d ∈ l, d < B) → lval B l < B ^ l.length := by
    intro l
    induction l with
    | nil => intro _; exact Nat.one_pos
    | cons d l ih =>
      intro h
      have h1 := ih (fun x hx => h x (by simp [hx]))
      have h2 := h d (by simp)
      rw [lval, List.length_cons, Nat.pow_succ, Nat.mul_comm (B ^ l.length)]
      calc d + B * lval B l < B + B * lval B l := by omega
        _ = B * (lval B l + 1) := by rw [Nat.mul_add]; omega
        _ ≤ B * B ^ l.length := Nat.mul_le_mul_left _ h1
  have := this (l := ds.reverse) (fun d hd => h d (List.mem_reverse.mp hd))
  rwa [List.length_reverse] at this

/-! ## The loops -/

theorem divLoop_eq : ∀ f n, divLoop f n = (dig 58 f n).map fun d => alphabet.getD d '?'
  | 0, _ => rfl
  | f + 1, n => by
    rw [divLoop, dig, alphabet_eq]
    split
    · rw [List.map_cons, divLoop_eq f, alphabet_eq]
    · rfl

theorem hexDigits_eq : ∀ f n, hexDigits f n = (dig 16 f n).map hexChar
  | 0, _ => rfl
  | f + 1, n => by
    rw [hexDigits, dig]
    split
    · rw [List.map_cons, hexDigits_eq f]
    · rfl

theorem hexVal_char {d : Nat} (h : d < 16) : hexVal (hexChar d) = some d := hexVal_hexChar ⟨d, h⟩

theorem intHex_eq (b : Bytes) : intHex (b2x b) = positional 256 (b.map (·.toNat)) := by
  unfold intHex positional
  suffices h : ∀ n, (b2x b).foldl (fun n c => 16 * n + (hexVal c).getD 0) n = (b.map (·.toNat)).foldl (fun n d => 256 * n + d) n from h 0
  intro n
  induction b generalizing n with
  | nil => rfl
  | cons x b ih =>
    have hx := x.isLt
    have e : b2x (x :: b) = hexChar (x.toNat / 16) :: hexChar (x.toNat % 16) :: b2x b := rfl
    rw [e, List.foldl_cons, List.foldl_cons, hexVal_char (by omega), hexVal_char (by omega), ih, List.map_cons, List.foldl_cons]
    congr 1
    simp only [Option.getD_some]
    omega

theorem unhex_digits : ∀ (k : Nat) {ds : List Nat}, ds.length = 2 * k → (∀ d ∈ ds, d < 16) →
    ∃ b : Bytes, unhex (ds.map hexChar) = .ok b ∧ b.length = k ∧ (∀ n, (b.map (·.toNat)).foldl (fun n d => 256 * n + d) n = ds.foldl (fun n d => 16 * n + d) n) ∧
      ∀ d e l, ds = d :: e :: l → b.head? = some (BitVec.ofNat 8 (16 * d + e))
  | 0, ds, hl, _ => by
    have : ds = [] := List.length_eq_zero_iff.mp (by omega)
    subst this
    exact ⟨[], rfl, rfl, fun _ => rfl, fun _ _ _ h => by cases h⟩
  | k + 1, ds, hl, h => by
    rcases ds with _ | ⟨d, _ | ⟨e, ds⟩⟩
    · simp at hl
    · simp at hl; omega
    · obtain ⟨b, h1, h2, h3, _⟩ := unhex_digits k (ds := ds) (by simp at hl; omega) (fun x hx => h x (by simp [hx]))
      have hd := h d (by simp)
      have he := h e (by simp)
      refine ⟨BitVec.ofNat 8 (16 * d + e) :: b, ?_, by simp [h2], fun n => ?_, fun d' e' l' h' => by cases h'; rfl⟩
      · rw [List.map_cons, List.map_cons, unhex, hexVal_char hd, hexVal_char he]
        simp only
        rw [h1]
        rfl
      · rw [List.map_cons, List.foldl_cons, List.foldl_cons, List.foldl_cons, h3]
        congr 1
        rw [BitVec.toNat_ofNat, Nat.mod_eq_of_lt (by omega)]
        omega

/-- Bytes from text. -/
theorem unhex_pctX {f n : Nat} (h0 : 0 < n) (hn : n < 16 ^ f) :
    ∃ b : Bytes, unhex (if (pctX f n).length % 2 ≠ 0 then '0' :: pctX f n else pctX f n) = .ok b ∧ positional 256 (b.map (·.toNat)) = n ∧ b.head? ≠ some 0#8 := by
  obtain ⟨h1, h2, h3⟩ := dig_positional (by omega) hn
  have e : pctX f n = ((dig 16 f n).reverse).map hexChar := by
    unfold pctX
    rw [if_neg (by omega), hexDigits_eq, List.map_reverse]
  rw [e]
  generalize hds : (dig 16 f n).reverse = ds at h1 h2 h3
  rw [List.length_map]
  have hne : ds ≠ [] := by
    rintro rfl
    have : positional 16 [] = 0 := rfl
    omega
  rcases ds with _ | ⟨d, ds⟩
  · exact absurd rfl hne
  · have hd : d ≠ 0 := by
      rintro rfl
      exact h3 rfl
    have hd16 := h2 d (by simp)
    by_cases hl : (d :: ds).length % 2 ≠ 0
    · rw [if_pos hl]
      have : '0' :: ((d :: ds).map hexChar) = (0 :: d :: ds).map hexChar := rfl
      rw [this]
      obtain ⟨b, g1, g2, g3, g4⟩ := unhex_digits (((d :: ds).length + 1) / 2) (ds := 0 :: d :: ds) (by rw [List.length_cons]; omega) (by
        intro x hx
        rcases List.mem_cons.mp hx with rfl | hx
        · omega
        · exact h2 x hx)
      refine ⟨b, g1, ?_, ?_⟩
      · have := g3 0
        unfold positional at h1 ⊢
        rw [this, List.foldl_cons]
        exact h1
      · rw [g4 0 d ds rfl]
        intro hh
        have := congrArg BitVec.toNat (Option.some.inj hh)
        rw [BitVec.toNat_ofNat] at this
        have z : (0#8).toNat = 0 := rfl
        omega
    · rw [if_neg hl]
      rcases ds with _ | ⟨e, ds⟩
      · simp at hl
      · obtain ⟨b, g1, g2, g3, g4⟩ := unhex_digits ((d :: e :: ds).length / 2) (ds := d :: e :: ds) (by omega) h2
        refine ⟨b, g1, by unfold positional at h1 ⊢; rw [g3 0, h1], ?_⟩
        rw [g4 d e ds rfl]
        have he16 := h2 e (by simp)
        intro hh
        have := congrArg BitVec.toNat (Option.some.inj hh)
        rw [BitVec.toNat_ofNat] at this
        have z : (0#8).toNat = 0 := rfl
        omega

/-! ## Characters -/

set_option maxRecDepth 4000 in
theorem alphabet_idx : ∀ d : Fin 58, B58_DIGITS.idxOf? (alphabet.getD d '?') = some d.val := by decide

set_option maxRecDepth 8000 in
theorem idx_digit {c : Char} {d : Nat} (h : B58_DIGITS.idxOf? c = some d) : d < 58 ∧ c = alphabet.getD d '?' := by
  have hc : c ∈ B58_DIGITS := by
    apply Classical.byContradiction
    intro hc
    rw [List.idxOf?_eq_none_iff.mpr hc] at h
    cases h
  have key : ∀ c ∈ B58_DIGITS, ∀ d, B58_DIGITS.idxOf? c = some d → d < 58 ∧ c = alphabet.getD d '?' := by
    have : ∀ c ∈ B58_DIGITS, ∃ d, B58_DIGITS.idxOf? c = some d ∧ d < 58 ∧ c = alphabet.getD d '?' := by
      intro c hc
      have : ∀ c ∈ B58_DIGITS, ∃ d : Fin 58, B58_DIGITS.idxOf? c = some d.val ∧ c = alphabet.getD d '?' := by decide
      obtain ⟨d, h1, h2⟩ := this c hc
      exact ⟨d, h1, d.isLt, h2⟩
    intro c hc d hd
    obtain ⟨d', h1, h2⟩ := this c hc
    rw [h1] at hd
    cases hd
    exact h2
  exact key c hc d h

theorem char_inj {d e : Nat} (hd : d < 58) (he : e < 58) (h : alphabet.getD d '?' = alphabet.getD e '?') : d = e := by
  have h1 := alphabet_idx ⟨d, hd⟩
  have h2 := alphabet_idx ⟨e, he⟩
  simp only at h1 h2
  rw [h, h2] at h1
  exact (Option.some.inj h1).symm

theorem char_one {d : Nat} (hd : d < 58) : alphabet.getD d '?' = '1' ↔ d = 0 :=
  ⟨fun h => char_inj hd (by omega) h, fun h => by rw [h]; rfl⟩

theorem digitLoop_digits : ∀ {ds : List Nat}, (∀ d ∈ ds, d < 58) → ∀ n, digitLoop n (ds.map fun d => alphabet.getD d '?') = .ok (ds.foldl (fun n d => 58 * n + d) n)
  | [], _, _ => rfl
  | d :: ds, h, n => by
    rw [List.map_cons, digitLoop, alphabet_idx ⟨d, h d (by simp)⟩]
    simp only
    rw [digitLoop_digits (fun x hx => h x (by simp [hx])), List.foldl_cons, Nat.mul_comm]

theorem digitLoop_bad : ∀ {s : Str} (n : Nat), (∃ c ∈ s, c ∉ alphabet) → digitLoop n s = .error .base58
  | [], _, h => by obtain ⟨_, h, _⟩ := h; cases h
  | c :: s, n, h => by
    rw [digitLoop]
    by_cases hc : c ∈ alphabet
    · rcases B58_DIGITS.idxOf? c with _ | d
      · rfl
      · obtain ⟨x, h1, h2⟩ := h
        rcases List.mem_cons.mp h1 with rfl | h1
        · exact absurd hc h2
        · exact digitLoop_bad _ ⟨x, h1, h2⟩
    · rw [alphabet_eq] at hc
      rw [List.idxOf?_eq_none_iff.mpr hc]

theorem text_digits : ∀ {s : Str}, (∀ c ∈ s, c ∈ alphabet) → ∃ ds : List Nat, (∀ d ∈ ds, d < 58) ∧ s = ds.map fun d => alphabet.getD d '?'
  | [], _ => ⟨[], by simp, rfl⟩
  | c :: s, h => by
    obtain ⟨ds, h1, h2⟩ := text_digits (s := s) (fun x hx => h x (by simp [hx]))
    have hc := h c (by simp)
    rw [alphabet_eq] at hc
    rcases hi : B58_DIGITS.idxOf? c with _ | d
    · exact absurd hc (List.idxOf?_eq_none_iff.mp hi)
    · obtain ⟨g1, g2⟩ := idx_digit hi
      refine ⟨d :: ds, ?_, by rw [List.map_cons, ← g2, ← h2]⟩
      intro x hx
      rcases List.mem_cons.mp hx with rfl | hx
      · exact g1
      · exact h1 x hx

/-- The zeros in front. -/
theorem split_zeros {α : Type} [BEq α] [LawfulBEq α] (z : α) : ∀ l : List α, l = List.replicate (leading z l) z ++ l.drop (leading z l) ∧ (l.drop (leading z l)).head? ≠ some z
  | [] => ⟨rfl, by simp⟩
  | x :: l => by
    unfold leading
    rw [List.takeWhile_cons]
    by_cases hx : x = z
    · subst hx
      rw [if_pos (by simp)]
      obtain ⟨h1, h2⟩ := split_zeros x l
      refine ⟨?_, ?_⟩
      · rw [List.length_cons, List.replicate_succ, List.cons_append, List.drop_succ_cons]
        exact congrArg _ h1
      · exact h2
    · rw [if_neg (by simpa using hx)]
      refine ⟨rfl, ?_⟩
      simpa using hx

theorem leading_split {α : Type} [BEq α] [LawfulBEq α] {z : α} {l : List α} (h : l.head? ≠ some z) : ∀ k, leading z (List.replicate k z ++ l) = k
  | 0 => by
    rcases l with _ | ⟨x, l⟩
    · rfl
    · have : x ≠ z := by simpa using h
      rw [List.replicate_zero, List.nil_append]
      unfold leading
      rw [List.takeWhile_cons, if_neg (by simpa using this)]
      rfl
  | k + 1 => by
    have ih := leading_split h k
    rw [List.replicate_succ, List.cons_append]
    unfold leading at *
    rw [List.takeWhile_cons, if_pos (by simp), List.length_cons, ih]

/-! ## Base 58 -/

theorem bytes_lt (b : Bytes) : ∀ d ∈ b.map (·.toNat), d < 256 := by
  intro d hd
  obtain ⟨x, _, rfl⟩ := List.mem_map.mp hd
  exact x.isLt

theorem bytes_head {b : Bytes} (h : b.head? ≠ some 0#8) : (b.map (·.toNat)).head? ≠ some 0 := by
  rcases b with _ | ⟨x, b⟩
  · simp
  · simp only [List.head?_cons, ne_eq, Option.some.injEq] at h
    simp only [List.map_cons, List.head?_cons, ne_eq, Option.some.injEq]
    intro h'
    exact h (BitVec.eq_of_toNat_eq (by rw [h']; rfl))

theorem bytes_inj {a b : Bytes} (h : a.map (·.toNat) = b.map (·.toNat)) : a = b :=
  List.map_inj_right (fun _ _ h => BitVec.eq_of_toNat_eq h) |>.mp h

theorem pow_58 (k : Nat) : 256 ^ k ≤ 58 ^ (2 * k) := by
  rw [Nat.pow_mul]
  exact Nat.pow_le_pow_left (by decide) k

theorem pow_16 (k : Nat) : 58 ^ k ≤ 16 ^ (2 * k) := by
  rw [Nat.pow_mul]
  exact Nat.pow_le_pow_left (by decide) k

theorem base58_encode (b : Bytes) : Base58 b (b58encode b) := by
  obtain ⟨h1, h2⟩ := split_zeros (0#8) b
  have hn : positional 256 (b.map (·.toNat)) < 58 ^ (2 * b.length) := by
    have := positional_lt (by omega) (bytes_lt b)
    rw [List.length_map] at this
    exact Nat.lt_of_lt_of_le this (pow_58 _)
  obtain ⟨g1, g2, g3⟩ := dig_positional (B := 58) (by omega) hn
  refine ⟨leading 0#8 b, b.drop (leading 0#8 b), (dig 58 (2 * b.length) (positional 256 (b.map (·.toNat)))).reverse, h1, h2, g2, g3, ?_, ?_⟩
  · rw [g1]
    conv => rhs; rw [h1]
    rw [List.map_append, List.map_replicate]
    exact (positional_zeros 256 _ _).symm
  · unfold b58encode
    rw [intHex_eq, divLoop_eq, List.map_reverse]

theorem base58_decode {b : Bytes} {s : Str} (h : Base58 b s) : b58decode s = .ok b := by
  obtain ⟨k, b', ds, rfl, h1, h2, h3, h4, rfl⟩ := h
  unfold b58decode
  have all : ∀ d ∈ List.replicate k 0 ++ ds, d < 58 := by
    intro d hd
    rcases List.mem_append.mp hd with hd | hd
    · rw [(List.mem_replicate.mp hd).2]; omega
    · exact h2 d hd
  have es : List.replicate k '1' ++ ds.map (fun d => alphabet.getD d '?') = (List.replicate k 0 ++ ds).map fun d => alphabet.getD d '?' := by
    rw [List.map_append, List.map_replicate]
    rfl
  have hloop : digitLoop 0 (List.replicate k '1' ++ ds.map (fun d => alphabet.getD d '?')) = .ok (positional 58 ds) := by
    rw [es, digitLoop_digits all, ← positional_zeros 58 k ds]
    rfl
  by_cases hs : List.replicate k '1' ++ ds.map (fun d => alphabet.getD d '?') = []
  · rw [if_pos hs]
    obtain ⟨e1, e2⟩ := List.append_eq_nil_iff.mp hs
    have hk : k = 0 := by simpa using e1
    have hd : ds = [] := by simpa using e2
    subst hk hd
    have : b'.map (·.toNat) = [] := positional_inj (B := 256) (by omega) (bytes_lt b') (by simp) (bytes_head h1) (by simp) h4
    rw [List.map_eq_nil_iff.mp this]
    rfl
  · rw [if_neg hs, hloop, Except.bind_ok]
    by_cases hd : ds = []
    · subst hd
      have : b'.map (·.toNat) = [] := positional_inj (B := 256) (by omega) (bytes_lt b') (by simp) (bytes_head h1) (by simp) h4
      rw [List.map_eq_nil_iff.mp this]
      have hk : k ≠ 0 := by
        rintro rfl
        exact hs rfl
      obtain ⟨j, rfl⟩ := Nat.exists_eq_succ_of_ne_zero hk
      have e1 : (List.replicate (j + 1) '1' ++ List.map (fun d => alphabet.getD d '?') []).dropLast = List.replicate j '1' ++ [] := by
        rw [List.map_nil, List.append_nil, List.append_nil, List.replicate_succ', List.dropLast_concat]
      simp only [Nat.succ_eq_add_one]
      rw [e1, leading_split (by simp)]
      have e2 : positional 58 [] = 0 := rfl
      rw [e2]
      have e3 : ∀ f, unhex (if (pctX f 0).length % 2 ≠ 0 then '0' :: pctX f 0 else pctX f 0) = .ok [0#8] := fun f => rfl
      rw [e3, Except.bind_ok, List.append_nil, List.replicate_succ']
      rfl
    · have hpos : 0 < positional 58 ds := by
        rcases Nat.eq_zero_or_pos (positional 58 ds) with hz | hz
        · exact absurd (positional_inj (B := 58) (by omega) h2 (by simp) h3 (by simp) (hz.trans (show 0 = positional 58 [] from rfl))) hd
        · exact hz
      have hlt : positional 58 ds < 16 ^ (2 * (List.replicate k '1' ++ ds.map (fun d => alphabet.getD d '?')).length) := by
        have := positional_lt (B := 58) (by omega) all
        rw [positional_zeros] at this
        refine Nat.lt_of_lt_of_le this ?_
        rw [es, List.length_map]
        exact pow_16 _
      obtain ⟨x, x1, x2, x3⟩ := unhex_pctX hpos hlt
      simp only at x1 ⊢
      rw [x1, Except.bind_ok]
      have hx : x = b' := bytes_inj (positional_inj (B := 256) (by omega) (bytes_lt x) (bytes_lt b') (bytes_head x3) (bytes_head h1) (x2.trans h4.symm))
      subst hx
      have e1 : (List.replicate k '1' ++ ds.map (fun d => alphabet.getD d '?')).dropLast = List.replicate k '1' ++ (ds.map (fun d => alphabet.getD d '?')).dropLast := by
        rw [List.dropLast_append_of_ne_nil (by simpa using hd)]
      rw [e1, leading_split]
      · rfl
      · rcases ds with _ | ⟨d, _ | ⟨e, ds⟩⟩
        · simp
        · simp
        · rw [List.map_cons, List.map_cons, List.dropLast_cons₂, List.head?_cons]
          intro hh
          have := (char_one (h2 d (by simp))).mp (Option.some.inj hh)
          rw [this] at h3
          exact h3 rfl

/-- A text has one value at most (by `base58_decode`), and a value has one text. -/
theorem base58_text {b : Bytes} {s s' : Str} (h : Base58 b s) (h' : Base58 b s') : s = s' := by
  obtain ⟨k, c, ds, e, h1, h2, h3, h4, rfl⟩ := h
  obtain ⟨k', c', ds', e', g1, g2, g3, g4, rfl⟩ := h'
  have hk : k = k' := by
    have a := leading_split h1 k
    have b := leading_split g1 k'
    rw [← e] at a
    rw [← e'] at b
    omega
  subst hk
  have hc : c = c' := List.append_cancel_left (e.symm.trans e')
  subst hc
  rw [positional_inj (B := 58) (by omega) h2 g2 h3 g3 (h4.symm.trans g4)]

/-- Every string of base 58 characters is the text of something. -/
theorem base58_exists {s : Str} (h : ∀ c ∈ s, c ∈ alphabet) : ∃ b, Base58 b s := by
  obtain ⟨ds, h1, rfl⟩ := text_digits h
  obtain ⟨h2, h3⟩ := split_zeros 0 ds
  have h1' : ∀ d ∈ ds.drop (leading 0 ds), d < 58 := fun d hd => h1 d (List.mem_of_mem_drop hd)
  have hlt : positional 58 (ds.drop (leading 0 ds)) < 256 ^ (ds.drop (leading 0 ds)).length :=
    Nat.lt_of_lt_of_le (positional_lt (by omega) h1') (Nat.pow_le_pow_left (by decide) _)
  obtain ⟨g1, g2, g3⟩ := dig_positional (B := 256) (by omega) hlt
  generalize (dig 256 (ds.drop (leading 0 ds)).length (positional 58 (ds.drop (leading 0 ds)))).reverse = xs at g1 g2 g3
  have hm : (xs.map (BitVec.ofNat 8)).map (·.toNat) = xs := by
    rw [List.map_map]
    conv => rhs; rw [← List.map_id xs]
    refine List.map_congr_left fun x hx => ?_
    simp only [Function.comp, id]
    rw [BitVec.toNat_ofNat, Nat.mod_eq_of_lt (g2 x hx)]
  refine ⟨List.replicate (leading 0 ds) 0#8 ++ xs.map (BitVec.ofNat 8), leading 0 ds, xs.map (BitVec.ofNat 8), ds.drop (leading 0 ds), rfl, ?_, h1', h3, by rw [hm, g1], ?_⟩
  · rcases xs with _ | ⟨x, xs⟩
    · simp
    · intro hh
      have hx := Option.some.inj hh
      have := congrArg BitVec.toNat hx
      rw [BitVec.toNat_ofNat, Nat.mod_eq_of_lt (g2 x (by simp))] at this
      rw [this] at g3
      exact g3 rfl
  · conv => lhs; rw [h2]
    rw [List.map_append, List.map_replicate]
    rfl

theorem decode_bad {s : Str} (h : ∃ c ∈ s, c ∉ alphabet) : b58decode s = .error .base58 := by
  unfold b58decode
  have : s ≠ [] := by
    rintro rfl
    obtain ⟨_, h, _⟩ := h
    cases h
  rw [if_neg this, digitLoop_bad 0 h]
  rfl

end Verif.Btc
