import Verif.Lemmas.SusText
import Verif.Spec.SusText
import Verif.Lemmas.Codec
/-! # The text that sus-tool takes as arguments (C83) -/
namespace Verif.Sus
open Verif Btc

theorem hexVal_iff (c : Char) (v : Nat) : hexVal c = some v ↔ IsHex c v := by
  constructor
  · intro h
    have hv : v < 16 ∧ c.toNat < 103 := by
      unfold hexVal at h
      simp only at h
      split at h
      · cases h; omega
      · split at h
        · cases h; omega
        · split at h
          · cases h; omega
          · cases h
    have key : ∀ n : Fin 103, ∀ v : Fin 16, hexVal (Char.ofNat n) = some v.val → "0123456789abcdef".toList[v.val]? = some (Char.ofNat n) ∨ "0123456789ABCDEF".toList[v.val]? = some (Char.ofNat n) := by
      decide +kernel
    have := key ⟨c.toNat, hv.2⟩ ⟨v, hv.1⟩
    simp only [Char.ofNat_toNat] at this
    exact this h
  · intro h
    have hv : v < 16 := by
      rcases h with h | h
      · exact (List.getElem?_eq_some_iff.mp h).1
      · exact (List.getElem?_eq_some_iff.mp h).1
    have key : ∀ v : Fin 16, ∃ a b, "0123456789abcdef".toList[v.val]? = some a ∧ "0123456789ABCDEF".toList[v.val]? = some b ∧ hexVal a = some v.val ∧ hexVal b = some v.val := by
      have : ∀ v : Fin 16, (("0123456789abcdef".toList[v.val]?).bind hexVal) = some v.val ∧ (("0123456789ABCDEF".toList[v.val]?).bind hexVal) = some v.val := by decide
      intro v
      obtain ⟨h1, h2⟩ := this v
      obtain ⟨a, ha, h1⟩ := Option.bind_eq_some_iff.mp h1
      obtain ⟨b, hb, h2⟩ := Option.bind_eq_some_iff.mp h2
      exact ⟨a, b, ha, hb, h1, h2⟩
    obtain ⟨a, b, ha, hb, h1, h2⟩ := key ⟨v, hv⟩
    rcases h with h | h
    · rw [ha] at h; cases h; exact h1
    · rw [hb] at h; cases h; exact h2

theorem digitVal_iff (c : Char) (v : Nat) : digitVal c = some v ↔ IsDec c v := by
  constructor
  · intro h
    have hv : v < 10 ∧ c.toNat < 58 := by
      unfold digitVal at h
      split at h
      · cases h; omega
      · cases h
    have key : ∀ n : Fin 58, ∀ v : Fin 10, digitVal (Char.ofNat n) = some v.val → "0123456789".toList[v.val]? = some (Char.ofNat n) := by decide +kernel
    have := key ⟨c.toNat, hv.2⟩ ⟨v, hv.1⟩
    simp only [Char.ofNat_toNat] at this
    exact this h
  · intro h
    have hv : v < 10 := (List.getElem?_eq_some_iff.mp h).1
    have key : ∀ v : Fin 10, (("0123456789".toList[v.val]?).bind digitVal) = some v.val := by decide
    obtain ⟨a, ha, h1⟩ := Option.bind_eq_some_iff.mp (key ⟨v, hv⟩)
    unfold IsDec at h
    simp only at ha
    rw [ha] at h; cases h; exact h1

theorem isSpace_iff (c : Char) : isSpace c = true ↔ c ∈ [' ', '\t', '\n', Char.ofNat 11, Char.ofNat 12, '\r'] := by
  constructor
  · intro h
    have hc : c.toNat < 33 := by
      unfold isSpace at h
      simp only [Bool.or_eq_true, decide_eq_true_eq, Bool.and_eq_true] at h
      rcases h with rfl | ⟨_, h⟩
      · decide
      · omega
    have key : ∀ n : Fin 33, isSpace (Char.ofNat n) = true → Char.ofNat n ∈ [' ', '\t', '\n', Char.ofNat 11, Char.ofNat 12, '\r'] := by decide
    have := key ⟨c.toNat, hc⟩
    simp only [Char.ofNat_toNat] at this
    exact this h
  · have key : ∀ c ∈ [' ', '\t', '\n', Char.ofNat 11, Char.ofNat 12, '\r'], isSpace c = true := by decide
    exact key c

theorem white_iff (s : Str) : White s ↔ ∀ c ∈ s, isSpace c = true := by
  simp only [White, isSpace_iff]

theorem unhex_iff (s : Str) : ∀ b, unhex s = .ok b ↔ HexText s b := by
  fun_induction unhex s with
  | case1 =>
    intro b
    constructor
    · intro h; cases h; exact .nil
    · intro h; cases h; rfl
  | case2 c =>
    intro b
    constructor
    · intro h; cases h
    · intro h; cases h
  | case3 a b rest m n hn hm ih =>
    intro r
    constructor
    · intro h
      obtain ⟨r', h1, h⟩ := Except.bind_eq_ok h
      cases h
      exact .cons ((hexVal_iff _ _).mp hm) ((hexVal_iff _ _).mp hn) ((ih _).mp h1)
    · intro h
      cases h with
      | cons h1 h2 h3 =>
        rw [(hexVal_iff _ _).mpr h1] at hm; cases hm
        rw [(hexVal_iff _ _).mpr h2] at hn; cases hn
        rw [(ih _).mpr h3]; rfl
  | case4 a b rest hn =>
    intro r
    constructor
    · intro h; cases h
    · intro h
      cases h with
      | cons h1 h2 h3 => exact absurd ((hexVal_iff _ _).mpr h2) (hn _ _ ((hexVal_iff _ _).mpr h1))

theorem unhex_error (s : Str) : ∀ e, unhex s = .error e → e = .valueError := by
  fun_induction unhex s with
  | case1 => intro e h; cases h
  | case2 c => intro e h; cases h; rfl
  | case3 a b rest m n hn hm ih =>
    intro e h
    cases hu : unhex rest with
    | error e' => rw [hu] at h; cases h; exact ih _ hu
    | ok r => rw [hu] at h; cases h
  | case4 a b rest hn => intro e h; cases h; rfl

theorem hex_not_space {c : Char} {v : Nat} (h : IsHex c v) : isSpace c = false := by
  rw [← hexVal_iff] at h
  unfold hexVal at h
  cases hs : isSpace c with
  | false => rfl
  | true =>
    unfold isSpace at hs
    simp only [Bool.or_eq_true, decide_eq_true_eq, Bool.and_eq_true] at hs
    rcases hs with rfl | ⟨h1, h2⟩
    · cases h
    · simp only at h
      rw [if_neg (by omega), if_neg (by omega), if_neg (by omega)] at h
      cases h

theorem dropWhile_split (s : Str) : ∃ w, (∀ c ∈ w, isSpace c = true) ∧ s = w ++ s.dropWhile isSpace :=
  ⟨s.takeWhile isSpace, fun c hc => by
    have := List.all_takeWhile (l := s) (p := isSpace)
    rw [List.all_eq_true] at this
    exact this c hc, (List.takeWhile_append_dropWhile).symm⟩

theorem dropWhile_white {w t : Str} (hw : ∀ c ∈ w, isSpace c = true) (ht : ∀ c cs, t = c :: cs → isSpace c = false) : (w ++ t).dropWhile isSpace = t := by
  induction w with
  | nil =>
    cases t with
    | nil => rfl
    | cons c cs => rw [List.nil_append, List.dropWhile_cons, ht c cs rfl]; rfl
  | cons a w ih =>
    rw [List.cons_append, List.dropWhile_cons, hw a (by simp)]
    exact ih fun c hc => hw c (by simp [hc])

theorem fromhexF_iff : ∀ (n : Nat) (s : Str), s.length < n → ∀ b, fromhexF n s = .ok b ↔ SpacedHex s b := by
  intro n
  induction n with
  | zero => intro s h; omega
  | succ n ih =>
    intro s hl b
    obtain ⟨w, hw, hs⟩ := dropWhile_split s
    have hlen := congrArg List.length hs
    rw [List.length_append] at hlen
    rw [fromhexF]
    constructor
    · intro h
      split at h
      · next he => cases h; rw [he, List.append_nil] at hs; rw [hs]; exact .nil ((white_iff _).mpr hw)
      · cases h
      · next a b' rest he =>
        rw [he] at hlen hs
        simp only [List.length_cons] at hlen
        split at h
        · next x y hx hy =>
          obtain ⟨r, h1, h⟩ := Except.bind_eq_ok h
          cases h
          rw [hs]
          exact .cons ((white_iff _).mpr hw) ((hexVal_iff _ _).mp hx) ((hexVal_iff _ _).mp hy) ((ih rest (by omega) r).mp h1)
        · cases h
    · intro h
      cases h with
      | nil hw' =>
        have : s.dropWhile isSpace = [] := by
          have := dropWhile_white (w := s) (t := []) ((white_iff _).mp hw') (by simp)
          rwa [List.append_nil] at this
        rw [this]
      | @cons w' a b' m k s' r hw' ha hb hr =>
        rw [dropWhile_white ((white_iff _).mp hw') (fun c cs he => by cases he; exact hex_not_space ha)]
        simp only [(hexVal_iff _ _).mpr ha, (hexVal_iff _ _).mpr hb]
        simp only [List.length_append, List.length_cons] at hl
        rw [(ih s' (by omega) r).mpr hr]
        rfl

theorem fromhexF_error : ∀ (n : Nat) (s : Str), s.length < n → ∀ e, fromhexF n s = .error e → e = .valueError := by
  intro n
  induction n with
  | zero => intro s h; omega
  | succ n ih =>
    intro s hl e h
    obtain ⟨w, hw, hs⟩ := dropWhile_split s
    have hlen := congrArg List.length hs
    rw [List.length_append] at hlen
    rw [fromhexF] at h
    split at h
    · cases h
    · cases h; rfl
    · next a b' rest he =>
      rw [he] at hlen
      simp only [List.length_cons] at hlen
      split at h
      · cases hu : fromhexF n rest with
        | error e' => rw [hu] at h; cases h; exact ih rest (by omega) _ hu
        | ok r => rw [hu] at h; cases h
      · cases h; rfl

theorem not_dec_under {v : Nat} : ¬ IsDec '_' v := by
  intro h
  have := (digitVal_iff _ _).mpr h
  revert this
  have : digitVal '_' = none := by decide
  rw [this]
  intro h; cases h

theorem digits_iff : ∀ (s : Str) (v r : Nat),
    (digits v true s = some r ↔ ∃ ds, DecText s ds ∧ r = v * 10 ^ ds.length + decValue ds) ∧
    (digits v false s = some r ↔ (s = [] ∧ r = v) ∨ (∃ ds, DecText s ds ∧ r = v * 10 ^ ds.length + decValue ds) ∨
      ∃ s' ds, s = '_' :: s' ∧ DecText s' ds ∧ r = v * 10 ^ ds.length + decValue ds) := by
  intro s
  induction s with
  | nil =>
    intro v r
    constructor
    · constructor
      · intro h; cases h
      · rintro ⟨ds, h, _⟩; cases h
    · constructor
      · intro h; cases h; exact .inl ⟨rfl, rfl⟩
      · rintro (⟨_, rfl⟩ | ⟨ds, h, _⟩ | ⟨s', ds, h, _⟩)
        · rfl
        · cases h
        · cases h
  | cons c cs ih =>
    intro v r
    by_cases hc : c = '_'
    · subst hc
      have no : ∀ ds, ¬ DecText ('_' :: cs) ds := by
        intro ds h
        cases h with
        | one h => exact not_dec_under h
        | more h _ => exact not_dec_under h
        | under h _ => exact not_dec_under h
      constructor
      · rw [digits, if_pos rfl, if_pos rfl]
        constructor
        · intro h; cases h
        · rintro ⟨ds, h, _⟩; exact absurd h (no _)
      · rw [digits, if_pos rfl, if_neg (by simp), (ih v r).1]
        constructor
        · rintro ⟨ds, h, hr⟩; exact .inr (.inr ⟨cs, ds, rfl, h, hr⟩)
        · rintro (⟨h, _⟩ | ⟨ds, h, _⟩ | ⟨s', ds, h, h', hr⟩)
          · cases h
          · exact absurd h (no _)
          · cases h; exact ⟨ds, h', hr⟩
    · have step : ∀ u, digits v u (c :: cs) = some r ↔ ∃ ds, DecText (c :: cs) ds ∧ r = v * 10 ^ ds.length + decValue ds := by
        intro u
        rw [digits, if_neg hc]
        have arith : ∀ (d : Nat) (ds : List Nat), (10 * v + d) * 10 ^ ds.length + decValue ds = v * 10 ^ (d :: ds).length + decValue (d :: ds) := by
          intro d ds
          rw [List.length_cons, decValue, Nat.add_mul, Nat.pow_succ]
          have : 10 * v * 10 ^ ds.length = v * (10 ^ ds.length * 10) := by
            rw [Nat.mul_comm 10 v, Nat.mul_assoc, Nat.mul_comm 10]
          omega
        cases hd : digitVal c with
        | none =>
          constructor
          · intro h; cases h
          · have no : ∀ d, ¬ IsDec c d := fun d h => by rw [(digitVal_iff _ _).mpr h] at hd; cases hd
            rintro ⟨ds, h, _⟩
            cases h with
            | one h => exact absurd h (no _)
            | more h _ => exact absurd h (no _)
            | under h _ => exact absurd h (no _)
        | some d =>
          have hdec := (digitVal_iff _ _).mp hd
          have inj : ∀ d', IsDec c d' → d' = d := fun d' h => by rw [(digitVal_iff _ _).mpr h] at hd; cases hd; rfl
          simp only
          rw [(ih _ r).2]
          constructor
          · rintro (⟨rfl, rfl⟩ | ⟨ds, h, rfl⟩ | ⟨s', ds, rfl, h, rfl⟩)
            · exact ⟨[d], .one hdec, by simp [decValue]; omega⟩
            · exact ⟨d :: ds, .more hdec h, arith d ds⟩
            · exact ⟨d :: ds, .under hdec h, arith d ds⟩
          · rintro ⟨ds, h, rfl⟩
            cases h with
            | one h => cases inj _ h; exact .inl ⟨rfl, by simp [decValue]; omega⟩
            | @more _ _ _ ds h h' => cases inj _ h; exact .inr (.inl ⟨ds, h', (arith d ds).symm⟩)
            | @under _ _ s' ds h h' => cases inj _ h; exact .inr (.inr ⟨s', ds, rfl, h', (arith d ds).symm⟩)
      refine ⟨step true, ?_⟩
      rw [step false]
      constructor
      · intro h; exact .inr (.inl h)
      · rintro (⟨h, _⟩ | h | ⟨s', ds, h, _⟩)
        · cases h
        · exact h
        · cases h; exact absurd rfl hc

theorem digits_text {s : Str} {r : Nat} : digits 0 true s = some r ↔ ∃ ds, DecText s ds ∧ r = decValue ds := by
  rw [(digits_iff s 0 r).1]
  simp

theorem dec_not_space {c : Char} {v : Nat} (h : IsDec c v) : isSpace c = false ∧ c ≠ '-' ∧ c ≠ '+' ∧ c ≠ ':' := by
  have hv : v < 10 := (List.getElem?_eq_some_iff.mp h).1
  have key : ∀ v : Fin 10, ∀ c, "0123456789".toList[v.val]? = some c → isSpace c = false ∧ c ≠ '-' ∧ c ≠ '+' ∧ c ≠ ':' := by
    have : ∀ v : Fin 10, ("0123456789".toList[v.val]?).all (fun c => decide (isSpace c = false ∧ c ≠ '-' ∧ c ≠ '+' ∧ c ≠ ':')) = true := by decide
    intro v c hc
    have h := this v
    rw [hc] at h
    simpa using h
  exact key ⟨v, hv⟩ c h

/-- The digits begin and end with digits. -/
theorem DecText.ends {s : Str} {ds : List Nat} (h : DecText s ds) : (∃ c cs d, s = c :: cs ∧ IsDec c d) ∧ ∃ cs c d, s = cs ++ [c] ∧ IsDec c d := by
  induction h with
  | one h => exact ⟨⟨_, _, _, rfl, h⟩, [], _, _, rfl, h⟩
  | @more c d s ds h _ ih =>
    obtain ⟨_, cs, c', d', e, h'⟩ := ih
    exact ⟨⟨_, _, _, rfl, h⟩, c :: cs, c', d', by rw [e]; rfl, h'⟩
  | @under c d s ds h _ ih =>
    obtain ⟨_, cs, c', d', e, h'⟩ := ih
    exact ⟨⟨_, _, _, rfl, h⟩, c :: '_' :: cs, c', d', by rw [e]; rfl, h'⟩

/-- `s.strip()` -/
def strip (s : Str) : Str := ((s.dropWhile isSpace).reverse.dropWhile isSpace).reverse

theorem strip_split (s : Str) : ∃ w w', White w ∧ White w' ∧ s = w ++ (strip s ++ w') := by
  obtain ⟨w, hw, hs⟩ := dropWhile_split s
  obtain ⟨v, hv, hs'⟩ := dropWhile_split (s.dropWhile isSpace).reverse
  have := congrArg List.reverse hs'
  rw [List.reverse_reverse, List.reverse_append] at this
  refine ⟨w, v.reverse, (white_iff _).mpr hw, (white_iff _).mpr fun c hc => hv c (List.mem_reverse.mp hc), ?_⟩
  unfold strip
  rw [← this, ← hs]

theorem strip_eq {w t w' : Str} (hw : White w) (hw' : White w') (h1 : ∃ c cs, t = c :: cs ∧ isSpace c = false) (h2 : ∃ cs c, t = cs ++ [c] ∧ isSpace c = false) :
    strip (w ++ (t ++ w')) = t := by
  unfold strip
  obtain ⟨c, cs, ht, hc⟩ := h1
  obtain ⟨cs', c', ht', hc'⟩ := h2
  rw [dropWhile_white ((white_iff _).mp hw) (by
    intro a as he
    rw [ht] at he
    cases he
    exact hc), List.reverse_append, dropWhile_white (fun a ha => (white_iff _).mp hw' a (List.mem_reverse.mp ha)) (by
    intro a as he
    rw [ht', List.reverse_append] at he
    cases he
    exact hc'), List.reverse_reverse]

/-- The sign and what follows. -/
def sign : Str → Bool × Str
  | '-' :: s => (true, s)
  | '+' :: s => (false, s)
  | s => (false, s)

theorem pyInt_def (s : Str) : pyInt s = match digits 0 true (sign (strip s)).2 with
    | some n => .ok (if (sign (strip s)).1 then -(n : Int) else n)
    | none => .error .valueError := by
  unfold pyInt sign strip
  rfl

theorem sign_plain {c : Char} {cs : Str} (h1 : c ≠ '-') (h2 : c ≠ '+') : sign (c :: cs) = (false, c :: cs) := by
  unfold sign
  split
  · rename_i h; cases h; exact absurd rfl h1
  · rename_i h; cases h; exact absurd rfl h2
  · rfl

theorem pyInt_iff (s : Str) (i : Int) : pyInt s = .ok i ↔ IntText s i := by
  rw [pyInt_def]
  constructor
  · intro h
    split at h
    · next n hn =>
      simp only [Except.ok.injEq] at h
      obtain ⟨ds, hd, rfl⟩ := digits_text.mp hn
      obtain ⟨w, w', hw, hw', hs⟩ := strip_split s
      rw [hs]
      generalize strip s = t at *
      revert hd h
      unfold sign
      split
      · intro hd h
        simp only [if_true] at h
        subst h
        exact .minus hw hd hw'
      · intro hd h
        simp only [Bool.false_eq_true, if_false] at h
        subst h
        exact .plus hw hd hw'
      · intro hd h
        simp only [Bool.false_eq_true, if_false] at h
        subst h
        exact .plain hw hd hw'
    · cases h
  · intro h
    have sp : ∀ c, c = '-' ∨ c = '+' → isSpace c = false := by rintro c (rfl | rfl) <;> decide
    cases h with
    | @plain w s ds w' hw hd hw' =>
      obtain ⟨⟨c, cs, d, he, hc⟩, cs', c', d', he', hc'⟩ := hd.ends
      rw [strip_eq hw hw' ⟨c, cs, he, (dec_not_space hc).1⟩ ⟨cs', c', he', (dec_not_space hc').1⟩]
      have : sign s = (false, s) := by rw [he]; exact sign_plain (dec_not_space hc).2.1 (dec_not_space hc).2.2.1
      rw [this, digits_text.mpr ⟨ds, hd, rfl⟩]
      rfl
    | @plus w s ds w' hw hd hw' =>
      obtain ⟨_, cs', c', d', he', hc'⟩ := hd.ends
      rw [strip_eq hw hw' ⟨'+', s, rfl, sp _ (.inr rfl)⟩ ⟨'+' :: cs', c', by rw [he']; rfl, (dec_not_space hc').1⟩]
      have : sign ('+' :: s) = (false, s) := rfl
      rw [this, digits_text.mpr ⟨ds, hd, rfl⟩]
      rfl
    | @minus w s ds w' hw hd hw' =>
      obtain ⟨_, cs', c', d', he', hc'⟩ := hd.ends
      rw [strip_eq hw hw' ⟨'-', s, rfl, sp _ (.inl rfl)⟩ ⟨'-' :: cs', c', by rw [he']; rfl, (dec_not_space hc').1⟩]
      have : sign ('-' :: s) = (true, s) := rfl
      rw [this, digits_text.mpr ⟨ds, hd, rfl⟩]
      rfl

theorem pyInt_error (s : Str) : ∀ e, pyInt s = .error e → e = .valueError := by
  intro e h
  rw [pyInt_def] at h
  split at h
  · cases h
  · cases h; rfl

/-! ## C83 -/

theorem exitOn_ok {α} {x : Py α} {a : α} : exitOn x = .ok a ↔ x = .ok a := by
  unfold exitOn
  split
  · simp
  · rfl

/-- C83: a digest argument is accepted exactly if it consists of 32 bytes in hexadecimal digits, white space allowed before and
after bytes, and it is understood as these bytes; otherwise the program exits. -/
theorem C83_digest (s : Str) : (∀ d, strToDigest s = .ok d ↔ SpacedHex s d ∧ d.length = 32) ∧ ∀ e, strToDigest s = .error e → e = .systemExit := by
  constructor
  · intro d
    unfold strToDigest
    rw [exitOn_ok, ← fromhexF_iff (s.length + 1) s (by omega)]
    unfold fromhex
    cases hf : fromhexF (s.length + 1) s with
    | error e => simp [Except.bind_error]
    | ok b =>
      rw [Except.bind_ok]
      by_cases hl : b.length = 32
      · simp only [hl, ne_eq, not_true, if_false]
        constructor
        · intro h; cases h; exact ⟨rfl, hl⟩
        · rintro ⟨h, _⟩; cases h; rfl
      · simp only [hl, ne_eq, not_false_eq_true, if_true]
        constructor
        · intro h; cases h
        · rintro ⟨h, h'⟩; cases h; exact absurd h' hl
  · intro e h
    unfold strToDigest fromhex at h
    cases hf : fromhexF (s.length + 1) s with
    | error e' =>
      rw [hf, fromhexF_error _ _ (by omega) _ hf] at h
      cases h; rfl
    | ok b =>
      rw [hf, Except.bind_ok] at h
      by_cases hl : b.length = 32
      · simp only [hl, ne_eq, not_true, if_false] at h; cases h
      · simp only [hl, ne_eq, not_false_eq_true, if_true] at h; cases h; rfl

/-- C83: a transaction id is accepted exactly if it consists of an even number of hexadecimal digits; it is read backwards. -/
theorem C83_txid (s : Str) (b : Bytes) : lx s = .ok b ↔ HexText s b.reverse := by
  unfold lx
  rw [← unhex_iff]
  cases unhex s with
  | error e =>
    constructor
    · intro h; cases h
    · intro h; cases h
  | ok r =>
    rw [Except.bind_ok]
    simp only [pure, Except.pure, Except.ok.injEq]
    constructor
    · rintro rfl; rw [List.reverse_reverse]
    · rintro rfl; rw [List.reverse_reverse]

theorem hex_no_colon {s : Str} {b : Bytes} (h : HexText s b) : ':' ∉ s := by
  induction h with
  | nil => simp
  | cons h1 h2 _ ih =>
    have no : ∀ {c v}, IsHex c v → ':' ≠ c := by
      rintro c v h rfl
      have := (hexVal_iff _ _).mpr h
      rw [show hexVal ':' = none by decide] at this
      cases this
    simp only [List.mem_cons, not_or]
    exact ⟨no h1, no h2, ih⟩

theorem int_no_colon {s : Str} {i : Int} (h : IntText s i) : ':' ∉ s := by
  have hw : ∀ {w}, White w → ':' ∉ w := by
    intro w hw hc
    have := hw _ hc
    revert this; decide
  have hd : ∀ {s ds}, DecText s ds → ':' ∉ s := by
    intro s ds h
    induction h with
    | one h => simpa using (dec_not_space h).2.2.2.symm
    | more h _ ih => simp only [List.mem_cons, not_or]; exact ⟨(dec_not_space h).2.2.2.symm, ih⟩
    | under h _ ih => simp only [List.mem_cons, not_or]; exact ⟨(dec_not_space h).2.2.2.symm, by decide, ih⟩
  cases h with
  | plain h1 h2 h3 => simp [hw h1, hd h2, hw h3]
  | plus h1 h2 h3 => simp [hw h1, hd h2, hw h3]
  | minus h1 h2 h3 => simp [hw h1, hd h2, hw h3]

theorem split_colon : ∀ {s : Str}, s.count ':' = 1 → s = s.takeWhile (· ≠ ':') ++ ':' :: (s.dropWhile (· ≠ ':')).drop 1
  | [], h => by simp at h
  | c :: s, h => by
    by_cases hc : c = ':'
    · subst hc; simp
    · rw [List.count_cons_of_ne hc] at h
      have := split_colon h
      simp only [List.takeWhile_cons, List.dropWhile_cons, hc, ne_eq, not_false_eq_true, decide_true, if_true, List.cons_append]
      exact congrArg (c :: ·) this

/-- C83: an outpoint argument is accepted exactly if it is a 32 byte transaction id in hexadecimal digits, a colon and a number, as `int`
accepts it, that fits in four bytes; otherwise the program exits. -/
theorem C83_outpoint (s : Str) : (∀ o, strToCOutPoint s = .ok o ↔ ∃ h n, s = h ++ ':' :: n ∧ HexText h o.hash.reverse ∧ IntText n o.n ∧ o.hash.length = 32 ∧ 0 ≤ o.n ∧ o.n < 2 ^ 32) ∧
    ∀ e, strToCOutPoint s = .error e → e = .systemExit := by
  constructor
  · intro o
    unfold strToCOutPoint
    rw [exitOn_ok]
    constructor
    · intro h
      by_cases hc : s.count ':' = 1
      · simp only [hc, ne_eq, not_true, if_false] at h
        obtain ⟨t, ht, h⟩ := Except.bind_eq_ok h
        obtain ⟨n, hn, h⟩ := Except.bind_eq_ok h
        have hnew : o = ⟨t, n⟩ ∧ t.length = 32 ∧ 0 ≤ n ∧ n ≤ 0xffffffff := by
          unfold COutPoint.new at h
          split at h
          · cases h
          · split at h
            · cases h
            · rename_i h1 h2
              cases h
              simp only [ne_eq, Decidable.not_not] at h1
              refine ⟨rfl, h1, ?_⟩
              omega
        obtain ⟨rfl, h1, h2, h3⟩ := hnew
        exact ⟨_, _, split_colon hc, (C83_txid _ _).mp ht, (pyInt_iff _ _).mp hn, h1, h2, by simp only; omega⟩
      · simp only [hc, ne_eq, not_false_eq_true, if_true] at h
        cases h
    · rintro ⟨h, n, rfl, hh, hn, h1, h2, h3⟩
      have nh := hex_no_colon hh
      have nn := int_no_colon hn
      have hcount : (h ++ ':' :: n).count ':' = 1 := by
        rw [List.count_append, List.count_cons_self, List.count_eq_zero_of_not_mem nh, List.count_eq_zero_of_not_mem nn]
      obtain ⟨e1, e2⟩ := takeWhile_append (p := fun c => decide (c ≠ ':')) (s := h) (t := n) (c := ':') (fun c hc => by
        simp only [ne_eq, decide_eq_true_eq]; rintro rfl; exact nh hc) (by simp)
      simp only [hcount, ne_eq, not_true, if_false]
      simp only [ne_eq] at e1 e2
      rw [e1, e2, (C83_txid _ _).mpr hh]
      simp only [List.drop_succ_cons, List.drop_zero, Except.bind_ok]
      rw [(pyInt_iff _ _).mpr hn]
      simp only [Except.bind_ok]
      show COutPoint.new o.hash o.n = .ok o
      unfold COutPoint.new
      rw [if_neg (by simp [h1]), if_neg (by omega)]
  · intro e h
    unfold strToCOutPoint at h
    by_cases hc : s.count ':' = 1
    · simp only [hc, ne_eq, not_true, if_false] at h
      cases ht : unhex (s.takeWhile (· ≠ ':')) with
      | error e' =>
        have := unhex_error _ _ ht
        subst this
        have hx : lx (s.takeWhile (· ≠ ':')) = .error .valueError := by unfold lx; rw [ht]; rfl
        simp only [ne_eq] at hx
        rw [hx] at h
        cases h; rfl
      | ok t =>
        have hx : lx (s.takeWhile (· ≠ ':')) = .ok t.reverse := by unfold lx; rw [ht]; rfl
        simp only [ne_eq] at hx
        rw [hx, Except.bind_ok] at h
        cases hn : pyInt ((s.dropWhile (· ≠ ':')).drop 1) with
        | error e' =>
          have := pyInt_error _ _ hn
          subst this
          simp only [ne_eq] at hn
          rw [hn] at h
          cases h; rfl
        | ok n =>
          simp only [ne_eq] at hn
          rw [hn, Except.bind_ok] at h
          unfold COutPoint.new at h
          split at h
          · cases h; rfl
          · split at h
            · cases h; rfl
            · cases h
    · simp only [hc, ne_eq, not_false_eq_true, if_true] at h
      cases h; rfl

/-- Text that is accepted, and text that is not. -/
example : strToDigest (("0a ".toList ++ List.replicate 62 'F') ++ "\n".toList) = .ok (0x0a :: List.replicate 31 0xff) ∧ strToDigest (List.replicate 63 '0') = .error .systemExit ∧
    strToCOutPoint (List.replicate 64 'A' ++ ": +1_0 ".toList) = .ok ⟨List.replicate 32 0xaa, 10⟩ ∧ strToCOutPoint (List.replicate 64 'A' ++ ":1__0".toList) = .error .systemExit ∧
    strToCOutPoint (List.replicate 64 'A' ++ ":-1".toList) = .error .systemExit ∧ strToCOutPoint (List.replicate 64 'A' ++ ":1:2".toList) = .error .systemExit := by decide +kernel

end Verif.Sus
