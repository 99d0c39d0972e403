import Verif.Spec.Rpc
import Verif.Lemmas.SusText
import Mathlib.Tactic.Linarith
import Mathlib.Tactic.Positivity
import Mathlib.Tactic.FieldSimp
import Mathlib.Tactic.Ring
/-! # Lemmas about numbers -/
namespace Verif.Rpc
open Verif Btc Sus

theorem isDec_toNat {c : Char} {v : Nat} (h : IsDec c v) : v < 10 ∧ c.toNat = 48 + v := by
  have hv : v < 10 := (List.getElem?_eq_some_iff.mp h).1
  refine ⟨hv, ?_⟩
  have key : ∀ v : Fin 10, ∀ c, "0123456789".toList[v.val]? = some c → c.toNat = 48 + v.val := by
    intro v c h
    have : ∀ v : Fin 10, ("0123456789".toList[v.val]?).map Char.toNat = some (48 + v.val) := by decide
    have := this v
    rw [h] at this
    exact Option.some.inj this
  exact key ⟨v, hv⟩ c h

theorem isDig_of {c : Char} {v : Nat} (h : IsDec c v) : isDig c = true := by
  obtain ⟨h1, h2⟩ := isDec_toNat h
  unfold isDig
  simp only [decide_eq_true_eq]
  omega

theorem Digs.all {s : Str} {ds : List Nat} (h : Digs s ds) : ∀ c ∈ s, isDig c = true := by
  unfold Digs at h
  induction h with
  | nil => simp
  | cons h _ ih =>
    intro c hc
    rcases List.mem_cons.mp hc with rfl | hc
    · exact isDig_of h
    · exact ih c hc

theorem Digs.append {s s' : Str} {ds ds' : List Nat} (h : Digs s ds) (h' : Digs s' ds') : Digs (s ++ s') (ds ++ ds') := by
  unfold Digs at *
  induction h with
  | nil => exact h'
  | cons h _ ih => exact .cons h ih

theorem Digs.foldl {s : Str} {ds : List Nat} (h : Digs s ds) : ∀ v, s.foldl (fun v c => 10 * v + (c.toNat - 48)) v = v * 10 ^ ds.length + decValue ds := by
  unfold Digs at h
  induction h with
  | nil => intro v; simp [decValue]
  | @cons c d s ds h _ ih =>
    intro v
    rw [List.foldl_cons, ih, (isDec_toNat h).2]
    simp only [decValue, List.length_cons, pow_succ]
    rw [show 48 + d - 48 = d by omega]
    ring

theorem Digs.digVal {s : Str} {ds : List Nat} (h : Digs s ds) : digVal s = decValue ds := by
  unfold Rpc.digVal
  rw [h.foldl]
  simp

theorem Digs.ne {s : Str} {ds : List Nat} (h : Digs s ds) (hd : ds ≠ []) : s ≠ [] := by
  rintro rfl
  unfold Digs at h
  cases h
  exact hd rfl

theorem takeWhile_all {p : Char → Bool} {s t : Str} (h : ∀ c ∈ s, p c = true) (ht : ∀ c, t.head? = some c → p c = false) :
    (s ++ t).takeWhile p = s ∧ (s ++ t).dropWhile p = t := by
  induction s with
  | nil =>
    cases t with
    | nil => exact ⟨rfl, rfl⟩
    | cons c t =>
      have := ht c rfl
      simp [List.takeWhile_cons, List.dropWhile_cons, this]
  | cons c s ih =>
    have h1 := h c (by simp)
    obtain ⟨i1, i2⟩ := ih (fun d hd => h d (by simp [hd]))
    simp [List.takeWhile_cons, List.dropWhile_cons, h1, i1, i2]

theorem exp_no_dig {x : Str} {e : Int} (h : ExpPart x e) : ∀ c, x.head? = some c → isDig c = false ∧ c ≠ '.' := by
  intro c hc
  cases h with
  | none => cases hc
  | plain h _ _ | plus h _ _ | minus h _ _ =>
    cases hc
    rcases h with rfl | rfl <;> decide

theorem jsonExp_of {x : Str} {e : Int} (h : ExpPart x e) : jsonExp x = some (if x = [] then none else some e) := by
  have all : ∀ {s ds}, Digs s ds → ds ≠ [] → (s ≠ [] ∧ s.all isDig = true) := by
    intro s ds h hd
    exact ⟨h.ne hd, by rw [List.all_eq_true]; exact h.all⟩
  cases h with
  | none => rfl
  | @plain c s ds hc hs hd =>
    unfold jsonExp
    have hcs := all hs hd
    simp only [hc, if_true]
    have h1 : ∀ t, s ≠ '-' :: t := by
      rintro t rfl
      have := hs.all '-' (by simp)
      revert this; decide
    have h2 : ∀ t, s ≠ '+' :: t := by
      rintro t rfl
      have := hs.all '+' (by simp)
      revert this; decide
    split
    · exact absurd rfl (h1 _)
    · exact absurd rfl (h2 _)
    · rw [if_pos hcs, hs.digVal]; simp
  | plus hc hs hd =>
    unfold jsonExp
    simp only [hc, if_true, all hs hd, hs.digVal]
    simp [hs.ne hd]
  | minus hc hs hd =>
    unfold jsonExp
    simp only [hc, if_true, all hs hd, hs.digVal]
    simp [hs.ne hd]

theorem jsonFrac_of {f x : Str} {fs : List Nat} {e : Int} (hf : FracPart f fs) (hx : ExpPart x e) :
    jsonFrac (f ++ x) = some (if f = [] then none else some f.tail, x) := by
  have hn := exp_no_dig hx
  cases hf with
  | none =>
    rw [List.nil_append, if_pos rfl]
    unfold jsonFrac
    split
    · exact absurd rfl (hn '.' rfl).2
    · rfl
  | some hs hd =>
    obtain ⟨h1, h2⟩ := takeWhile_all (p := isDig) hs.all (fun c hc => (hn c hc).1)
    unfold jsonFrac
    simp only [List.cons_append, h1, h2, List.tail_cons, reduceCtorEq, if_false]
    rw [if_neg (hs.ne hd)]

theorem decValue_append (a b : List Nat) : decValue (a ++ b) = decValue a * 10 ^ b.length + decValue b := by
  induction a with
  | nil => simp [decValue]
  | cons d a ih => simp only [List.cons_append, decValue, ih, List.length_append, pow_add]; ring

/-- What the text of a number is read as. -/
theorem jsonNumber_of {s : Str} {neg : Bool} {c : Nat} {e : Int} (h : NumText s neg c e) :
    jsonNumber s = some (.dec (if neg then -(c : Int) else c) e) ∨ jsonNumber s = some (.int (if neg then -(c : Int) else c)) ∧ e = 0 := by
  have key : ∀ {i f x : Str} {ds fs : List Nat} {e : Int} (neg : Bool), IntPart i ds → FracPart f fs → ExpPart x e →
      jsonNumber ((if neg then ['-'] else []) ++ (i ++ (f ++ x))) = some (.dec (if neg then -(decValue (ds ++ fs) : Int) else decValue (ds ++ fs)) (e - fs.length)) ∨
      jsonNumber ((if neg then ['-'] else []) ++ (i ++ (f ++ x))) = some (.int (if neg then -(decValue (ds ++ fs) : Int) else decValue (ds ++ fs))) ∧ e - fs.length = 0 := by
    intro i f x ds fs e neg hi hf hx
    obtain ⟨hi1, hi2, hi3⟩ := hi
    have hfx : ∀ c, (f ++ x).head? = some c → isDig c = false := by
      intro c hc
      cases hf with
      | none => exact (exp_no_dig hx c hc).1
      | some _ _ => cases hc; decide
    obtain ⟨t1, t2⟩ := takeWhile_all (p := isDig) hi1.all hfx
    have hsign : jsonSign ((if neg then ['-'] else []) ++ (i ++ (f ++ x))) = (neg, i ++ (f ++ x)) := by
      unfold jsonSign
      cases neg with
      | true => rfl
      | false =>
        simp only [Bool.false_eq_true, if_false, List.nil_append]
        cases i with
        | nil => exact absurd rfl (hi1.ne hi2)
        | cons d i =>
          split
          · rename_i heq
            simp only [List.cons_append, List.cons.injEq] at heq
            have := hi1.all d (by simp)
            rw [heq.1] at this
            exact absurd this (by decide)
          · rfl
    have hz : ¬ (i = [] ∨ (i.head? = some '0' ∧ i.length ≠ 1)) := by
      rintro (h | ⟨h, h'⟩)
      · exact hi1.ne hi2 h
      · unfold Digs at hi1
        cases hi1 with
        | nil => cases h
        | @cons c d i ds h1 h2 =>
          cases h
          have : d = 0 := by
            have := (isDec_toNat h1).2
            rw [show '0'.toNat = 48 by decide] at this
            omega
          subst this
          have := hi3 rfl
          rw [List.length_cons, h2.length_eq] at h'
          exact h' this
    have e0 : jsonNumber ((if neg then ['-'] else []) ++ (i ++ (f ++ x))) =
        (jsonFrac (f ++ x)).bind fun a => (jsonExp a.2).bind fun e =>
          match a.1, e with
          | none, none => some (.int (if neg then -(digVal i : Int) else digVal i))
          | f, e => some (.dec (if neg then -(digVal (i ++ f.getD []) : Int) else digVal (i ++ f.getD [])) (e.getD 0 - (f.getD []).length)) := by
      unfold jsonNumber
      rw [hsign]
      simp only [t1, t2]
      rw [if_neg hz]
      rfl
    rw [e0, jsonFrac_of hf hx, Option.bind_some, jsonExp_of hx, Option.bind_some]
    cases hf with
    | none =>
      rw [if_pos rfl]
      by_cases hx0 : x = []
      · subst hx0
        cases hx
        right
        simp only [if_true, List.append_nil, hi1.digVal]
        simp
      · left
        simp only [hx0, if_false, List.append_nil, hi1.digVal]
        simp [hi1.digVal]
    | @some f _ hf1 hf2 =>
      left
      simp only [reduceCtorEq, if_false, List.tail_cons]
      have e1 : digVal (i ++ f) = decValue (ds ++ fs) := (hi1.append hf1).digVal
      have e2 : f.length = fs.length := List.Forall₂.length_eq hf1
      by_cases hx0 : x = []
      · subst hx0
        cases hx
        simp only [if_true, Option.getD_some, Option.getD_none, e1, e2]
      · simp only [hx0, if_false, Option.getD_some, e1, e2]
  cases h with
  | pos hi hf hx => exact key false hi hf hx
  | neg hi hf hx => exact key true hi hf hx

theorem numDigits_le (k : Nat) : ∀ c, numDigits c ≤ k + 1 ↔ c < 10 ^ (k + 1) := by
  induction k with
  | zero =>
    intro c
    unfold numDigits
    split
    · simp; assumption
    · have : 1 ≤ numDigits (c / 10) := by unfold numDigits; split <;> omega
      constructor
      · intro h; omega
      · intro h; omega
  | succ k ih =>
    intro c
    unfold numDigits
    split
    · rename_i h
      constructor
      · intro _
        calc c < 10 := h
          _ = 10 ^ 1 := by norm_num
          _ ≤ 10 ^ (k + 1 + 1) := Nat.pow_le_pow_right (by norm_num) (by omega)
      · intro _; omega
    · rw [Nat.add_le_add_iff_right, ih, pow_succ 10 (k + 1)]
      omega

theorem toSat_dec {c : Int} {e : Int} (hc : c.natAbs < 10 ^ 20) (he : e ≤ 900000) :
    toSat (.dec c e) = .ok (if c < 0 then -(truncDec (c.natAbs * COIN) e : Int) else truncDec (c.natAbs * COIN) e) := by
  have h1 : c.natAbs * COIN < 10 ^ 28 := by
    unfold COIN
    omega
  have h2 : numDigits (c.natAbs * COIN) ≤ 28 := (numDigits_le 27 _).mpr h1
  have h3 : round28 (c.natAbs * COIN) e = (c.natAbs * COIN, e) := by unfold round28; rw [if_pos h2]
  show decToSat c e = _
  unfold decToSat
  rw [h3]
  simp only
  rw [if_neg]
  rintro ⟨_, h⟩
  omega

theorem truncDec_spec (c : Nat) (e : Int) : (truncDec c e : ℚ) ≤ c * (10 : ℚ) ^ e ∧ c * (10 : ℚ) ^ e < truncDec c e + 1 := by
  unfold truncDec
  split
  · rename_i h
    obtain ⟨k, rfl⟩ := Int.eq_ofNat_of_zero_le h
    simp only [Int.ofNat_eq_natCast, Int.toNat_natCast, zpow_natCast]
    push_cast
    exact ⟨le_refl _, by linarith⟩
  · rename_i h
    obtain ⟨k, hk⟩ : ∃ k : Nat, e = -(k : Int) := ⟨(-e).toNat, by omega⟩
    subst hk
    rw [show (- -(k : Int)).toNat = k by omega, zpow_neg, zpow_natCast, ← div_eq_mul_inv]
    have hp : (0 : ℚ) < 10 ^ k := by positivity
    constructor
    · rw [le_div_iff₀ hp]
      have := Nat.div_mul_le_self c (10 ^ k)
      exact_mod_cast this
    · rw [div_lt_iff₀ hp]
      have := Nat.lt_div_mul_add (a := c) (b := 10 ^ k) (by positivity)
      have h2 : c < (c / 10 ^ k + 1) * 10 ^ k := by rw [add_mul, one_mul]; exact this
      exact_mod_cast h2

theorem IsTrunc.unique {x : ℚ} {n m : Int} (hn : IsTrunc x n) (hm : IsTrunc x m) : n = m := by
  obtain ⟨a1, a2, a3⟩ := hn
  obtain ⟨b1, b2, b3⟩ := hm
  have h1 : |n| = |m| := by
    have e1 : |(n : ℚ)| < |(m : ℚ)| + 1 := by linarith
    have e2 : |(m : ℚ)| < |(n : ℚ)| + 1 := by linarith
    have e1' : |n| < |m| + 1 := by exact_mod_cast e1
    have e2' : |m| < |n| + 1 := by exact_mod_cast e2
    omega
  rcases abs_eq_abs.mp h1 with h | h
  · exact h
  · subst h
    push_cast at a3
    have hx : x * (m : ℚ) = 0 := by linarith
    rcases mul_eq_zero.mp hx with h | h
    · subst h
      have : |(m : ℚ)| ≤ 0 := by simpa using b1
      have : (m : ℚ) = 0 := by simpa using this
      have : m = 0 := by exact_mod_cast this
      subst this; rfl
    · have : m = 0 := by exact_mod_cast h
      subst this; rfl

theorem IsTrunc.of_trunc (neg : Bool) (c : Nat) (e : Int) (n : Nat) (h1 : (n : ℚ) ≤ c * (10 : ℚ) ^ e) (h2 : c * (10 : ℚ) ^ e < n + 1) :
    IsTrunc (numValue neg c e) (if neg then -(n : Int) else n) := by
  have hp : (0 : ℚ) ≤ c * (10 : ℚ) ^ e := mul_nonneg (Nat.cast_nonneg _) (zpow_nonneg (by norm_num) _)
  have hn : (0 : ℚ) ≤ n := by positivity
  unfold IsTrunc numValue
  cases neg with
  | true =>
    simp only [if_true]
    push_cast
    rw [neg_one_mul, neg_mul, abs_neg, abs_neg, abs_of_nonneg hp, abs_of_nonneg hn]
    refine ⟨h1, by linarith, by nlinarith⟩
  | false =>
    simp only [Bool.false_eq_true, if_false]
    push_cast
    rw [one_mul, abs_of_nonneg hp, abs_of_nonneg hn]
    refine ⟨h1, by linarith, by positivity⟩

theorem numValue_coin (neg : Bool) (c : Nat) (e : Int) : numValue neg (c * COIN) e = numValue neg c e * 10 ^ 8 := by
  unfold numValue COIN
  push_cast
  ring

/-- The amount that a number in a response is taken for. -/
theorem toSat_of {s : Str} {neg : Bool} {c : Nat} {e : Int} (h : NumText s neg c e) (hc : c < 10 ^ 20) (he : e ≤ 900000) :
    ∃ j n, jsonNumber s = some j ∧ toSat j = .ok n ∧ IsTrunc (numValue neg c e * 10 ^ 8) n := by
  rw [← numValue_coin]
  have sg : ∀ k : Nat, (k = 0 → neg = true → truncDec (k * COIN) e = 0) := by
    intro k hk _
    subst hk
    unfold truncDec
    simp
  rcases jsonNumber_of h with hj | ⟨hj, rfl⟩
  · obtain ⟨t1, t2⟩ := truncDec_spec (c * COIN) e
    refine ⟨_, _, hj, toSat_dec (by cases neg <;> simpa using hc) he, ?_⟩
    have := IsTrunc.of_trunc neg (c * COIN) e _ t1 t2
    convert this using 1
    cases neg with
    | false =>
      simp only [Bool.false_eq_true, if_false, Int.natAbs_natCast]
      rw [if_neg (by omega)]
    | true =>
      simp only [if_true, Int.natAbs_neg, Int.natAbs_natCast]
      by_cases h0 : c = 0
      · rw [sg c h0 rfl]; simp
      · rw [if_pos (by omega)]
  · refine ⟨_, _, hj, rfl, ?_⟩
    have := IsTrunc.of_trunc neg (c * COIN) 0 (c * COIN) (by simp) (by simp)
    convert this using 1
    cases neg <;> simp

/-! ## Calls -/

section
variable {σ : Type} {S : Server σ} {s : PSt σ} {t : σ}

theorem RM.bind_ok {α β : Type} {x : RM σ α} {f : α → RM σ β} {s s' : PSt σ} {a : α} (h : x s = (.ok a, s')) : (x >>= f) s = f a s' := by
  show RM.bind x f s = _
  unfold RM.bind
  rw [h]

theorem RM.bind_error {α β : Type} {x : RM σ α} {f : α → RM σ β} {s s' : PSt σ} {e : RErr} (h : x s = (.error e, s')) : (x >>= f) s = (.error e, s') := by
  show RM.bind x f s = _
  unfold RM.bind
  rw [h]

theorem call_answers {m : String} {ps : List Json} {r : Json} (h : Answers S s m ps r t) : call S (T m) ps s = (.ok r, ⟨s.count + 1, t⟩) := by
  obtain ⟨l, h1, h2, h3⟩ := h
  unfold call
  simp only [h1]
  unfold useResponse Json.get
  simp only [h2, h3]

theorem call_refuses {m : String} {ps : List Json} {err : Json} (h : Refuses S s m ps err t) : call S (T m) ps s = (.error (.rpc err), ⟨s.count + 1, t⟩) := by
  obtain ⟨l, k, n, h1, h2, rfl, h3, h4⟩ := h
  obtain ⟨v, hv⟩ := Option.isSome_iff_exists.mp h3
  unfold call
  simp only [h1]
  unfold useResponse raiseRpc Json.get
  simp only [h2, hv, h4]

theorem indexed_ok {α : Type} {x : RM σ α} {s s' : PSt σ} {a : α} (h : x s = (.ok a, s')) : indexed x s = (.ok a, s') := by
  unfold indexed
  rw [h]

theorem indexed_refuses {α : Type} {x : RM σ α} {s s' : PSt σ} {k : List (Str × Json)} {n : Int} (hn : k.lookup "code".toList = some (.int n))
    (h : x s = (.error (.rpc (.obj k)), s')) : indexed x s = (.error (.py .indexError), s') := by
  unfold indexed
  rw [h]
  unfold indexErr Json.get
  simp only [hn]

theorem RM.lift_ok {α : Type} {x : Py α} {a : α} (h : x = .ok a) : (RM.lift x : RM σ α) s = (.ok a, s) := by
  unfold RM.lift
  rw [h]

theorem RM.lift_error {α : Type} {x : Py α} {e : PyErr} (h : x = .error e) : (RM.lift x : RM σ α) s = (.error (.py e), s) := by
  unfold RM.lift
  rw [h]

/-- A call that returns was answered. -/
theorem call_ok {m : String} {ps : List Json} {r : Json} {s' : PSt σ} (h : call S (T m) ps s = (.ok r, s')) :
    ∃ t, Answers S s m ps r t ∧ s' = ⟨s.count + 1, t⟩ := by
  unfold call at h
  simp only [Prod.mk.injEq] at h
  obtain ⟨h1, h2⟩ := h
  refine ⟨(S.handle s.node ⟨T m, ps, s.count + 1⟩).2, ?_, h2.symm⟩
  cases hr : S.handle s.node ⟨T m, ps, s.count + 1⟩ with
  | mk o t =>
    rw [hr] at h1
    cases o with
    | none => cases h1
    | some j =>
      cases j with
      | obj l =>
        unfold useResponse Json.get at h1
        simp only at h1
        cases he : l.lookup (T "error") with
        | none => rw [he] at h1; cases h1
        | some v =>
          rw [he] at h1
          have raise : ∀ (v : Json), raiseRpc v ≠ .ok r := by
            intro v hv
            unfold raiseRpc at hv
            split at hv
            · cases hv
            · split at hv <;> cases hv
          cases v with
          | null =>
            simp only at h1
            cases hr' : l.lookup (T "result") with
            | none => rw [hr'] at h1; exact absurd h1 (raise _)
            | some v => rw [hr'] at h1; cases h1; exact ⟨l, hr, he, hr'⟩
          | _ => exact absurd h1 (raise _)
      | _ => cases h1

theorem bind_inv {α β : Type} {x : RM σ α} {f : α → RM σ β} {s s' : PSt σ} {b : β} (h : (x >>= f) s = (.ok b, s')) :
    ∃ a s1, x s = (.ok a, s1) ∧ f a s1 = (.ok b, s') := by
  cases hx : x s with
  | mk r s1 =>
    cases r with
    | ok a => rw [RM.bind_ok hx] at h; exact ⟨a, s1, rfl, h⟩
    | error e => rw [RM.bind_error hx] at h; cases h

theorem lift_inv {α : Type} {x : Py α} {s' : PSt σ} {a : α} (h : (RM.lift x : RM σ α) s = (.ok a, s')) : x = .ok a ∧ s' = s := by
  unfold RM.lift at h
  cases x with
  | ok b => cases h; exact ⟨rfl, rfl⟩
  | error e => cases h
end

theorem b2x_eq (b : Bytes) : b2x b = hexText b := by
  unfold b2x hexText
  congr 1
  funext x
  have h1 : ∀ d : Fin 16, hexChar d = "0123456789abcdef".toList.getD d '?' := by decide
  have h2 := x.isLt
  have h3 := h1 ⟨x.toNat / 16, by omega⟩
  have h4 := h1 ⟨x.toNat % 16, by omega⟩
  simp only at h3 h4
  rw [h3, h4]

theorem b2lx_eq (b : Bytes) : b2lx b = shownHash b := b2x_eq _

theorem unhex_hexText (b : Bytes) : unhex (hexText b) = .ok b := by rw [← b2x_eq, unhex_b2x]

theorem lx_shown (b : Bytes) : lx (shownHash b) = .ok b := by rw [← b2lx_eq, lx_b2lx]

/-! ## Dictionaries -/

theorem lookup_ofObj (l : List (Str × Json)) (k : Str) : (Dict.ofObj l).lookup k = (l.lookup k).map .json := by
  unfold Dict.ofObj
  induction l with
  | nil => rfl
  | cons a l ih =>
    rw [List.map_cons, List.lookup_cons, List.lookup_cons]
    split <;> simp_all

theorem lookup_set (d : Dict) (k : Str) (v : PyV) (k' : Str) : (d.set k v).lookup k' = if k' = k then some v else d.lookup k' := by
  unfold Dict.set
  have map : ∀ d : Dict, (d.map fun kv => if kv.1 = k then (k, v) else kv).lookup k' = if k' = k then (d.lookup k).map (fun _ => v) else d.lookup k' := by
    intro d
    induction d with
    | nil => simp
    | cons a d ih =>
      rw [List.map_cons, List.lookup_cons, List.lookup_cons, List.lookup_cons, ih]
      by_cases h1 : a.1 = k
      · by_cases h2 : k' = k
        · subst h2; simp [h1]
        · have : (k' == k) = false := by simpa using h2
          simp [h1, h2, this]
      · by_cases h2 : k' = k
        · subst h2
          have h3 : (k' == a.1) = false := by simpa using fun h => h1 h.symm
          simp [h1, h3]
        · simp [h1, h2]
  split
  · rename_i h
    rw [map]
    obtain ⟨w, hw⟩ := Option.isSome_iff_exists.mp h
    rw [hw]; rfl
  · rename_i h
    rw [List.lookup_append]
    by_cases h2 : k' = k
    · subst h2
      have : d.lookup k' = none := by
        cases hd : d.lookup k' with
        | none => rfl
        | some v => rw [hd] at h; exact absurd rfl h
      rw [this]
      simp [List.lookup_cons]
    · have : (k' == k) = false := by simpa using h2
      simp [List.lookup_cons, this, h2]

theorem del_ok {d : Dict} {k : Str} {v : PyV} (h : d.lookup k = some v) :
    ∃ d', d.del k = .ok d' ∧ ∀ k', d'.lookup k' = if k' = k then none else d.lookup k' := by
  unfold Dict.del
  rw [h]
  refine ⟨_, if_pos rfl, ?_⟩
  intro k'
  clear h
  induction d with
  | nil => simp
  | cons a d ih =>
    rw [List.filter_cons]
    by_cases h1 : a.1 = k
    · simp only [h1, ne_eq, not_true, decide_false, Bool.false_eq_true, if_false]
      rw [ih, List.lookup_cons]
      by_cases h2 : k' = k
      · simp [h2]
      · have : (k' == a.1) = false := by rw [h1]; simpa using h2
        simp [h2, this]
    · simp only [h1, ne_eq, not_false_eq_true, decide_true, if_true]
      rw [List.lookup_cons, List.lookup_cons, ih]
      by_cases h2 : k' = k
      · have : (k' == a.1) = false := by rw [h2]; simpa using fun h => h1 h.symm
        rw [this, if_pos h2]
      · simp [h2]

end Verif.Rpc
