import Verif.Lemmas.Repr2
/-! # The texts of transactions -/
namespace Verif.Rp
open Verif Verif.Btc Verif.Sus Verif.Rpc

/-! ## Calls, some of whose arguments may be no expressions -/

/-- `text` is an expression, or (`none`) nothing that could be an argument. -/
def Shown (text : Str) : Option Expr → Prop
  | some e => ExprAt text e
  | none => BadAt text ∧ text ≠ []

theorem Shown.eval {text : Str} {o : Option Expr} (h : Shown text o) : evalText text = o.bind eval := by
  cases o with
  | none => simp [evalText, h.1.parse]
  | some e => simp [evalText, ExprAt.parse h]

theorem shown_args {ss : List Str} {os : List (Option Expr)} (h : List.Forall₂ Shown ss os) :
    (∃ es, os.mapM id = some es ∧ List.Forall₂ ExprAt ss es) ∨
    (os.mapM id = none ∧ ∃ us es bad ts, ss = us ++ bad :: ts ∧ List.Forall₂ ExprAt us es ∧ BadAt bad ∧ bad ≠ []) := by
  induction h with
  | nil => exact .inl ⟨[], rfl, .nil⟩
  | @cons s o ss os h hs ih =>
    cases o with
    | none => exact .inr ⟨by simp [List.mapM_cons], [], [], s, ss, rfl, .nil, h.1, h.2⟩
    | some e =>
      rcases ih with ⟨es, h1, h2⟩ | ⟨h1, us, es, bad, ts, rfl, h2, h3⟩
      · exact .inl ⟨e :: es, by rw [List.mapM_cons, h1]; rfl, .cons h h2⟩
      · exact .inr ⟨by rw [List.mapM_cons, h1]; rfl, s :: us, e :: es, bad, ts, rfl, .cons h h2, h3⟩

theorem shown_call {c : Char} {f : Str} (hc : decChar c = false) (hf : ∀ x ∈ c :: f, wordChar x = true) {ss : List Str} {os : List (Option Expr)}
    (h : List.Forall₂ Shown ss os) : Shown (c :: f ++ '(' :: (join ss ++ [')'])) ((os.mapM id).map (.call (c :: f))) := by
  rcases shown_args h with ⟨es, h1, h2⟩ | ⟨h1, us, es, bad, ts, rfl, h2, h3, h4⟩
  · rw [h1]
    exact (call_at hc hf (args_join (.inl rfl) h2).1).expr
  · rw [h1]
    exact ⟨call_bad hc hf (no_args (.inl rfl) h2 h3 h4 ts).1, by simp⟩

theorem shown_seq (list : Bool) {ss : List Str} {os : List (Option Expr)} (h : List.Forall₂ Shown ss os) :
    Shown (reprSeq list ss) ((os.mapM id).map (if list then .list else .tuple)) := by
  have hjoin : reprSeq list ss = if list then '[' :: (join ss ++ [']']) else if ss.length = 1 then '(' :: ((join ss ++ [',']) ++ [')']) else '(' :: (join ss ++ [')']) := by
    unfold reprSeq
    cases list with
    | true => simp
    | false =>
      match ss with
      | [] => simp
      | [a] => simp [join]
      | a :: b :: l => simp
  rcases shown_args h with ⟨es, h1, h2⟩ | ⟨h1, us, es, bad, ts, rfl, h2, h3, h4⟩
  · rw [h1, hjoin]
    cases list with
    | true =>
      simp only [if_true]
      exact (list_at (args_join (.inr rfl) h2).1).expr
    | false =>
      simp only [Bool.false_eq_true, if_false]
      by_cases hl : ss.length = 1
      · rw [if_pos hl]
        cases h2 with
        | nil => simp at hl
        | @cons s e ss es h2 hs =>
          cases hs with
          | cons _ _ => simp at hl
          | nil =>
            refine (tuple_at (comma := true) (es := [e]) ?_ (by simp)).expr
            intro n hn rest
            obtain ⟨m, rfl⟩ : ∃ m, n = m + 1 := ⟨n - 1, by omega⟩
            obtain ⟨c, t, hs, g1, g2, g3⟩ := h2.head
            have hp := h2 m (by simp [join] at hn; omega) (',' :: ')' :: rest) .comma
            have e1 : (join [s] ++ [',']) ++ ')' :: rest = s ++ ',' :: ')' :: rest := by simp [join]
            rw [e1]
            rw [hs, List.cons_append] at hp ⊢
            simp only [pArgs, g2, if_false]
            rw [hp]
            obtain ⟨k, rfl⟩ : ∃ k, m = k + 1 := ⟨m - 1, by simp [join] at hn; omega⟩
            simp [pArgs]
      · rw [if_neg hl]
        refine (tuple_at (args_join (.inl rfl) h2).1 ?_).expr
        intro _
        rw [← h2.length_eq]
        exact hl
  · rw [h1, hjoin]
    cases list with
    | true =>
      simp only [if_true]
      exact ⟨list_bad (no_args (.inr rfl) h2 h3 h4 ts).1 (by simp), by simp⟩
    | false =>
      simp only [Bool.false_eq_true, if_false]
      split
      · rw [List.append_assoc]
        exact ⟨tuple_bad (no_args (.inl rfl) h2 h3 h4 ts).1 (by simp), by simp⟩
      · exact ⟨tuple_bad (no_args (.inl rfl) h2 h3 h4 ts).1 (by simp), by simp⟩

theorem evals_os : ∀ os : List (Option Expr), (os.mapM id).bind evals = os.mapM fun o : Option Expr => o.bind eval
  | [] => rfl
  | o :: os => by
    rw [List.mapM_cons, List.mapM_cons, ← evals_os os]
    cases o with
    | none => rfl
    | some e =>
      cases h : os.mapM id with
      | none => simp
      | some es => simp [evals]

theorem eval_call (f : Str) (os : List (Option Expr)) :
    ((os.mapM id).map (Expr.call f)).bind eval = (os.mapM fun o : Option Expr => o.bind eval).bind (callLib (String.ofList f)) := by
  rw [← evals_os]
  cases os.mapM id with
  | none => rfl
  | some es => simp [eval]

theorem eval_seq (list : Bool) (os : List (Option Expr)) :
    ((os.mapM id).map (if list then Expr.list else Expr.tuple)).bind eval =
      (os.mapM fun o : Option Expr => o.bind eval).map (if list then Val.list else Val.tuple) := by
  rw [← evals_os]
  cases os.mapM id with
  | none => rfl
  | some es => cases list <;> simp only [eval, Option.map_some, Option.bind_some, Option.bind_eq_bind, if_true, Bool.false_eq_true, if_false, pure] <;> (cases evals es <;> rfl)

/-! ## Scripts -/

/-- What comes of a script. -/
def reread (s : Bytes) : Option Bytes :=
  match scriptItems s with
  | .ok is => (mkScript is).toOption
  | .error _ => none

theorem reread_tokens {ts : List Tok} (h : WFToks ts) : reread (scriptOf ts) = some (scriptOf (ts.map Tok.canon)) := by
  rw [reread, scriptItems_scriptOf h]
  simp only
  rw [(mkScript_items h).1]
  rfl

theorem reread_some {s s' : Bytes} : reread s = some s' ↔ ∃ ts, WFToks ts ∧ s = scriptOf ts ∧ s' = scriptOf (ts.map Tok.canon) := by
  constructor
  · intro h
    obtain ⟨ts, bad, h1, h2, h3, h4⟩ := scriptItems_any s
    by_cases hb : bad = []
    · subst hb
      rw [List.append_nil] at h2
      refine ⟨ts, h1, h2, ?_⟩
      rw [h2, reread_tokens h1] at h
      simpa using h.symm
    · rw [reread, h4, if_neg hb] at h
      cases h
  · rintro ⟨ts, h1, rfl, rfl⟩
    exact reread_tokens h1

theorem script_shown (s : Bytes) : ∃ text o, reprScript s = .ok text ∧ Shown text o ∧ o.bind eval = (reread s).map .script := by
  obtain ⟨ts, bad, h1, h2, h3, h4⟩ := scriptItems_any s
  by_cases hb : bad = []
  · subst hb
    rw [List.append_nil] at h2
    subst h2
    refine ⟨_, some (scriptExpr (ts.map Tok.item)), reprScript_ok h1, (script_at _).expr, ?_⟩
    rw [Option.bind_some, eval_script, (mkScript_items h1).1, reread_tokens h1]
    rfl
  · obtain ⟨text, g1, g2, g3⟩ := reprScript_bad h1 hb (bad_error h3)
    refine ⟨text, none, by rw [h2]; exact g1, ⟨g2, g3⟩, ?_⟩
    rw [reread, h4, if_neg hb]
    rfl

/-! ## Outputs spent, inputs -/

theorem outpoint_shown {o : COutPoint} (h1 : o.hash.length = 32) (h2 : 0 ≤ o.n ∧ o.n ≤ 0xffffffff) :
    ∃ e, ExprAt (reprOutPoint o) e ∧ eval e = some (.outpoint o) := by
  unfold reprOutPoint
  split
  · rename_i hn
    have : "COutPoint()".toList = 'C' :: "OutPoint".toList ++ '(' :: ([] ++ [')']) := rfl
    rw [this]
    refine ⟨_, (call_at (by decide) (by decide) args_nil).expr, ?_⟩
    have ho : o = ⟨List.replicate 32 0#8, 0xffffffff⟩ := by
      simp only [COutPoint.isNull, Bool.and_eq_true, beq_iff_eq] at hn
      cases o
      simp_all
    rw [ho]
    simp only [eval, evals, Option.bind_eq_bind, Option.bind_some]
    exact result_ok (x := COutPoint.new (List.replicate 32 0#8) 0xffffffff) (by decide +kernel)
  · have hl : AtomAt ('l' :: "x".toList ++ '(' :: (('\'' :: (b2x o.hash.reverse ++ ['\''])) ++ [')'])) _ := call_at (by decide) (by decide) (data_args _)
    have ha := args_cons (.inl rfl) hl.expr (args_one (close := ')') (.inl rfl) (dec_at o.n).expr) (by
      obtain ⟨c, t, e, h, _⟩ := (dec_at o.n).expr.head
      intro r h'
      rw [e] at h'
      simp at h'
      exact h h'.1)
    have hc := call_at (c := 'C') (f := "OutPoint".toList) (by decide) (by decide) ha
    have e : "COutPoint(lx('".toList ++ (b2lx o.hash ++ ("'), ".toList ++ (dec o.n ++ ")".toList))) =
      'C' :: "OutPoint".toList ++ '(' :: ((('l' :: "x".toList ++ '(' :: (('\'' :: (b2x o.hash.reverse ++ ['\''])) ++ [')'])) ++ (", ".toList ++ dec o.n)) ++ [')']) := by
      simp [b2lx]
    rw [e]
    refine ⟨_, hc.expr, ?_⟩
    simp only [eval, evals, eval_int, Option.bind_eq_bind, Option.bind_some, pure]
    have hx : callLib (String.ofList ('l' :: "x".toList)) [Val.str (b2x o.hash.reverse)] = some (.bytes o.hash) := result_ok (lx_b2lx o.hash)
    rw [hx]
    simp only [Option.bind_some]
    refine result_ok (x := COutPoint.new o.hash o.n) ?_
    rw [COutPoint.new, if_neg (by simpa using h1), if_neg (by simpa using h2)]

theorem txin_shown {i : CTxIn} (h1 : i.prevout.hash.length = 32) (h2 : 0 ≤ i.prevout.n ∧ i.prevout.n ≤ 0xffffffff) (h3 : 0 ≤ i.nSequence ∧ i.nSequence ≤ 0xffffffff) :
    ∃ text o, reprTxIn i = .ok text ∧ Shown text o ∧ o.bind eval = (reread i.scriptSig).map fun s => .txin ⟨i.prevout, s, i.nSequence⟩ := by
  obtain ⟨st, so, g1, g2, g3⟩ := script_shown i.scriptSig
  obtain ⟨e, e1, e2⟩ := outpoint_shown h1 h2
  have hs : Shown _ _ := shown_call (c := 'C') (f := "TxIn".toList) (by decide) (by decide) (.cons (b := some e) e1 (.cons g2 (.cons (b := some _) (hex_at h3.1).expr .nil)))
  have ht : reprTxIn i = .ok ('C' :: "TxIn".toList ++ '(' :: (join [reprOutPoint i.prevout, st, "0x".toList ++ hexInt i.nSequence] ++ [')'])) := by
    simp only [reprTxIn, g1, Except.bind_ok, pure, Except.pure]
    simp [join]
  refine ⟨_, _, ht, hs, ?_⟩
  rw [eval_call]
  simp only [List.mapM_cons, List.mapM_nil, Option.bind_eq_bind, Option.bind_some, e2, g3, eval_hex h3.1, pure]
  cases reread i.scriptSig with
  | none => rfl
  | some s =>
    refine result_ok (x := CTxIn.new i.prevout s i.nSequence) ?_
    rw [CTxIn.new, if_neg (by simpa using h3)]

/-! ## Values -/

theorem fold_zeros (base k : Nat) (hb : 0 < base) (n : Nat) : (List.replicate k '0').foldl (numStep base) (some n) = some (n * base ^ k) := by
  induction k generalizing n with
  | zero => simp
  | succ k ih =>
    rw [List.replicate_succ, List.foldl_cons]
    have : numStep base (some n) '0' = some (n * base) := by simp [numStep, show hexVal '0' = some 0 from rfl, hb]
    rw [this, ih]
    congr 1; rw [pow_succ]; ring

theorem decNat_length : ∀ (k n : Nat), n < 10 ^ k → 0 < k → (decNat n).length ≤ k := by
  intro k
  induction k with
  | zero => intro n _ h; omega
  | succ k ih =>
    intro n hn _
    rw [decNat]
    split
    · simp
    · rename_i h
      have hk : 0 < k := by
        rcases Nat.eq_zero_or_pos k with rfl | h'
        · simp at hn; omega
        · exact h'
      have := ih (n / 10) (by rw [pow_succ] at hn; omega) hk
      simp; omega

/-- The digits behind the point. -/
theorem frac_text (f : Nat) (hf : f < 10 ^ 8) : ∃ z j, zeros 8 (decNat f) = z ++ List.replicate j '0' ∧ z.length + j = 8 ∧
    (∀ c ∈ z, ∃ d : Fin 10, c = hexChar d) ∧ (∃ m, z.foldl (numStep 10) (some 0) = some m ∧ m * 10 ^ j = f) ∧
    ((zeros 8 (decNat f)).reverse.dropWhile (· == '0')).reverse = z ∧ z.getLast? ≠ some '0' := by
  have hl := decNat_length 8 f hf (by omega)
  have hz : zeros 8 (decNat f) = List.replicate (8 - (decNat f).length) '0' ++ decNat f := by
    unfold zeros
    split
    · rename_i t heq
      obtain ⟨d, hd⟩ := mem_decNat f (c := '-') (by rw [heq]; simp)
      have : ∀ d : Fin 10, '-' ≠ hexChar d := by decide
      exact absurd hd (this d)
    · rfl
  set Z := zeros 8 (decNat f) with hZ
  have hlen : Z.length = 8 := by rw [hz]; simp; omega
  have hmem : ∀ c ∈ Z, ∃ d : Fin 10, c = hexChar d := by
    intro c hc
    rw [hz, List.mem_append] at hc
    rcases hc with hc | hc
    · exact ⟨0, by rw [List.eq_of_mem_replicate hc]; rfl⟩
    · exact mem_decNat f hc
  have hfold : Z.foldl (numStep 10) (some 0) = some f := by
    rw [hz, List.foldl_append, fold_zeros 10 _ (by omega), Nat.zero_mul, fold_dec]
  have hsplit : Z = (Z.reverse.dropWhile (· == '0')).reverse ++ (Z.reverse.takeWhile (· == '0')).reverse := by
    rw [← List.reverse_append, List.takeWhile_append_dropWhile, List.reverse_reverse]
  have htw : (Z.reverse.takeWhile (· == '0')).reverse = List.replicate (Z.reverse.takeWhile (· == '0')).length '0' := by
    rw [List.eq_replicate_iff]
    refine ⟨by simp, ?_⟩
    intro c hc
    rw [List.mem_reverse] at hc
    have hall : ∀ (s : Str) (c : Char), c ∈ s.takeWhile (· == '0') → c = '0' := by
      intro s
      induction s with
      | nil => intro c hc; cases hc
      | cons x s ih =>
        intro c hc
        rw [List.takeWhile_cons] at hc
        split at hc
        · rename_i hx
          rcases List.mem_cons.mp hc with rfl | hc
          · simpa using hx
          · exact ih c hc
        · cases hc
    exact hall _ c hc
  set z := (Z.reverse.dropWhile (· == '0')).reverse with hzz
  set j := (Z.reverse.takeWhile (· == '0')).length
  rw [htw] at hsplit
  have hmz : ∀ c ∈ z, ∃ d : Fin 10, c = hexChar d := fun c hc => hmem c (by rw [hsplit]; simp [hc])
  refine ⟨z, j, hsplit, ?_, hmz, ?_, rfl, ?_⟩
  · have := congrArg List.length hsplit
    rw [hlen] at this
    simpa using this.symm
  · have hall : ∀ (s : Str) (n : Nat), (∀ c ∈ s, ∃ d : Fin 10, c = hexChar d) → ∃ m, s.foldl (numStep 10) (some n) = some m := by
      intro s
      induction s with
      | nil => intro n _; exact ⟨n, rfl⟩
      | cons c s ih =>
        intro n h
        obtain ⟨d, rfl⟩ := h c (by simp)
        rw [List.foldl_cons, numStep_hex (by omega) d.isLt]
        exact ih _ (fun x hx => h x (by simp [hx]))
    obtain ⟨m, hm⟩ := hall z 0 hmz
    refine ⟨m, hm, ?_⟩
    rw [hsplit, List.foldl_append, hm, fold_zeros 10 _ (by omega)] at hfold
    simpa using hfold
  · rw [hzz, List.getLast?_reverse]
    intro h
    have := List.head?_dropWhile_not (p := fun c => c == '0') Z.reverse
    rw [h] at this
    simp at this

/-- The text of a value. -/
theorem money_text (v : Int) : ∃ f m : Nat, ∃ z : Str, strMoneyValue v = dec (v / 100000000) ++ '.' :: z ∧ z ≠ [] ∧ (∀ c ∈ z, ∃ d : Fin 10, c = hexChar d) ∧
    z.foldl (numStep 10) (some 0) = some m ∧ f + z.length = 8 ∧ ((m * 10 ^ f : Nat) : Int) = v % 100000000 := by
  have h2 : dec (v % 100000000) = decNat (v % 100000000).toNat := by
    rw [dec, if_neg (by omega)]; congr 1; omega
  obtain ⟨z, j, g1, g2, g3, ⟨m, g4, g5⟩, g6, g7⟩ := frac_text (v % 100000000).toNat (by omega)
  have hr : ((dec (v / 100000000) ++ ('.' :: zeros 8 (decNat (v % 100000000).toNat))).reverse.dropWhile (· == '0')).reverse =
      dec (v / 100000000) ++ '.' :: z := by
    rw [List.reverse_append, List.reverse_cons, List.append_assoc, List.dropWhile_append]
    split
    · rename_i he
      have hz : z = [] := by rw [← g6, List.isEmpty_iff.mp he]; rfl
      rw [hz]
      simp
    · rw [List.reverse_append, g6]
      simp
  have hs : strMoneyValue v = if (dec (v / 100000000) ++ '.' :: z).getLast? = some '.' then (dec (v / 100000000) ++ '.' :: z) ++ ['0']
      else dec (v / 100000000) ++ '.' :: z := by
    simp only [strMoneyValue, h2, hr]
  by_cases hz : z = []
  · subst hz
    refine ⟨7, 0, ['0'], ?_, by simp, ?_, rfl, rfl, ?_⟩
    · rw [hs, if_pos (by simp)]; simp
    · intro c hc; simp at hc; exact ⟨0, by rw [hc]; rfl⟩
    · simp at g4; rw [← g4] at g5; simp at g5 ⊢; omega
  · refine ⟨j, m, z, ?_, hz, g3, g4, by omega, by rw [g5]; omega⟩
    rw [hs, if_neg]
    rw [List.getLast?_append_cons, List.getLast?_cons_of_ne_nil hz]
    intro h'
    obtain ⟨d, hd⟩ := g3 '.' (List.mem_of_getLast? h')
    have : ∀ d : Fin 10, '.' ≠ hexChar d := by decide
    exact this d hd

theorem money_word {v : Int} (h : 0 ≤ v) : ∃ c t, strMoneyValue v = c :: t ∧ decChar c = true ∧ ∀ x ∈ c :: t, wordChar x = true := by
  obtain ⟨f, m, z, e, hz, hd, -⟩ := money_text v
  obtain ⟨c, t, e2, hc, hw⟩ := decNat_head (v / 100000000).natAbs
  rw [dec, if_neg (by omega), e2] at e
  refine ⟨c, t ++ '.' :: z, e, hc, ?_⟩
  intro x hx
  rw [← List.cons_append, List.mem_append, List.mem_cons (l := z)] at hx
  rcases hx with hx | rfl | hx
  · exact (hw x hx).1
  · decide
  · obtain ⟨d, rfl⟩ := hd x hx
    exact (hexChar_word ⟨d, by omega⟩).1

theorem number_money {v : Int} (h : 0 ≤ v) : number (strMoneyValue v) = some (.float (toFloat ((v : ℚ) / 10 ^ 8))) := by
  obtain ⟨f, m, z, e, hz, hd, hm, hl, hv⟩ := money_text v
  rw [dec, if_neg (by omega)] at e
  obtain ⟨c, t, e2, -, hw⟩ := decNat_head (v / 100000000).natAbs
  have hA : ∀ x ∈ decNat (v / 100000000).natAbs, decide (x ≠ '.') = true := by rw [e2]; intro x hx; simp [(hw x hx).2.2]
  have htd := takeWhile_stop (p := fun x => decide (x ≠ '.')) (rest := '.' :: z) hA (fun c r e => by cases e; decide)
  have hx : 'x' ∉ strMoneyValue v := by
    rw [e, List.mem_append, List.mem_cons]
    rintro (hx | hx | hx)
    · rw [e2] at hx; exact (hw _ hx).2.1 rfl
    · cases hx
    · obtain ⟨d, hd⟩ := hd _ hx
      exact (hexChar_word ⟨d, by omega⟩).2.2.2.2.1 hd.symm
  have hdot : '.' ∈ strMoneyValue v := by rw [e]; simp
  unfold number
  split
  · rename_i heq
    rw [heq] at hx; simp at hx
  · rw [if_pos hdot, e, htd.1, htd.2]
    simp only [List.drop_one, List.tail_cons]
    rw [numeral_eq _ (decNat_ne _), fold_dec, numeral_eq _ hz, hm]
    simp only [Option.bind_eq_bind, Option.bind_some, pure]
    congr 3
    have hk : (10 : ℚ) ^ 8 = 10 ^ z.length * 10 ^ f := by rw [← pow_add]; congr 1; omega
    have hv2 : (v : ℚ) = (((v / 100000000).natAbs : Nat) : ℚ) * 10 ^ 8 + ((m * 10 ^ f : Nat) : ℚ) := by
      have h3 : v = (((v / 100000000).natAbs : Nat) : Int) * 10 ^ 8 + ((m * 10 ^ f : Nat) : Int) := by rw [hv]; omega
      generalize (v / 100000000).natAbs = K at h3 ⊢
      have h4 := congrArg (Int.cast : Int → ℚ) h3
      push_cast at h4 ⊢
      exact h4
    rw [hv2, hk]
    have hp : (10 : ℚ) ^ z.length ≠ 0 := by positivity
    have hq : (10 : ℚ) ^ f ≠ 0 := by positivity
    push_cast
    field_simp

end Verif.Rp
