import Verif.Lemmas.Repr3
/-! # Outputs, transactions, headers -/
namespace Verif.Rp
open Verif Verif.Btc Verif.Sus Verif.Rpc

theorem toFloat_coin : toFloat ((100000000 : Int) : ℚ) = 10 ^ 8 := by
  have := toFloat_int (n := 100000000) (by norm_num)
  rw [show (((100000000 : Int)) : ℚ) = ((100000000 : Nat) : ℚ) by norm_num, this]
  norm_num

theorem txout_shown (o : CTxOut) : ∃ text e, reprTxOut o = .ok text ∧ Shown text e ∧
    e.bind eval = (reread o.scriptPubKey).map fun s => .txout ⟨if 0 ≤ o.nValue then moneyBack o.nValue else o.nValue, s⟩ := by
  obtain ⟨st, so, g1, g2, g3⟩ := script_shown o.scriptPubKey
  by_cases h : 0 ≤ o.nValue
  · obtain ⟨c, t, e1, e2, e3⟩ := money_word h
    have hm := num_at e2 e3
    rw [← e1] at hm
    have hc : AtomAt ('C' :: "OIN".toList) _ := name_at (by decide) (by decide)
    have hs : Shown _ _ := shown_call (c := 'C') (f := "TxOut".toList) (by decide) (by decide) (.cons (b := some _) (times_at hm hc) (.cons g2 .nil))
    have ht : reprTxOut o = .ok ('C' :: "TxOut".toList ++ '(' :: (join [strMoneyValue o.nValue ++ '*' :: 'C' :: "OIN".toList, st] ++ [')'])) := by
      simp only [reprTxOut, g1, Except.bind_ok, pure, Except.pure, if_pos h]
      simp [join]
    refine ⟨_, _, ht, hs, ?_⟩
    rw [eval_call]
    have hv : eval (.times (.num (strMoneyValue o.nValue)) (.name ('C' :: "OIN".toList))) = some (.float (toFloat (toFloat ((o.nValue : ℚ) / 10 ^ 8) * 10 ^ 8))) := by
      simp only [eval, number_money h, Option.bind_eq_bind, Option.bind_some]
      rw [if_pos (by rfl)]
      simp only [Option.bind_some, toFloat_coin]
      rfl
    simp only [List.mapM_cons, List.mapM_nil, Option.bind_eq_bind, Option.bind_some, hv, g3, pure, if_pos h]
    cases reread o.scriptPubKey with
    | none => rfl
    | some s => rfl
  · have hs : Shown _ _ := shown_call (c := 'C') (f := "TxOut".toList) (by decide) (by decide) (.cons (b := some _) (dec_at o.nValue).expr (.cons g2 .nil))
    have ht : reprTxOut o = .ok ('C' :: "TxOut".toList ++ '(' :: (join [dec o.nValue, st] ++ [')'])) := by
      simp only [reprTxOut, g1, Except.bind_ok, pure, Except.pure, if_neg h]
      simp [join]
    refine ⟨_, _, ht, hs, ?_⟩
    rw [eval_call]
    simp only [List.mapM_cons, List.mapM_nil, Option.bind_eq_bind, Option.bind_some, eval_int, g3, pure, if_neg h]
    cases reread o.scriptPubKey with
    | none => rfl
    | some s => rfl

theorem mapM_shown {α} {f : α → Py Str} {g : α → Option Val} : ∀ {as : List α}, (∀ a ∈ as, ∃ text o, f a = .ok text ∧ Shown text o ∧ o.bind eval = g a) →
    ∃ ss os, as.mapM f = .ok ss ∧ List.Forall₂ Shown ss os ∧ (os.mapM fun o : Option Expr => o.bind eval) = as.mapM g
  | [], _ => ⟨[], [], rfl, .nil, rfl⟩
  | a :: as, h => by
    obtain ⟨text, o, h1, h2, h3⟩ := h a (by simp)
    obtain ⟨ss, os, g1, g2, g3⟩ := mapM_shown (as := as) (fun b hb => h b (by simp [hb]))
    refine ⟨text :: ss, o :: os, ?_, .cons h2 g2, ?_⟩
    · rw [List.mapM_cons, h1, g1]; rfl
    · rw [List.mapM_cons, List.mapM_cons, h3, g3]

/-- The object behind the values. -/
theorem mapM_values {α β} {r : α → Option β} {v : β → Val} {u : Val → Option β} (hu : ∀ b, u (v b) = some b) :
    ∀ as : List α, (as.mapM fun a => (r a).map v).bind (fun vs => vs.mapM u) = as.mapM r
  | [] => rfl
  | a :: as => by
    rw [List.mapM_cons, List.mapM_cons, ← mapM_values hu as]
    cases r a with
    | none => rfl
    | some b =>
      cases h : (as.mapM fun a => (r a).map v) with
      | none => simp
      | some vs => simp [List.mapM_cons, hu]

theorem mapM_iff {α β} {r : α → Option β} {R : α → β → Prop} (h : ∀ a b, r a = some b ↔ R a b) : ∀ {as : List α} {bs : List β},
    as.mapM r = some bs ↔ List.Forall₂ R as bs
  | [], bs => by
    constructor
    · intro h; cases h; exact .nil
    · intro h; cases h; rfl
  | a :: as, bs => by
    rw [List.mapM_cons]
    constructor
    · intro hm
      cases ha : r a with
      | none => rw [ha] at hm; cases hm
      | some b =>
        cases hb : as.mapM r with
        | none => rw [ha, hb] at hm; cases hm
        | some bs' =>
          rw [ha, hb] at hm
          cases hm
          exact .cons ((h a b).mp ha) ((mapM_iff h).mp hb)
    · intro hm
      cases hm with
      | @cons _ b _ bs' h1 h2 =>
        rw [(h a b).mpr h1, (mapM_iff h).mpr h2]
        rfl

theorem reread_iff {s s' : Bytes} : reread s = some s' ↔ ScriptReads s s' := by
  rw [reread_some]
  have : shorten = Tok.canon := by
    funext t; cases t <;> rfl
  simp only [ScriptReads, this]

def rereadIn (i : CTxIn) : Option CTxIn := (reread i.scriptSig).map fun s => ⟨i.prevout, s, i.nSequence⟩
def rereadOut (o : CTxOut) : Option CTxOut := (reread o.scriptPubKey).map fun s => ⟨if 0 ≤ o.nValue then moneyBack o.nValue else o.nValue, s⟩

theorem rereadIn_iff (i i' : CTxIn) : rereadIn i = some i' ↔ InReads i i' := by
  simp only [rereadIn, InReads, ← reread_iff, Option.map_eq_some_iff]
  constructor
  · rintro ⟨s, h, rfl⟩; exact ⟨rfl, rfl, h⟩
  · rintro ⟨h1, h2, h3⟩; exact ⟨_, h3, by cases i'; simp_all⟩

theorem rereadOut_iff (o o' : CTxOut) : rereadOut o = some o' ↔ OutReads o o' := by
  simp only [rereadOut, OutReads, ← reread_iff, Option.map_eq_some_iff]
  constructor
  · rintro ⟨s, h, rfl⟩; exact ⟨rfl, h⟩
  · rintro ⟨h1, h3⟩; exact ⟨_, h3, by cases o'; simp_all⟩

theorem tx_shown (mutable : Bool) {t : CTransaction} (hi : ∀ i ∈ t.vin, InOk i) (hl : 0 ≤ t.nLockTime ∧ t.nLockTime ≤ 0xffffffff) :
    ∃ text e, reprTx mutable t = .ok text ∧ Shown text e ∧
      e.bind eval = (do
        let is ← t.vin.mapM rereadIn
        let os ← t.vout.mapM rereadOut
        return .tx ⟨t.nVersion, is, os, t.nLockTime⟩) := by
  obtain ⟨ss, os, g1, g2, g3⟩ := mapM_shown (f := reprTxIn) (g := fun i => (rereadIn i).map .txin) (as := t.vin) (by
    intro i h
    obtain ⟨h1, h2, h3⟩ := hi i h
    obtain ⟨text, o, a, b, c⟩ := txin_shown h1 h2 h3
    exact ⟨text, o, a, b, by rw [c]; simp [rereadIn, Function.comp_def]⟩)
  obtain ⟨ss', os', k1, k2, k3⟩ := mapM_shown (f := reprTxOut) (g := fun i => (rereadOut i).map .txout) (as := t.vout) (by
    intro o h
    obtain ⟨text, e, a, b, c⟩ := txout_shown o
    exact ⟨text, e, a, b, by rw [c]; simp [rereadOut, Function.comp_def]⟩)
  have hs : Shown _ _ := shown_call (c := 'C') (f := "Transaction".toList) (by decide) (by decide)
    (.cons (shown_seq mutable g2) (.cons (shown_seq mutable k2) (.cons (b := some _) (dec_at t.nLockTime).expr (.cons (b := some _) (dec_at t.nVersion).expr .nil))))
  have ht : reprTx mutable t = .ok ('C' :: "Transaction".toList ++ '(' :: (join [reprSeq mutable ss, reprSeq mutable ss', dec t.nLockTime, dec t.nVersion] ++ [')'])) := by
    simp only [reprTx, g1, k1, Except.bind_ok, pure, Except.pure]
    simp [join]
  refine ⟨_, _, ht, hs, ?_⟩
  rw [eval_call]
  simp only [List.mapM_cons, List.mapM_nil, Option.bind_eq_bind, Option.bind_some, eval_seq, g3, k3, eval_int, pure]
  rw [← mapM_values (r := rereadIn) (v := Val.txin) (u := Val.txin?) (fun _ => rfl), ← mapM_values (r := rereadOut) (v := Val.txout) (u := Val.txout?) (fun _ => rfl)]
  cases (t.vin.mapM fun i => (rereadIn i).map Val.txin) with
  | none => rfl
  | some vs =>
    cases (t.vout.mapM fun i => (rereadOut i).map Val.txout) with
    | none => cases h : vs.mapM Val.txin? <;> simp [h]
    | some ws =>
      simp only [Option.bind_some, Option.map_some]
      have he : ∀ us : List Val, ((if mutable = true then Val.list else Val.tuple) us).elems = some us := by intro us; cases mutable <;> rfl
      show (do
        let is ← ((if mutable = true then Val.list else Val.tuple) vs).elems
        let is ← is.mapM Val.txin?
        let os ← ((if mutable = true then Val.list else Val.tuple) ws).elems
        let os ← os.mapM Val.txout?
        result (CTransaction.new is os t.nLockTime t.nVersion) .tx) = _
      simp only [he, Option.bind_eq_bind, Option.bind_some]
      have hr : ∀ is os, result (CTransaction.new is os t.nLockTime t.nVersion) Val.tx = some (.tx ⟨t.nVersion, is, os, t.nLockTime⟩) := by
        intro is os
        refine result_ok ?_
        rw [CTransaction.new, if_neg (by simpa using hl)]
      simp only [hr]

/-! ## Values -/

theorem moneyBack_near {v : Int} (h : 0 ≤ v) (hm : v ≤ 21000000 * 100000000) : moneyBack v = v ∨ moneyBack v = v - 1 := by
  rcases eq_or_lt_of_le h with rfl | hpos
  · left
    have h0 : ((0 : Int) : ℚ) / 10 ^ 8 = 0 := by norm_num
    have h1 : toFloat (0 : ℚ) = 0 := by simp [toFloat]
    simp only [moneyBack, h0, h1, zero_mul]
    simp [truncQ]
  · have hv1 : (1 : ℚ) ≤ v := by exact_mod_cast hpos
    have hvM : (v : ℚ) ≤ 21000000 * 100000000 := by exact_mod_cast hm
    have hbig : (2 : ℚ) ^ (-1022 : Int) ≤ 1 / 2 ^ 40 := by
      rw [show (1 : ℚ) / 2 ^ 40 = 2 ^ (-40 : Int) by norm_num]
      exact zpow_le_zpow_right₀ (by norm_num) (by norm_num)
    have hq : (2 : ℚ) ^ (-1022 : Int) ≤ (v : ℚ) / 10 ^ 8 := by
      refine le_trans hbig ?_
      rw [div_le_div_iff₀ (by norm_num) (by norm_num)]
      nlinarith
    have e1 := toFloat_err hq
    set a := toFloat ((v : ℚ) / 10 ^ 8) with ha
    rw [abs_le] at e1
    have ha1 : (v : ℚ) / 10 ^ 8 * (1 - 1 / 2 ^ 53) ≤ a := by linarith [e1.2]
    have ha2 : a ≤ (v : ℚ) / 10 ^ 8 * (1 + 1 / 2 ^ 53) := by linarith [e1.1]
    have hp1 : (v : ℚ) * (1 - 1 / 2 ^ 53) ≤ a * 10 ^ 8 := by
      have := mul_le_mul_of_nonneg_right ha1 (show (0 : ℚ) ≤ 10 ^ 8 by norm_num)
      linarith
    have hp2 : a * 10 ^ 8 ≤ (v : ℚ) * (1 + 1 / 2 ^ 53) := by
      have := mul_le_mul_of_nonneg_right ha2 (show (0 : ℚ) ≤ 10 ^ 8 by norm_num)
      linarith
    have hq2 : (2 : ℚ) ^ (-1022 : Int) ≤ a * 10 ^ 8 := by
      refine le_trans hbig (le_trans ?_ hp1)
      norm_num
      linarith
    have e2 := toFloat_err hq2
    rw [abs_le] at e2
    set b := toFloat (a * 10 ^ 8) with hb
    have hb1 : (v : ℚ) - 1 ≤ b := by
      have := e2.2
      norm_num at hp1 hp2 this ⊢
      linarith
    have hb2 : b < (v : ℚ) + 1 := by
      have := e2.1
      norm_num at hp1 hp2 this ⊢
      linarith
    have hb0 : 0 ≤ b := by linarith
    rw [moneyBack, ← ha, ← hb, truncQ, if_pos hb0]
    have f1 : v - 1 ≤ ⌊b⌋ := by rw [Int.le_floor]; push_cast; exact hb1
    have f2 : ⌊b⌋ < v + 1 := by rw [Int.floor_lt]; push_cast; exact hb2
    omega

/-- Whole coins. -/
theorem moneyBack_whole {k : Nat} (h : k * 100000000 < 2 ^ 53) : moneyBack (k * 100000000 : Nat) = (k * 100000000 : Nat) := by
  have h1 : (((k * 100000000 : Nat) : Int) : ℚ) / 10 ^ 8 = (k : ℚ) := by push_cast; norm_num
  have h2 : (k : ℚ) * 10 ^ 8 = ((k * 100000000 : Nat) : ℚ) := by push_cast; norm_num
  rw [moneyBack, h1, toFloat_int (by omega), h2, toFloat_int h, truncQ, if_pos (by positivity)]
  exact Int.floor_natCast _

/-! ## Headers -/

theorem number_not_str (w : Str) (s : Str) : number w ≠ some (.str s) := by
  unfold number
  split
  · intro h
    rw [Option.map_eq_some_iff] at h
    obtain ⟨n, -, h⟩ := h
    cases h
  · split
    · intro h
      simp only [Option.bind_eq_bind, Option.bind_eq_some_iff] at h
      obtain ⟨m, -, n, -, h⟩ := h
      cases h
    · intro h
      simp only [Option.bind_eq_bind, Option.bind_eq_some_iff] at h
      obtain ⟨n, -, h⟩ := h
      split at h <;> cases h

theorem lx_not_str {v : Val} (h : ∀ s, v ≠ .str s) : callLib (String.ofList ('l' :: "x".toList)) [v] = none := by
  cases v with
  | str s => exact absurd rfl (h s)
  | _ => rfl

/-- `lx(…)` without quotes. -/
theorem lx_shown {h : Bytes} (hl : h ≠ []) : ∃ e, ExprAt ('l' :: "x".toList ++ '(' :: (b2lx h ++ [')'])) e ∧ eval e = none := by
  have hm : ∀ x ∈ b2lx h, ∃ d : Fin 16, x = hexChar d := fun x hx => mem_b2x hx
  have hne : b2lx h ≠ [] := by
    intro e
    have := lx_b2lx h
    rw [e] at this
    have h0 : lx [] = .ok [] := rfl
    rw [h0] at this
    simp at this
    exact hl this
  obtain ⟨c, t, e⟩ := List.exists_cons_of_ne_nil hne
  have hw : ∀ x ∈ c :: t, wordChar x = true := by
    intro x hx
    obtain ⟨d, rfl⟩ := hm x (by rw [e]; exact hx)
    exact (hexChar_word d).1
  rw [e]
  cases hc : decChar c with
  | true =>
    refine ⟨_, (call_at (by decide) (by decide) (args_one (.inl rfl) (num_at hc hw).expr)).expr, ?_⟩
    simp only [eval, evals, Option.bind_eq_bind]
    cases hn : number (c :: t) with
    | none => rfl
    | some v => exact lx_not_str (fun s h => number_not_str _ s (h ▸ hn))
  | false =>
    refine ⟨_, (call_at (by decide) (by decide) (args_one (.inl rfl) (name_at hc hw).expr)).expr, ?_⟩
    simp only [eval, evals, Option.bind_eq_bind]
    split
    · exact lx_not_str (v := .int 100000000) (fun s h => by cases h)
    · cases hf : opConsts.find? (fun e => decide (e.1.toList = c :: t)) with
      | none => rfl
      | some p => exact lx_not_str (v := .op (BitVec.ofNat 8 p.2)) (fun s h => by cases h)

theorem zeros_hex_at {i : Int} (h : 0 ≤ i) : ∃ e, ExprAt ("0x".toList ++ zeros 8 (hexInt i)) e := by
  have e : "0x".toList ++ zeros 8 (hexInt i) = '0' :: 'x' :: zeros 8 (hexNat i.natAbs) := by
    rw [hexInt, if_neg (by omega)]; rfl
  rw [e]
  refine ⟨_, (num_at (by decide) ?_).expr⟩
  intro x hx
  simp only [List.mem_cons] at hx
  rcases hx with rfl | rfl | hx
  · decide
  · decide
  · unfold zeros at hx
    split at hx
    · rename_i t heq
      obtain ⟨d, hd⟩ := mem_hexNat i.natAbs (c := '-') (by rw [heq]; simp)
      have : ∀ d : Fin 16, '-' ≠ hexChar d := by decide
      exact absurd hd (this d)
    · rw [List.mem_append] at hx
      rcases hx with hx | hx
      · rw [List.eq_of_mem_replicate hx]; decide
      · obtain ⟨d, rfl⟩ := mem_hexNat _ hx
        exact (hexChar_word d).1

theorem header_text (A1 A2 A3 A4 A5 A6 : Str) :
    "CBlockHeader(".toList ++ (A1 ++ (", lx(".toList ++ (A2 ++ ("), lx(".toList ++ (A3 ++ ("), ".toList ++ (A4 ++ (", 0x".toList ++ (A5 ++ (", 0x".toList ++ (A6 ++ ")".toList))))))))))) =
    'C' :: "BlockHeader".toList ++ '(' :: (join [A1, 'l' :: "x".toList ++ '(' :: (A2 ++ [')']), 'l' :: "x".toList ++ '(' :: (A3 ++ [')']), A4,
      "0x".toList ++ A5, "0x".toList ++ A6] ++ [')']) := by
  simp [join]

theorem header_none {h : CBlockHeader} (h1 : h.hashPrevBlock ≠ []) (h2 : h.hashMerkleRoot ≠ []) (h3 : 0 ≤ h.nBits) (h4 : 0 ≤ h.nNonce) :
    evalText (reprHeader h) = none := by
  obtain ⟨e1, a1, b1⟩ := lx_shown h1
  obtain ⟨e2, a2, b2⟩ := lx_shown h2
  obtain ⟨e3, a3⟩ := zeros_hex_at h3
  obtain ⟨e4, a4⟩ := zeros_hex_at h4
  have hs : Shown _ _ := shown_call (c := 'C') (f := "BlockHeader".toList) (by decide) (by decide)
    (.cons (b := some _) (dec_at h.nVersion).expr (.cons (b := some _) a1 (.cons (b := some _) a2 (.cons (b := some _) (dec_at h.nTime).expr
      (.cons (b := some _) a3 (.cons (b := some _) a4 .nil))))))
  have ht : reprHeader h = 'C' :: "BlockHeader".toList ++ '(' :: (join [dec h.nVersion, 'l' :: "x".toList ++ '(' :: (b2lx h.hashPrevBlock ++ [')']),
      'l' :: "x".toList ++ '(' :: (b2lx h.hashMerkleRoot ++ [')']), dec h.nTime, "0x".toList ++ zeros 8 (hexInt h.nBits), "0x".toList ++ zeros 8 (hexInt h.nNonce)] ++ [')']) := by
    exact header_text _ _ _ _ _ _
  rw [ht, hs.eval, eval_call]
  simp [List.mapM_cons, b1]

end Verif.Rp
