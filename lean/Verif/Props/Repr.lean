import Verif.Lemmas.Repr4
import Verif.Model.Sha256
/-! # Texts that can be evaluated -/
namespace Verif.Rp
open Verif Verif.Btc Verif.Sus Verif.Rpc

/-! ## C129: the text of a script -/

/-- `eval(repr(s))` is a script of the same operations as `s`, the pushes written in the shortest way; if `s` is not a sequence of
operations, `repr` succeeds all the same but the text is not an expression. -/
theorem C129_eval (s : Bytes) : ∃ text, reprScript s = .ok text ∧ ∀ v, evalText text = some v ↔ ∃ s', ScriptReads s s' ∧ v = .script s' := by
  obtain ⟨text, o, h1, h2, h3⟩ := script_shown s
  refine ⟨text, h1, ?_⟩
  intro v
  rw [h2.eval, h3, Option.map_eq_some_iff]
  constructor
  · rintro ⟨s', h, rfl⟩; exact ⟨s', reread_iff.mp h, rfl⟩
  · rintro ⟨s', h, rfl⟩; exact ⟨s', reread_iff.mpr h, rfl⟩

/-- So it is `s` itself exactly if `s` is a sequence of operations with all pushes written in the shortest way. -/
theorem C129_same (s : Bytes) : ∃ text, reprScript s = .ok text ∧
    (evalText text = some (.script s) ↔ ∃ ts, WFToks ts ∧ s = scriptOf ts ∧ ∀ e d, Tok.push e d ∈ ts → e = shortest d) := by
  obtain ⟨text, h1, h2⟩ := C129_eval s
  refine ⟨text, h1, ?_⟩
  rw [h2]
  have hc : shorten = Tok.canon := by funext t; cases t <;> rfl
  constructor
  · rintro ⟨s', ⟨ts, g1, g2, g3⟩, g4⟩
    simp only [Val.script.injEq] at g4
    refine ⟨ts, g1, g2, canon_eq.mp ?_⟩
    rw [hc] at g3
    have := (mkScript_items g1).2
    exact scriptOf_inj this g1 (by rw [← g3, ← g4, g2])
  · rintro ⟨ts, g1, g2, g3⟩
    refine ⟨s, ⟨ts, g1, g2, ?_⟩, rfl⟩
    rw [hc, canon_eq.mpr g3]
    exact g2

/-- The text tells the operations: scripts with the same text, if valid, consist of the same operations with the same data. -/
theorem C129_text {s₁ s₂ s' : Bytes} {text : Str} (h₁ : reprScript s₁ = .ok text) (h₂ : reprScript s₂ = .ok text) (h : ScriptReads s₁ s') :
    ScriptReads s₂ s' := by
  obtain ⟨t1, e1, g1⟩ := C129_eval s₁
  obtain ⟨t2, e2, g2⟩ := C129_eval s₂
  rw [h₁] at e1
  rw [h₂] at e2
  cases e1
  cases e2
  obtain ⟨s'', h3, h4⟩ := (g2 (.script s')).mp ((g1 (.script s')).mpr ⟨s', h, rfl⟩)
  cases h4
  exact h3

example : reprScript [0x76#8, 0x02#8, 0xab#8, 0x01#8, 0x4c#8, 0x01#8, 0x07#8, 0x53#8, 0xba#8] = .ok "CScript([OP_DUP, x('ab01'), x('07'), 3, CScriptOp(0xba)])".toList ∧
    reprScript [0x51#8, 0x03#8, 0xab#8] = .ok "CScript([1, x('ab')...<ERROR: PUSHDATA(3): truncated data>])".toList ∧
    reprScript [0x4d#8, 0x03#8] = .ok "CScript([<ERROR: PUSHDATA2: missing data length>])".toList := by decide +kernel

example : ScriptReads [0x4c#8, 0x01#8, 0x07#8, 0x53#8] [0x01#8, 0x07#8, 0x53#8] := ⟨[.push .one [7#8], .op 0x53#8], by decide, by decide, by decide⟩

/-! ## C130: the text of an input -/

/-- `eval(repr(o))` is `o`. -/
theorem C130_outpoint {h : Bytes} {n : Int} {o : COutPoint} (ho : COutPoint.new h n = .ok o) : evalText (reprOutPoint o) = some (.outpoint o) := by
  have hh : o.hash.length = 32 ∧ 0 ≤ o.n ∧ o.n ≤ 0xffffffff := by
    unfold COutPoint.new at ho
    split at ho
    · cases ho
    · split at ho
      · cases ho
      · cases ho
        rename_i h1 h2
        exact ⟨by simpa using h1, by simpa using h2⟩
  obtain ⟨e, h1, h2⟩ := outpoint_shown hh.1 hh.2
  have hs : Shown (reprOutPoint o) (some e) := h1
  rw [hs.eval, Option.bind_some, h2]

/-- `eval(repr(i))` is the input with the script that comes of its script. -/
theorem C130_input {i : CTxIn} (h : InOk i) : ∃ text, reprTxIn i = .ok text ∧ ∀ v, evalText text = some v ↔ ∃ i', InReads i i' ∧ v = .txin i' := by
  obtain ⟨h1, h2, h3⟩ := h
  obtain ⟨text, o, a, b, c⟩ := txin_shown h1 h2 h3
  refine ⟨text, a, ?_⟩
  intro v
  rw [b.eval, c]
  have : ((reread i.scriptSig).map fun s => Val.txin ⟨i.prevout, s, i.nSequence⟩) = (rereadIn i).map .txin := by simp [rereadIn, Function.comp_def]
  rw [this, Option.map_eq_some_iff]
  constructor
  · rintro ⟨i', g, rfl⟩; exact ⟨i', (rereadIn_iff _ _).mp g, rfl⟩
  · rintro ⟨i', g, rfl⟩; exact ⟨i', (rereadIn_iff _ _).mpr g, rfl⟩

example : COutPoint.new (List.replicate 32 0xab#8) 7 = .ok ⟨List.replicate 32 0xab#8, 7⟩ ∧
    reprOutPoint ⟨List.replicate 32 0xab#8, 7⟩ = "COutPoint(lx('".toList ++ ((List.replicate 32 ['a', 'b']).flatten ++ "'), 7)".toList) ∧
    reprTxIn ⟨⟨List.replicate 32 0#8, 0xffffffff⟩, [0x51#8], 0xfffffffe⟩ = .ok "CTxIn(COutPoint(), CScript([1]), 0xfffffffe)".toList := by decide +kernel

example : InOk ⟨⟨List.replicate 32 0#8, 0xffffffff⟩, [0x51#8], 0xfffffffe⟩ := by unfold InOk; decide +kernel

/-! ## C131: the text of a transaction, or of a block header -/

/-- The text of a transaction in range with only valid scripts, of shortest pushes, and of the header of a block, evaluates to the object. -/
def C131_statement : Prop :=
  (∀ t : CTransaction, (∀ i ∈ t.vin, InOk i ∧ InReads i i) → (∀ o ∈ t.vout, (0 ≤ o.nValue ∧ o.nValue ≤ MAX_MONEY) ∧ ScriptReads o.scriptPubKey o.scriptPubKey) →
    (0 ≤ t.nLockTime ∧ t.nLockTime ≤ 0xffffffff) → ∃ text, reprTx false t = .ok text ∧ evalText text = some (.tx t)) ∧
  ∀ (v : Int) (p m : Bytes) (t b n : Int) (h : CBlockHeader), CBlockHeader.new v p m t b n = .ok h → (0 ≤ t ∧ 0 ≤ b ∧ 0 ≤ n) →
    evalText (reprHeader h) = some (.header h)

/-- What the text of an output evaluates to. -/
theorem C131_output_partial (o : CTxOut) : ∃ text, reprTxOut o = .ok text ∧ ∀ v, evalText text = some v ↔ ∃ o', OutReads o o' ∧ v = .txout o' := by
  obtain ⟨text, e, a, b, c⟩ := txout_shown o
  refine ⟨text, a, ?_⟩
  intro v
  rw [b.eval, c]
  have : ((reread o.scriptPubKey).map fun s => Val.txout ⟨if 0 ≤ o.nValue then moneyBack o.nValue else o.nValue, s⟩) = (rereadOut o).map .txout := by
    simp [rereadOut, Function.comp_def]
  rw [this, Option.map_eq_some_iff]
  constructor
  · rintro ⟨i', g, rfl⟩; exact ⟨i', (rereadOut_iff _ _).mp g, rfl⟩
  · rintro ⟨i', g, rfl⟩; exact ⟨i', (rereadOut_iff _ _).mpr g, rfl⟩

/-- What the text of a transaction evaluates to: an (immutable) transaction with the same version, lock time, outputs spent and sequence
numbers, the scripts with shortest pushes, and the values as a product of floats gives them. -/
theorem C131_tx_partial (mutable : Bool) {t : CTransaction} (hi : ∀ i ∈ t.vin, InOk i) (hl : 0 ≤ t.nLockTime ∧ t.nLockTime ≤ 0xffffffff) :
    ∃ text, reprTx mutable t = .ok text ∧ ∀ v, evalText text = some v ↔
      ∃ t', t'.nVersion = t.nVersion ∧ t'.nLockTime = t.nLockTime ∧ List.Forall₂ InReads t.vin t'.vin ∧ List.Forall₂ OutReads t.vout t'.vout ∧ v = .tx t' := by
  obtain ⟨text, e, a, b, c⟩ := tx_shown mutable hi hl
  refine ⟨text, a, ?_⟩
  intro v
  rw [b.eval, c]
  simp only [Option.bind_eq_bind, Option.bind_eq_some_iff, mapM_iff rereadIn_iff, mapM_iff rereadOut_iff, pure, Option.some.injEq]
  constructor
  · rintro ⟨is, h1, os, h2, rfl⟩
    exact ⟨⟨t.nVersion, is, os, t.nLockTime⟩, rfl, rfl, h1, h2, rfl⟩
  · rintro ⟨⟨v, is, os, l⟩, h1, h2, h3, h4, rfl⟩
    simp only at h1 h2 h3 h4
    subst h1 h2
    exact ⟨is, h3, os, h4, rfl⟩

/-- Such a value is the value itself or one satoshi less. -/
theorem C131_value_partial {v : Int} (h : 0 ≤ v ∧ v ≤ MAX_MONEY) : moneyBack v = v ∨ moneyBack v = v - 1 := moneyBack_near h.1 h.2

/-- It is the value itself for whole coins. -/
theorem C131_whole_partial {v : Int} (h : 0 ≤ v ∧ v ≤ MAX_MONEY) (hw : 100000000 ∣ v) : moneyBack v = v := by
  obtain ⟨k, rfl⟩ := hw
  obtain ⟨n, rfl⟩ : ∃ n : Nat, k = n := ⟨k.toNat, by omega⟩
  have h2 : n * 100000000 < 2 ^ 53 := by
    have := h.2
    simp only [MAX_MONEY] at this
    omega
  have := moneyBack_whole h2
  rw [mul_comm]
  exact_mod_cast this

/-- The text of a block header cannot be evaluated. -/
theorem C131_header_partial {v : Int} {p m : Bytes} {t b n : Int} {h : CBlockHeader} (hh : CBlockHeader.new v p m t b n = .ok h) (hr : 0 ≤ b ∧ 0 ≤ n) :
    evalText (reprHeader h) = none := by
  have hp : h.hashPrevBlock.length = 32 ∧ h.hashMerkleRoot.length = 32 ∧ h.nBits = b ∧ h.nNonce = n := by
    unfold CBlockHeader.new at hh
    obtain ⟨_, h1, hh⟩ := Except.bind_eq_ok hh
    obtain ⟨_, h2, hh⟩ := Except.bind_eq_ok hh
    cases hh
    simp only [pyAssert] at h1 h2
    split at h1
    · split at h2
      · simp_all
      · cases h2
    · cases h1
  obtain ⟨h1, h2, h3, h4⟩ := hp
  refine header_none ?_ ?_ (by omega) (by omega)
  · intro e; rw [e] at h1; cases h1
  · intro e; rw [e] at h2; cases h2

/-- 0.29 bitcoins become one satoshi less. -/
theorem moneyBack_29 : moneyBack 29000000 = 28999999 := by
  have h1 : toFloat (((29000000 : Int) : ℚ) / 10 ^ 8) = 5224175567749775 / 2 ^ 54 := by decide +kernel
  have h2 : toFloat ((5224175567749775 / 2 ^ 54 : ℚ) * 10 ^ 8) = 7784628223999999 / 268435456 := by decide +kernel
  rw [moneyBack, h1, h2]
  decide +kernel

theorem C131_refuted : ¬ C131_statement := by
  rintro ⟨h, -⟩
  obtain ⟨text, h1, h2⟩ := h ⟨1, [], [⟨29000000, []⟩], 0⟩ (by simp) (by
    intro o ho
    simp only [List.mem_singleton] at ho
    subst ho
    exact ⟨by decide, ⟨[], by simp [WFToks], rfl, rfl⟩⟩) (by decide)
  obtain ⟨text', g1, g2⟩ := C131_tx_partial false (t := ⟨1, [], [⟨29000000, []⟩], 0⟩) (by simp) (by decide)
  rw [h1] at g1
  cases g1
  obtain ⟨t', -, -, -, g3, g4⟩ := (g2 _).mp h2
  cases g4
  cases g3 with
  | cons g _ =>
    have := g.1
    rw [if_pos (by decide)] at this
    simp only [moneyBack_29] at this
    cases this

example : reprTx false ⟨1, [], [⟨29000000, [0x6a#8]⟩], 0⟩ = .ok "CTransaction((), (CTxOut(0.29*COIN, CScript([OP_RETURN])),), 0, 1)".toList ∧
    reprTx true ⟨1, [], [⟨-1, []⟩, ⟨500000000, []⟩], 9⟩ = .ok "CTransaction([], [CTxOut(-1, CScript([])), CTxOut(5.0*COIN, CScript([]))], 9, 1)".toList ∧
    reprHeader ⟨1, [0xab#8], [0xcd#8], 7, 0x1d, 255⟩ = "CBlockHeader(1, lx(ab), lx(cd), 7, 0x0000001d, 0x000000ff)".toList := by decide +kernel

example : OutReads ⟨29000000, [0x6a#8]⟩ ⟨28999999, [0x6a#8]⟩ :=
  ⟨by rw [if_pos (by decide), moneyBack_29], [.op 0x6a#8], by decide, by decide, by decide⟩

example : CBlockHeader.new 1 (List.replicate 32 0xab#8) (List.replicate 32 0#8) 5 6 7 = .ok ⟨1, List.replicate 32 0xab#8, List.replicate 32 0#8, 5, 6, 7⟩ := by decide

/-! ## C132: amounts as decimal numbers -/

/-- The number of bitcoins that the text says. -/
def C132_statement : Prop := ∀ v : Int, decimal (strMoneyValue v) = some ((v : ℚ) / 10 ^ 8)

/-- The text of an amount, as a number. -/
theorem decimal_money (v : Int) : decimal (strMoneyValue v) = some (if 0 ≤ v then (v : ℚ) / 10 ^ 8 else ((v / 100000000 : Int) : ℚ) - ((v % 100000000 : Int) : ℚ) / 10 ^ 8) := by
  obtain ⟨f, m, z, e, hz, hd, hm, hl, hv⟩ := money_text v
  obtain ⟨c, t, e2, hc, hw⟩ := decNat_head (v / 100000000).natAbs
  have hA : ∀ x ∈ decNat (v / 100000000).natAbs, decide (x ≠ '.') = true := by rw [e2]; intro x hx; simp [(hw x hx).2.2]
  have htd := takeWhile_stop (p := fun x => decide (x ≠ '.')) (rest := '.' :: z) hA (fun c r e => by cases e; decide)
  have hu : decimal.udecimal (decNat (v / 100000000).natAbs ++ '.' :: z) = some (((v / 100000000).natAbs : ℚ) + ((v % 100000000 : Int) : ℚ) / 10 ^ 8) := by
    unfold decimal.udecimal
    rw [htd.1, htd.2]
    simp only [List.drop_one, List.tail_cons]
    rw [numeral_eq _ (decNat_ne _), fold_dec, numeral_eq _ hz, hm]
    simp only [Option.bind_eq_bind, Option.bind_some, pure]
    congr 2
    rw [← hv]
    have hk : (10 : ℚ) ^ 8 = 10 ^ z.length * 10 ^ f := by rw [← pow_add]; congr 1; omega
    rw [hk]
    have hp : (10 : ℚ) ^ z.length ≠ 0 := by positivity
    have hq : (10 : ℚ) ^ f ≠ 0 := by positivity
    push_cast
    field_simp
  by_cases h : 0 ≤ v
  · rw [dec, if_neg (by omega)] at e
    rw [if_pos h, e]
    have hnm : c ≠ '-' := by rintro rfl; revert hc; decide
    have : decimal (decNat (v / 100000000).natAbs ++ '.' :: z) = decimal.udecimal (decNat (v / 100000000).natAbs ++ '.' :: z) := by
      unfold decimal
      split
      · rename_i heq
        rw [e2] at heq
        simp at heq
        exact absurd heq.1 hnm
      · rfl
    rw [this, hu]
    congr 1
    have h3 : v = ((v / 100000000).natAbs : Int) * 10 ^ 8 + v % 100000000 := by omega
    generalize (v / 100000000).natAbs = K at h3 ⊢
    have h4 := congrArg (Int.cast : Int → ℚ) h3
    push_cast at h4
    generalize ((v % 100000000 : Int) : ℚ) = R at h4 ⊢
    rw [h4]
    field_simp
    norm_num
  · rw [dec, if_pos (by omega), List.cons_append] at e
    rw [if_neg h, e]
    simp only [decimal]
    rw [hu, Option.map_some]
    congr 1
    have h3 : (v / 100000000 : Int) = -((v / 100000000).natAbs : Int) := by omega
    have h4 := congrArg (Int.cast : Int → ℚ) h3
    rw [Int.cast_neg, Int.cast_natCast] at h4
    rw [h4]
    ring

/-- It is the amount exactly if the amount is not negative, or a whole number of bitcoins. -/
theorem C132_exact_partial (v : Int) : decimal (strMoneyValue v) = some ((v : ℚ) / 10 ^ 8) ↔ 0 ≤ v ∨ 100000000 ∣ v := by
  rw [decimal_money]
  by_cases h : 0 ≤ v
  · simp [h]
  · simp only [h, if_false, false_or, Option.some.injEq]
    have h3 : v = (v / 100000000) * 10 ^ 8 + v % 100000000 := by omega
    have h4 : (v : ℚ) = ((v / 100000000 : Int) : ℚ) * 10 ^ 8 + ((v % 100000000 : Int) : ℚ) := by
      generalize v / 100000000 = K at h3 ⊢
      generalize v % 100000000 = R at h3 ⊢
      rw [h3]
      push_cast
      norm_num
    rw [h4, Int.dvd_iff_emod_eq_zero]
    constructor
    · intro e
      have : ((v % 100000000 : Int) : ℚ) = 0 := by
        field_simp at e
        linarith
      exact_mod_cast this
    · intro e
      rw [e]
      norm_num

/-- Different amounts have different texts. -/
theorem C132_injective_partial {v w : Int} (h : strMoneyValue v = strMoneyValue w) : v = w := by
  obtain ⟨f, m, z, e, hz, hd, hm, hl, hv⟩ := money_text v
  obtain ⟨f', m', z', e', hz', hd', hm', hl', hv'⟩ := money_text w
  have hnd : ∀ (i : Int) (x : Char), x ∈ dec i → decide (x ≠ '.') = true := by
    intro i x hx
    obtain ⟨c, t, e2, -, hw⟩ := decNat_head i.natAbs
    rw [dec] at hx
    split at hx
    · rw [e2] at hx
      rcases List.mem_cons.mp hx with rfl | hx
      · decide
      · simp [(hw x hx).2.2]
    · rw [e2] at hx
      simp [(hw x hx).2.2]
  have t1 := takeWhile_stop (p := fun x => decide (x ≠ '.')) (rest := '.' :: z) (hnd (v / 100000000)) (fun c r e => by cases e; decide)
  have t2 := takeWhile_stop (p := fun x => decide (x ≠ '.')) (rest := '.' :: z') (hnd (w / 100000000)) (fun c r e => by cases e; decide)
  rw [← e] at t1
  rw [← e', ← h] at t2
  have hdec : dec (v / 100000000) = dec (w / 100000000) := by rw [← t1.1, ← t2.1]
  have hzz : z = z' := by
    have := t1.2.symm.trans t2.2
    simpa using this
  have hi : v / 100000000 = w / 100000000 := by
    have h1 := eval_int (v / 100000000)
    have h2 := eval_int (w / 100000000)
    have p1 := (dec_at (v / 100000000)).expr.parse
    have p2 := (dec_at (w / 100000000)).expr.parse
    rw [hdec, p2] at p1
    simp only [Option.some.injEq] at p1
    rw [← p1, h2] at h1
    simpa using h1.symm
  subst hzz
  rw [hm] at hm'
  simp only [Option.some.injEq] at hm'
  have hf : f = f' := by omega
  subst hf hm'
  rw [hv] at hv'
  omega

/-- Minus one satoshi is shown as -1.99999999 bitcoins. -/
theorem C132_refuted : ¬ C132_statement := by
  intro h
  have := (C132_exact_partial (-1)).mp (h (-1))
  omega

example : strMoneyValue 123450000 = "1.2345".toList ∧ strMoneyValue 100000000 = "1.0".toList ∧ strMoneyValue 1 = "0.00000001".toList ∧
    strMoneyValue (-1) = "-1.99999999".toList ∧ strMoneyValue (-200000000) = "-2.0".toList := by decide +kernel

end Verif.Rp
