import Verif.Lemmas.BtcInj
/-! # C42–C44: Bitcoin transaction serialization -/
namespace Verif.Btc
open Verif

/-- A small but non-trivial transaction used in the examples. -/
def exTx : CTransaction where
  nVersion := -1
  vin := [⟨⟨List.replicate 32 0x11#8, 0xffffffff⟩, [1#8, 2#8, 3#8], 5⟩, ⟨⟨List.replicate 32 0x22#8, 0⟩, [], 0xffffffff⟩]
  vout := [⟨-1, [0x6a#8]⟩, ⟨2100000000000000, List.replicate 300 0x51#8⟩]
  nLockTime := 7

/-- C42: whatever serializes (with scripts within `MAX_SIZE`) deserializes to itself. -/
theorem C42_tx_roundtrip {t : CTransaction} {e : Bytes} (h : t.ser = .ok e) (hs : t.ScriptsFit) :
    deserializeAll CTransaction.deser e = .ok t := deserializeAll_of_RT (RT.tx h hs)

theorem C42_txin_roundtrip {i : CTxIn} {e : Bytes} (h : i.ser = .ok e) (hs : i.scriptSig.length ≤ MAX_SIZE) :
    deserializeAll CTxIn.deser e = .ok i := deserializeAll_of_RT (RT.txin h hs)

theorem C42_txout_roundtrip {o : CTxOut} {e : Bytes} (h : o.ser = .ok e) (hs : o.scriptPubKey.length ≤ MAX_SIZE) :
    deserializeAll CTxOut.deser e = .ok o := deserializeAll_of_RT (RT.txout h hs)

theorem C42_outpoint_roundtrip {o : COutPoint} {e : Bytes} (h : o.ser = .ok e) :
    deserializeAll COutPoint.deser e = .ok o := deserializeAll_of_RT (RT.outpoint h)

/-- C42: every value the constructors accept serializes, except for an `nVersion`/`nValue` that does not fit its
field (`struct.error`); so the hypotheses of the round trips are met. -/
theorem C42_tx_serializes {t : CTransaction} (h : t.Valid) (hs : t.ScriptsFit)
    (hv : -(2 ^ 31) ≤ t.nVersion ∧ t.nVersion < 2 ^ 31)
    (ho : ∀ o ∈ t.vout, -(2 ^ 63) ≤ o.nValue ∧ o.nValue < 2 ^ 63)
    (hi : t.vin.length < 2 ^ 64) (hl : t.vout.length < 2 ^ 64) : ∃ e, t.ser = .ok e :=
  CTransaction.ser_total h hs hv ho hi hl

theorem C42_outpoint_serializes {o : COutPoint} (h : o.Valid) : ∃ e, o.ser = .ok e := COutPoint.ser_total h

example : exTx.Valid ∧ exTx.ScriptsFit ∧ exTx.ser.map List.length = .ok 416 := by decide +kernel

/-- C43: equal serializations imply equal objects, with no limit on script sizes. -/
theorem C43_tx_injective {t u : CTransaction} {e : Bytes} (ht : t.ser = .ok e) (hu : u.ser = .ok e) : t = u :=
  PF.tx.inj ht hu

theorem C43_txin_injective {t u : CTxIn} {e : Bytes} (ht : t.ser = .ok e) (hu : u.ser = .ok e) : t = u :=
  PF.txin.inj ht hu

theorem C43_txout_injective {t u : CTxOut} {e : Bytes} (ht : t.ser = .ok e) (hu : u.ser = .ok e) : t = u :=
  PF.txout.inj ht hu

/-- C43: trailing bytes are rejected and truncation is reported. -/
theorem C43_tx_trailing_truncated {t : CTransaction} {e : Bytes} (h : t.ser = .ok e) (hs : t.ScriptsFit) :
    (∀ junk, junk ≠ [] → deserializeAll CTransaction.deser (e ++ junk) = .error .btcExtra) ∧
    (∀ pre suf, e = pre ++ suf → suf ≠ [] → deserializeAll CTransaction.deser pre = .error .btcTrunc) := by
  constructor
  · intro junk hj
    unfold deserializeAll
    rw [(RT.tx h hs).reads junk]
    simp [hj]
  · intro pre suf he hsuf
    unfold deserializeAll
    rw [(RT.tx h hs).trunc pre suf he hsuf nofun]

theorem C43_outpoint_trailing_truncated {o : COutPoint} {e : Bytes} (h : o.ser = .ok e) :
    (∀ junk, junk ≠ [] → deserializeAll COutPoint.deser (e ++ junk) = .error .btcExtra) ∧
    (∀ pre suf, e = pre ++ suf → suf ≠ [] → deserializeAll COutPoint.deser pre = .error .btcTrunc) := by
  constructor
  · intro junk hj
    unfold deserializeAll
    rw [(RT.outpoint h).reads junk]
    simp [hj]
  · intro pre suf he hsuf
    unfold deserializeAll
    rw [(RT.outpoint h).trunc pre suf he hsuf nofun]

example : (do let e ← COutPoint.ser ⟨List.replicate 32 0x11#8, 258⟩; deserializeAll COutPoint.deser (e ++ [0#8])) =
    .error .btcExtra := by decide +kernel

/-- C44: outpoints the constructor accepts compare equal exactly when both fields are equal. -/
theorem C44_outpoint_eq {a b : COutPoint} (ha : a.Valid) (hb : b.Valid) :
    serEq COutPoint.ser a b = .ok (decide (a.hash = b.hash ∧ a.n = b.n)) := by
  obtain ⟨x, hx⟩ := COutPoint.ser_total ha
  obtain ⟨y, hy⟩ := COutPoint.ser_total hb
  unfold serEq
  rw [hx, hy]
  show Except.ok _ = _
  congr 1
  rw [Bool.eq_iff_iff, beq_iff_eq, decide_eq_true_eq]
  constructor
  · rintro rfl
    cases PF.outpoint.inj hx hy
    exact ⟨rfl, rfl⟩
  · rintro ⟨h1, h2⟩
    have : a = b := by cases a; cases b; simp_all
    subst this
    rw [hx] at hy
    injection hy

example : (⟨List.replicate 32 0x11#8, 258⟩ : COutPoint).Valid ∧
    serEq COutPoint.ser ⟨List.replicate 32 0x11#8, 258⟩ ⟨List.replicate 32 0x11#8, 513⟩ = .ok false := by decide +kernel

end Verif.Btc
