import Verif.Props.Btc
import Verif.Props.Prim
/-! # Limits: the longest scripts that are read (C42), and which classes of byte strings there are (C03) -/
namespace Verif
open Btc

/-- Byte strings of more than 32 MiB are written but not read. -/
theorem deserBytes_long {s b : Bytes} (h : serBytes s = .ok b) (hl : 33554432 < s.length) (rest : Bytes) : deserBytes (b ++ rest) = .error .btcSer := by
  have hm : MAX_SIZE = 33554432 := rfl
  unfold serBytes at h
  obtain ⟨l, h1, h⟩ := Except.bind_eq_ok h
  cases h
  unfold deserBytes
  rw [List.append_assoc, P.bind_ok ((RT.varInt h1).reads _)]
  unfold serRead
  rw [if_pos (by omega)]

/-- C42: an output with a script of at most 32 MiB is read back; one with a longer script is written and refused by the reader. -/
theorem C42_limit {o : CTxOut} {e : Bytes} (h : o.ser = .ok e) :
    deserializeAll CTxOut.deser e = if o.scriptPubKey.length ≤ 33554432 then .ok o else .error .btcSer := by
  have hm : MAX_SIZE = 33554432 := rfl
  split
  · exact C42_txout_roundtrip h (by omega)
  · rename_i hl
    unfold CTxOut.ser at h
    obtain ⟨a, h1, h⟩ := Except.bind_eq_ok h
    obtain ⟨b, h2, h⟩ := Except.bind_eq_ok h
    cases h
    have e : CTxOut.deser (a ++ b) = .error .btcSer := by
      unfold CTxOut.deser
      rw [P.bind_ok ((RT.serRead (packS_ok (by omega) h1).1 (by decide)).reads _)]
      have := deserBytes_long h2 (by omega) []
      rw [List.append_nil] at this
      exact P.bind_error this
    unfold deserializeAll
    rw [e]

/-- C42: there are such outputs. -/
example : ∃ o e, CTxOut.ser o = .ok e ∧ ¬ o.scriptPubKey.length ≤ 33554432 ∧ deserializeAll CTxOut.deser e = .error .btcSer := by
  have hl : (List.replicate 33554433 0x6a#8).length = 33554433 := List.length_replicate ..
  obtain ⟨e, he⟩ : ∃ e, CTxOut.ser ⟨0, List.replicate 33554433 0x6a#8⟩ = .ok e := by
    unfold CTxOut.ser serBytes
    rw [hl]
    exact ⟨_, rfl⟩
  refine ⟨⟨0, List.replicate 33554433 0x6a#8⟩, e, he, by rw [hl]; omega, ?_⟩
  rw [C42_limit he, if_neg (by rw [hl]; omega)]

/-- C03: `FixedBytes(n)` is a class for every `n` but negative ones, for which it raises `ValueError`; the class takes the byte strings of this length. -/
theorem C03_fixed (n : Int) :
    (n < 0 → PrimTy.mkFixed n = .error .valueError) ∧
    (0 ≤ n → ∃ τ, PrimTy.mkFixed n = .ok τ ∧ τ.isBasic = true ∧ ∀ v, τ.check v = .ok () ↔ ∃ b : Bytes, v = .bytes b ∧ (b.length : Int) = n) := by
  unfold PrimTy.mkFixed
  refine ⟨fun h => if_pos h, fun h => ⟨.fixed n.toNat, if_neg (by omega), rfl, fun v => ?_⟩⟩
  cases v <;> simp [PrimTy.check]
  omega

/-- C03: `VarBytes(min, max)` is a class if `0 <= min < max`, and raises `ValueError` otherwise; the class takes the byte strings with a length from `min`
to `max`. -/
theorem C03_var (min max : Int) :
    (¬ (0 ≤ min ∧ min < max) → PrimTy.mkVarBytes min max = .error .valueError) ∧
    (0 ≤ min ∧ min < max → ∃ τ, PrimTy.mkVarBytes min max = .ok τ ∧ τ.isBasic = true ∧
      ∀ v, τ.check v = .ok () ↔ ∃ b : Bytes, v = .bytes b ∧ min ≤ b.length ∧ (b.length : Int) ≤ max) := by
  unfold PrimTy.mkVarBytes
  refine ⟨fun h => if_pos h, fun h => ⟨.varBytes min.toNat max.toNat, if_neg (not_not_intro h), rfl, fun v => ?_⟩⟩
  cases v <;> simp [PrimTy.check]
  omega

example : PrimTy.mkFixed (-1) = .error .valueError ∧ PrimTy.mkFixed 0 = .ok (.fixed 0) ∧ PrimTy.mkVarBytes 2 2 = .error .valueError ∧
    PrimTy.mkVarBytes 0 2 = .ok (.varBytes 0 2) := ⟨rfl, rfl, rfl, rfl⟩

end Verif
