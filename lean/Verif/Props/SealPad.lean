import Verif.Props.Seal
/-! # C45: the `hash` of a `TxProof` in bytes -/
namespace Verif.Seal
open Verif Btc

section
variable {H : HashFns} {g : GuMapDecl}
local notation "C" => classes H g

/-- Byte `i` of the 32 bytes that txids are combined with, from the number they are. -/
def padByte (i : Nat) : Byte := BitVec.ofNat 8 (0x4cf810b73dc605fbe6c2156a7041e370f4750e39d2d1573199c772c7324bd054 / 256 ^ (31 - i))

theorem getElem?_xorPad {i : Nat} (hi : i < 32) : Prf.xorPad[i]? = some (padByte i) := by
  have key : ∀ i : Fin 32, Prf.xorPad[i.val]? = some (padByte i.val) := by decide
  exact key ⟨i, hi⟩

/-- C45: the `hash` of a `TxProof` is, byte by byte, the exclusive or of the txid with these bytes. -/
theorem C45_pad {s : PState} {r : Nat} {x : CTransaction} {id : Bytes} (hs : Reachable C H s) (hr : Represents s r (txT x)) (hid : HasTxid H x id) :
    ∃ h, (Prf.hash C H r s).1 = .ok h ∧ h.length = 32 ∧ ∀ i < 32, h[i]? = (id[i]?).map (· ^^^ padByte i) := by
  obtain ⟨τ, hinv⟩ := hs.inv classes_wf
  have ht := hinv.of_represents hr
  obtain ⟨_, _, _, hq⟩ := hash_spec (H := H) classes_wf hinv ht
  rw [hash_txT_ok.mpr ⟨id, hid, rfl⟩] at hq
  refine ⟨_, hq, ?_, fun i hi => ?_⟩
  · simp only [Prf.xorWithPad, List.length_zipWith, hid.length, xorPad_length]; rfl
  · unfold Prf.xorWithPad
    rw [List.getElem?_zipWith, getElem?_xorPad hi]
    cases id[i]? <;> rfl

/-- A case of C45. -/
example : ∃ s r, Reachable (classes realHash intGuMap) realHash s ∧ Represents s r (txT Ex.tx) ∧ HasTxid realHash Ex.tx Ex.txid := by
  obtain ⟨s, r, hst, _, hw⟩ := build (T := classes realHash intGuMap) (H := realHash) (txT Ex.tx) rfl (txT_checked _) {}
  exact ⟨s, r, hst, hw.represents, Ex.has_txid⟩

end
end Verif.Seal
