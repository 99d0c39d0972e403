import Verif.Props.Serialize
import Verif.Lemmas.Prim
/-! # C01 for all the integers of Python -/
namespace Verif

/-- C01: a negative number, which `write_varuint` does not refuse, is written as one byte; what is read back is its remainder modulo 128. -/
theorem C01_int (i : Int) (rest : Bytes) :
    readVaruint (writeVaruintInt i ++ rest) = .ok (if 0 ≤ i then i.toNat else (i % 128).toNat, rest) := by
  split
  · rename_i h
    rw [writeVaruintInt_nonneg h, readVaruint_write]
  · rename_i h
    have e : writeVaruintInt i = writeVaruint (i % 128).toNat := by
      unfold writeVaruintInt
      rw [if_pos (by omega), writeVaruint_lt (by omega)]
      congr 1
      have h2 : i % 128 = (((i % 128).toNat : Nat) : Int) := by omega
      generalize (i % 128).toNat = n at h2
      rw [h2, BitVec.ofInt_natCast]
    rw [e, readVaruint_write]

/-- C01: so exactly the negative numbers do not come back. -/
theorem C01_int_exact (i : Int) (rest : Bytes) : (∃ n : Nat, (n : Int) = i ∧ readVaruint (writeVaruintInt i ++ rest) = .ok (n, rest)) ↔ 0 ≤ i := by
  constructor
  · rintro ⟨n, h, _⟩
    omega
  · intro h
    exact ⟨i.toNat, by omega, by rw [C01_int, if_pos h]⟩

example : writeVaruintInt (-3) = [0x7d#8] := by decide +kernel
example : readVaruint (writeVaruintInt (-3) ++ [5#8]) = .ok (125, [5#8]) := C01_int (-3) [5#8]

end Verif
