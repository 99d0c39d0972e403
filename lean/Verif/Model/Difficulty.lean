import Verif.Model.Block
import Verif.Model.Rpc
/-!
# Model of `CBlockHeader.calc_difficulty`

`BC` abbreviates `lib/python-bitcoinlib/bitcoin/core/__init__.py`.

Simplifications: a float is a rational number, and the result of an operation is rounded by `Rpc.toFloat` (the numbers here are below 2^256, so
that there is no largest float does not matter); `nBits` is not negative, as in every header that was read or can be written; `ZeroDivisionError` is `PyErr.other`.
-/
namespace Verif.Btc
open Verif Rpc

/-- The first loop, BC:425-427, so many times. -/
def diffUp : Nat → ℚ → ℚ
  | 0, d => d
  | k + 1, d => diffUp k (toFloat (d * 256))

/-- The second loop, BC:428-430. -/
def diffDown : Nat → ℚ → ℚ
  | 0, d => d
  | k + 1, d => diffDown k (toFloat (d / 256))

/-- `calc_difficulty`, BC:421-431. -/
def calcDifficulty (nBits : Nat) : Py ℚ :=
  let nShift := (nBits >>> 24) &&& 0xff
  let m := nBits &&& 0x00ffffff
  if m = 0 then .error .other
  else
    let dDiff := toFloat (toFloat ((0x0000ffff : Nat) : ℚ) / toFloat (m : ℚ))
    .ok (diffDown (nShift - 29) (diffUp (29 - nShift) dDiff))

/-- `difficulty`, BC:432. -/
def CBlockHeader.difficulty (h : CBlockHeader) : Py ℚ := calcDifficulty h.nBits.toNat

end Verif.Btc
