import Verif.Model.Bloom
import Verif.Model.Rpc
/-!
# Model of `CBloomFilter.__init__`

`BB` abbreviates `lib/python-bitcoinlib/bitcoin/bloom.py`.

Simplifications:
* A float is a rational number, and the result of an operation is rounded by `Rpc.toFloat`, which knows no largest float: `nElements` is
  meant to be below 2^1000.
* `math.log` of a positive float is a parameter.
* `ZeroDivisionError` is `PyErr.other`.
-/
namespace Verif.Btc
open Verif Rpc

/-- `LN2SQUARED`, BB:115: the literal as a float. -/
def LN2SQUARED : ℚ := toFloat (4804530139182014246671025263266649717305529515945455 / 10 ^ 52)

/-- `LN2`, BB:116. -/
def LN2 : ℚ := toFloat (6931471805599453094172321214581765680755001343602552 / 10 ^ 52)

/-- `int(x)` of a float: what is behind the point is left out. -/
def truncate (q : ℚ) : Int := if 0 ≤ q then ⌊q⌋ else ⌈q⌉

/-- `math.log`: not for numbers that are not positive. -/
def mathLog (lg : ℚ → ℚ) (p : ℚ) : Py ℚ := if p ≤ 0 then .error .valueError else .ok (lg p)

/-- The argument of `bytearray`, BB:117. -/
def filterBytes (nElements : Int) (log : ℚ) : Int :=
  truncate (toFloat (min (toFloat (toFloat (toFloat (-1 / LN2SQUARED) * toFloat nElements) * log)) (36000 * 8) / 8))

/-- BB:118. -/
def filterHashes (size : Nat) (nElements : Int) : Int := truncate (min (toFloat (toFloat ((size * 8 : Nat) / nElements) * LN2)) 50)

/-- `CBloomFilter.__init__`, BB:97-120. -/
def CBloomFilter.new (lg : ℚ → ℚ) (nElements : Int) (nFPRate : ℚ) (nTweak nFlags : Int) : Py CBloomFilter := do
  let log ← mathLog lg nFPRate
  let size := filterBytes nElements log
  if size < 0 then .error .valueError
  else if nElements = 0 then .error .other
  else return ⟨List.replicate size.toNat 0#8, filterHashes size.toNat nElements, nTweak, nFlags⟩

end Verif.Btc
