import Verif.Model.Base58
/-!
# Model of the `repr` of addresses and secret keys

`B58` abbreviates `lib/python-bitcoinlib/bitcoin/base58.py`.

Simplification: `%r` of a text is the text between quotes, which is right for the texts of `__str__`, made of base 58 digits (B58:29).
-/
namespace Verif.Btc
open Verif
open Verif.Sus (Str)

/-- `__class__.__name__`: B58:99, wallet.py:34, 76, 114, 228. -/
def B58Cls.pyName : B58Cls → Str
  | .data => "CBase58Data".toList
  | .address => "CBitcoinAddress".toList
  | .p2sh => "P2SHBitcoinAddress".toList
  | .p2pkh => "P2PKHBitcoinAddress".toList
  | .secret => "CBitcoinSecret".toList

/-- `CBase58Data.__repr__`, B58:145-146. -/
def reprB58 (H : HashFns) (x : B58Data) : Py Str := do
  let s ← strB58 H x
  return x.cls.pyName ++ '(' :: (('\'' :: (s ++ ['\''])) ++ [')'])

end Verif.Btc
