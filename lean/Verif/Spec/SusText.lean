import Verif.Model.SusTool
/-! # The text that sus-tool takes as arguments -/
namespace Verif.Sus

/-- `c` is the hexadecimal digit for `v`, in either case. -/
def IsHex (c : Char) (v : Nat) : Prop := "0123456789abcdef".toList[v]? = some c ∨ "0123456789ABCDEF".toList[v]? = some c

/-- `c` is the decimal digit for `v`. -/
def IsDec (c : Char) (v : Nat) : Prop := "0123456789".toList[v]? = some c

/-- White space, as `int` and `bytes.fromhex` understand it. -/
def White (s : Str) : Prop := ∀ c ∈ s, c ∈ [' ', '\t', '\n', Char.ofNat 11, Char.ofNat 12, '\r']

/-- Two digits for every byte. -/
inductive HexText : Str → Bytes → Prop where
  | nil : HexText [] []
  | cons {a b m n s r} : IsHex a m → IsHex b n → HexText s r → HexText (a :: b :: s) (BitVec.ofNat 8 (16 * m + n) :: r)

/-- The same with white space between the bytes and around them. -/
inductive SpacedHex : Str → Bytes → Prop where
  | nil {w} : White w → SpacedHex w []
  | cons {w a b m n s r} : White w → IsHex a m → IsHex b n → SpacedHex s r → SpacedHex (w ++ a :: b :: s) (BitVec.ofNat 8 (16 * m + n) :: r)

/-- Decimal digits, perhaps with single underscores between them. -/
inductive DecText : Str → List Nat → Prop where
  | one {c d} : IsDec c d → DecText [c] [d]
  | more {c d s ds} : IsDec c d → DecText s ds → DecText (c :: s) (d :: ds)
  | under {c d s ds} : IsDec c d → DecText s ds → DecText (c :: '_' :: s) (d :: ds)

/-- The number with the digits `ds`. -/
def decValue : List Nat → Nat
  | [] => 0
  | d :: ds => d * 10 ^ ds.length + decValue ds

/-- The text of a number: white space, sign, digits, white space. -/
inductive IntText : Str → Int → Prop where
  | plain {w s ds w'} : White w → DecText s ds → White w' → IntText (w ++ (s ++ w')) (decValue ds : Int)
  | plus {w s ds w'} : White w → DecText s ds → White w' → IntText (w ++ ('+' :: s ++ w')) (decValue ds : Int)
  | minus {w s ds w'} : White w → DecText s ds → White w' → IntText (w ++ ('-' :: s ++ w')) (-(decValue ds : Int))

end Verif.Sus
