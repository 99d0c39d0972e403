import Verif.Model.SusTool
import Verif.Model.Bits
/-!
# Model of the text forms of tags and bits

`PS` abbreviates `lib/python-proofmarshal/proofmarshal/serialize.py`, `PB` `lib/python-proofmarshal/proofmarshal/bits.py`.  The class
`uuid.UUID` and `int(…, 16)` are Python's; of the texts, only ASCII characters are described (`int` also takes the digits of other
scripts).
-/
namespace Verif.Rp
open Verif Verif.Sus

/-- `s.replace(p, '')`; `k` counts the characters of an occurrence that are still to be left out. -/
def cutGo (p : Str) : Nat → Str → Str
  | _, [] => []
  | k + 1, _ :: s => cutGo p k s
  | 0, c :: s => if p.isPrefixOf (c :: s) then cutGo p (p.length - 1) s else c :: cutGo p 0 s

/-- `s.replace(p, '')`. -/
def cut (p s : Str) : Str := cutGo p 0 s

/-- `s.strip('{}')`. -/
def stripBraces (s : Str) : Str :=
  let brace := fun c : Char => decide (c = '{' ∨ c = '}')
  ((s.dropWhile brace).reverse.dropWhile brace).reverse

/-- Hexadecimal digits with single underscores between them, as `Sus.digits`. -/
def digits16 (v : Nat) (u : Bool) : Str → Option Nat
  | [] => if u then none else some v
  | c :: cs =>
    if c = '_' then (if u then none else digits16 v true cs)
    else match hexVal c with
      | some d => digits16 (16 * v + d) false cs
      | none => none

/-- What follows `0x`, and an underscore after it. -/
def skip0x : Str → Str
  | '0' :: 'x' :: '_' :: s => s
  | '0' :: 'X' :: '_' :: s => s
  | '0' :: 'x' :: s => s
  | '0' :: 'X' :: s => s
  | s => s

/-- The sign before a number, true for a minus, and what follows it. -/
def signed : Str → Bool × Str
  | '-' :: s => (true, s)
  | '+' :: s => (false, s)
  | s => (false, s)

/-- `int(s, 16)`. -/
def pyInt16 (s : Str) : Py Int :=
  let s := ((s.dropWhile isSpace).reverse.dropWhile isSpace).reverse
  match digits16 0 true (skip0x (signed s).2) with
  | some n => .ok (if (signed s).1 then -(n : Int) else n)
  | none => .error .valueError

/-- `n.to_bytes(k, 'big')`. -/
def bigEndian : Nat → Nat → Bytes
  | 0, _ => []
  | k + 1, n => bigEndian k (n / 256) ++ [BitVec.ofNat 8 n]

/-- The numbers that a `uuid.UUID` has. -/
def uuidRange (n : Int) : Bool := decide (0 ≤ n) && decide (n.toNat < 2 ^ 128)

/-- The bytes of a `uuid.UUID`, from its digits. -/
def uuidBytes (h : Str) : Py Bytes := do
  if h.length ≠ 32 then throw .valueError
  let n ← pyInt16 h
  if uuidRange n = false then throw .valueError
  return bigEndian 16 n.toNat

/-- `HashTag(tag)`, PS:447-448: the bytes of a `uuid.UUID`. -/
def newTag (s : Str) : Py Bytes := uuidBytes (cut "-".toList (stripBraces (cut "uuid:".toList (cut "urn:".toList s))))

/-- `HashTag.__str__`, PS:459-461. -/
def strTag (t : Bytes) : Str :=
  let h := b2x t
  h.take 8 ++ '-' :: ((h.drop 8).take 4 ++ '-' :: ((h.drop 12).take 4 ++ '-' :: ((h.drop 16).take 4 ++ '-' :: h.drop 20)))

/-- `HashTag.__repr__`, PS:463-464. -/
def reprTag (t : Bytes) : Str := "HashTag('".toList ++ (strTag t ++ "')".toList)

/-- `",".join(…)`. -/
def joinTight : List Str → Str
  | [] => []
  | [a] => a
  | a :: as => a ++ ',' :: joinTight as

/-- `Bits.__repr__`, PB:63-65. -/
def reprBits (b : Bits) : Py Str := do
  let bits ← b.iter
  return "Bits([".toList ++ (joinTight (bits.map fun bit => if bit then ['1'] else ['0']) ++ "])".toList)

end Verif.Rp
