import Verif.Model.RpcText
import Verif.Props.MsgText
/-! # Reading JSON texts (RFC 8259, section 7), and what is assumed of the texts of numbers -/
namespace Verif.Rpc
open Verif Btc Sus

/-- Four hexadecimal digits. -/
def read4 : Str → Option (Nat × Str)
  | a :: b :: c :: d :: r =>
    match hexVal a, hexVal b, hexVal c, hexVal d with
    | some a, some b, some c, some d => some (4096 * a + 256 * b + 16 * c + d, r)
    | _, _, _, _ => none
  | _ => none

/-- A `\u` escape, and what comes after it. -/
def readU : Str → Option (Nat × Str)
  | '\\' :: 'u' :: r => read4 r
  | _ => none

/-- What one letter after a backslash stands for. -/
def letter (c : Char) : Option Nat :=
  [('"', 34), ('\\', 92), ('/', 47), ('b', 8), ('f', 12), ('n', 10), ('r', 13), ('t', 9)].lookup c

/-- The character that a `\u` escape, or two of them (UTF-16), stand for. -/
def readUs (r : Str) : Option (Nat × Str) :=
  match readU r with
  | none => none
  | some (h, r) =>
    if 0xd800 ≤ h ∧ h < 0xdc00 then
      match readU r with
      | none => none
      | some (l, r) => if 0xdc00 ≤ l ∧ l < 0xe000 then some (0x10000 + (h - 0xd800) * 1024 + (l - 0xdc00), r) else none
    else some (h, r)

/-- The code of the first character of the inside of a JSON text, and what comes after it; `none` if it is the closing quote or no such text. -/
def readChar : Str → Option (Nat × Str)
  | [] => none
  | c :: r =>
    if c = '"' ∨ c.toNat < 32 then none
    else if c ≠ '\\' then some (c.toNat, r)
    else match r.head?.bind letter with
      | some n => some (n, r.tail)
      | none => readUs (c :: r)

/-- `s` is the inside of a JSON text for `t`, up to and with the closing quote; `r` comes after it. -/
inductive ReadsStr : Str → Str → Str → Prop where
  | close (r) : ReadsStr ('"' :: r) [] r
  | char {s s' t r} (c : Char) : readChar s = some (c.toNat, s') → ReadsStr s' t r → ReadsStr s (c :: t) r

/-- A character of a number. -/
def NumChar (c : Char) : Prop := c ∈ "0123456789-+.eE".toList

/-- What is assumed of the text of a `float`: it has the characters of a number, begins with a digit or a minus, is not that of an `int`, and other
`float`s have other texts. -/
structure FloatText (fl : ℚ → Str) (ok : ℚ → Prop) : Prop where
  chars : ∀ q, ok q → ∀ c ∈ fl q, NumChar c
  lead : ∀ q, ok q → ∃ c t, fl q = c :: t ∧ c ∈ "0123456789-".toList
  point : ∀ q, ok q → '.' ∈ fl q ∨ 'e' ∈ fl q
  inj : ∀ q q', ok q → ok q' → fl q = fl q' → q = q'

mutual
/-- All `float`s in it are as `ok` says. -/
def Floats (ok : ℚ → Prop) : Json → Prop
  | .flt q => ok q
  | .arr l => FloatsArr ok l
  | .obj l => FloatsObj ok l
  | _ => True
def FloatsArr (ok : ℚ → Prop) : List Json → Prop
  | [] => True
  | x :: l => Floats ok x ∧ FloatsArr ok l
def FloatsObj (ok : ℚ → Prop) : List (Str × Json) → Prop
  | [] => True
  | (_, x) :: l => Floats ok x ∧ FloatsObj ok l
end

/-- There is a `Decimal` somewhere in the value. -/
inductive DecIn : Json → Prop where
  | here (c e) : DecIn (.dec c e)
  | arr {x l} : x ∈ l → DecIn x → DecIn (.arr l)
  | obj {k x l} : (k, x) ∈ l → DecIn x → DecIn (.obj l)

/-- White space. -/
def Ws (w : Str) : Prop := ∀ c ∈ w, c = ' ' ∨ c = '\t' ∨ c = '\n' ∨ c = '\r'

mutual
/-- The text is one of the value, in the grammar of JSON (with white space after colons and commas only). -/
inductive JsonText (fl : ℚ → Str) (ok : ℚ → Prop) : Json → Str → Prop where
  | null : JsonText fl ok .null "null".toList
  | true : JsonText fl ok (.bool .true) "true".toList
  | false : JsonText fl ok (.bool .false) "false".toList
  | int {n s} : Rp.Numeral s n → JsonText fl ok (.int n) s
  | flt {q} : ok q → JsonText fl ok (.flt q) (fl q)
  | str {t b} : ReadsStr b t [] → JsonText fl ok (.str t) ('"' :: b)
  | nil : JsonText fl ok (.arr []) "[]".toList
  | arr {x l s t} : JsonText fl ok x s → Items fl ok l t → JsonText fl ok (.arr (x :: l)) ('[' :: (s ++ t))
  | empty : JsonText fl ok (.obj []) "{}".toList
  | obj {k b w x l s t} : Ws w → ReadsStr b k [] → JsonText fl ok x s → Members fl ok l t →
    JsonText fl ok (.obj ((k, x) :: l)) ('{' :: ('"' :: b ++ ':' :: (w ++ (s ++ t))))
/-- The values of a list after the first, and its end. -/
inductive Items (fl : ℚ → Str) (ok : ℚ → Prop) : List Json → Str → Prop where
  | done : Items fl ok [] "]".toList
  | more {w x l s t} : Ws w → JsonText fl ok x s → Items fl ok l t → Items fl ok (x :: l) (',' :: (w ++ (s ++ t)))
/-- The members of an object after the first, and its end. -/
inductive Members (fl : ℚ → Str) (ok : ℚ → Prop) : List (Str × Json) → Str → Prop where
  | done : Members fl ok [] "}".toList
  | more {k b w w' x l s t} : Ws w → Ws w' → ReadsStr b k [] → JsonText fl ok x s → Members fl ok l t →
    Members fl ok ((k, x) :: l) (',' :: (w ++ ('"' :: b ++ ':' :: (w' ++ (s ++ t)))))
end

end Verif.Rpc
