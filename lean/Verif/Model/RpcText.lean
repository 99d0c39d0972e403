import Verif.Model.Rpc
/-!
# Model of `json.dumps` as bitcoin/rpc.py uses it: the text of a request

`RPC` is `lib/python-bitcoinlib/bitcoin/rpc.py`.  `json.dumps` is Python's own; this is what it does with its default arguments.

Simplifications:
* Texts are sequences of Unicode scalar values: a Python text may contain single surrogates too.
* The members of an object are written in the order of the model; Python before 3.7 may write them in another.
* The text of a `float` is a parameter (which one it is for amounts is C118).
-/
namespace Verif.Rpc
open Verif Btc Sus

/-- Four hexadecimal digits. -/
def hex4 (n : Nat) : Str := [hexChar (n / 4096 % 16), hexChar (n / 256 % 16), hexChar (n / 16 % 16), hexChar (n % 16)]

/-- A character of a text, in `py_encode_basestring_ascii`; RPC:134, RPC:169. -/
def escChar (c : Char) : Str :=
  if c = '"' then ['\\', '"']
  else if c = '\\' then ['\\', '\\']
  else if c = '\n' then ['\\', 'n']
  else if c = '\r' then ['\\', 'r']
  else if c = '\t' then ['\\', 't']
  else if c.toNat = 8 then ['\\', 'b']
  else if c.toNat = 12 then ['\\', 'f']
  else if 32 ≤ c.toNat ∧ c.toNat ≤ 126 then [c]
  else if c.toNat < 0x10000 then '\\' :: 'u' :: hex4 c.toNat
  else '\\' :: 'u' :: (hex4 (0xd800 + (c.toNat - 0x10000) / 1024) ++ '\\' :: 'u' :: hex4 (0xdc00 + (c.toNat - 0x10000) % 1024))

/-- The characters of a text and the closing quote. -/
def strBody : Str → Str
  | [] => ['"']
  | c :: s => escChar c ++ strBody s

/-- A text. -/
def strText (s : Str) : Str := '"' :: strBody s

mutual
/-- Does `json.dumps` raise a `TypeError`?  A `Decimal` is not JSON serializable. -/
def hasDec : Json → Bool
  | .dec _ _ => true
  | .arr l => hasDecArr l
  | .obj l => hasDecObj l
  | _ => false
/-- The same for the members of a list. -/
def hasDecArr : List Json → Bool
  | [] => false
  | x :: l => hasDec x || hasDecArr l
/-- The same for the members of an object. -/
def hasDecObj : List (Str × Json) → Bool
  | [] => false
  | (_, x) :: l => hasDec x || hasDecObj l
end

variable (fl : ℚ → Str)

mutual
/-- The text of a value without `Decimal`s. -/
def text : Json → Str
  | .null => ['n', 'u', 'l', 'l']
  | .bool true => ['t', 'r', 'u', 'e']
  | .bool false => ['f', 'a', 'l', 's', 'e']
  | .int n => Sus.dec n
  | .dec _ _ => []
  | .flt q => fl q
  | .str s => strText s
  | .arr [] => ['[', ']']
  | .arr (x :: l) => '[' :: (text x ++ arrTail l)
  | .obj [] => ['{', '}']
  | .obj ((k, x) :: l) => '{' :: (strText k ++ ':' :: ' ' :: (text x ++ objTail l))
/-- The members of a list after the first. -/
def arrTail : List Json → Str
  | [] => [']']
  | x :: l => ',' :: ' ' :: (text x ++ arrTail l)
/-- The members of an object after the first. -/
def objTail : List (Str × Json) → Str
  | [] => ['}']
  | (k, x) :: l => ',' :: ' ' :: (strText k ++ ':' :: ' ' :: (text x ++ objTail l))
end

/-- `json.dumps(j)`. -/
def dumps (j : Json) : Py Str := if hasDec j then .error .typeError else .ok (text fl j)

/-- The request as it is given to `json.dumps`, RPC:134-137. -/
def reqJson (r : Req) : Json :=
  .obj [(T "version", .str (T "1.1")), (T "method", .str r.method), (T "params", .arr r.params), (T "id", .int r.id)]

/-- `postdata` of `_call`, RPC:134-137. -/
def postdata (r : Req) : Py Str := dumps fl (reqJson r)

/-- `postdata` of `_batch`, RPC:169. -/
def batchData (l : List Json) : Py Str := dumps fl (.arr l)

end Verif.Rpc
