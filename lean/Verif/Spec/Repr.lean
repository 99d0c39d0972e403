import Verif.Model.Repr
import Verif.Model.Texts
import Verif.Model.Rpc
import Verif.Spec.Script
/-!
# Evaluating the text of an expression

A part of Python: numbers, texts without escapes, names, calls, lists, tuples, the unary minus and one multiplication; `none` is a
text that is not such an expression.  The names are those of `from bitcoin.core import *; from bitcoin.core.script import *; from proofmarshal.serialize import
HashTag; from proofmarshal.bits import Bits`.
-/
namespace Verif.Rp
open Verif Verif.Btc Verif.Sus Verif.Rpc

inductive Expr where
  | num (w : Str)
  | name (w : Str)
  | str (s : Str)
  | call (f : Str) (args : List Expr)
  | list (xs : List Expr)
  | tuple (xs : List Expr)
  | neg (e : Expr)
  | times (a b : Expr)

/-- The characters of names and numbers. -/
def wordChar (c : Char) : Bool := ('a' ≤ c ∧ c ≤ 'z') ∨ ('A' ≤ c ∧ c ≤ 'Z') ∨ ('0' ≤ c ∧ c ≤ '9') ∨ c = '_' ∨ c = '.'

/-- A decimal digit. -/
def decChar (c : Char) : Bool := '0' ≤ c ∧ c ≤ '9'

mutual
/-- An expression at the beginning of a text, and what follows it.  The number bounds the recursion. -/
def pExpr : Nat → Str → Option (Expr × Str)
  | 0, _ => none
  | n + 1, s => do
    let (a, r) ← pAtom n s
    match r with
    | '*' :: r => do
      let (b, r) ← pAtom n r
      return (.times a b, r)
    | r => return (a, r)
/-- An expression without multiplication. -/
def pAtom : Nat → Str → Option (Expr × Str)
  | 0, _ => none
  | _, [] => none
  | n + 1, c :: s =>
    if c = '(' then do
      let (xs, comma, r) ← pArgs n ')' s
      match xs, comma with
      | [e], false => return (e, r)
      | xs, _ => return (.tuple xs, r)
    else if c = '[' then do
      let (xs, _, r) ← pArgs n ']' s
      return (.list xs, r)
    else if c = '\'' then
      let t := s.takeWhile (· ≠ '\'')
      match s.dropWhile (· ≠ '\'') with
      | _ :: r => if '\\' ∈ t ∨ '\n' ∈ t then none else return (.str t, r)
      | [] => none
    else if c = '-' then do
      let (e, r) ← pAtom n s
      return (.neg e, r)
    else if wordChar c then
      let w := (c :: s).takeWhile wordChar
      let r := (c :: s).dropWhile wordChar
      if decChar c then return (.num w, r)
      else match r with
        | '(' :: r => do
          let (xs, _, r) ← pArgs n ')' r
          return (.call w xs, r)
        | r => return (.name w, r)
    else none
/-- Expressions with commas between them, up to the bracket that closes them; and whether a comma stands before it. -/
def pArgs : Nat → Char → Str → Option (List Expr × Bool × Str)
  | 0, _, _ => none
  | _, _, [] => none
  | n + 1, close, c :: s =>
    if c = close then return ([], true, s)
    else do
      let (e, r) ← pExpr n (c :: s)
      match r with
      | ',' :: r => do
        let (es, comma, r) ← pArgs n close (r.dropWhile (· = ' '))
        return (e :: es, comma, r)
      | d :: r => if d = close then return ([e], false, r) else none
      | [] => none
end

/-- A whole text that is an expression. -/
def parse (s : Str) : Option Expr := do
  let (e, r) ← pExpr (2 * s.length + 2) s
  if r = [] then return e else none

/-- The number with the digits `s`. -/
def numeral (base : Nat) (s : Str) : Option Nat :=
  s.foldl (fun n c => do
    let n ← n
    let d ← hexVal c
    if d < base then return n * base + d else none) (if s = [] then none else some 0)

inductive Val where
  | int (n : Int)
  | float (q : ℚ)
  | str (s : Str)
  | bytes (b : Bytes)
  | op (o : Byte)
  | list (xs : List Val)
  | tuple (xs : List Val)
  | script (s : Bytes)
  | outpoint (o : COutPoint)
  | txin (i : CTxIn)
  | txout (o : CTxOut)
  | tx (t : CTransaction)
  | header (h : CBlockHeader)
  | tag (t : Bytes)
  | bits (b : Bits)

/-- The number written `w`: decimal without leading zeros, hexadecimal, or with a decimal point.  Anything else that begins with a
digit is a syntax error or a number that is not used here. -/
def number (w : Str) : Option Val :=
  match w with
  | '0' :: 'x' :: h => (numeral 16 h).map fun n => .int n
  | w =>
    if '.' ∈ w then do
      let i := w.takeWhile (· ≠ '.')
      let f := (w.dropWhile (· ≠ '.')).drop 1
      let m ← numeral 10 i
      let n ← numeral 10 f
      return .float (toFloat (((m * 10 ^ f.length + n : Nat) : ℚ) / 10 ^ f.length))
    else do
      let n ← numeral 10 w
      if w.head? = some '0' ∧ n ≠ 0 then none else return .int n

/-- The names of opcodes, as constants of the library, SC:107-247. -/
def opConsts : List (String × Nat) :=
  [("OP_0", 0x00), ("OP_FALSE", 0x00), ("OP_PUSHDATA1", 0x4c), ("OP_PUSHDATA2", 0x4d), ("OP_PUSHDATA4", 0x4e),
   ("OP_1NEGATE", 0x4f), ("OP_RESERVED", 0x50), ("OP_1", 0x51), ("OP_TRUE", 0x51), ("OP_2", 0x52), ("OP_3", 0x53),
   ("OP_4", 0x54), ("OP_5", 0x55), ("OP_6", 0x56), ("OP_7", 0x57), ("OP_8", 0x58), ("OP_9", 0x59), ("OP_10", 0x5a),
   ("OP_11", 0x5b), ("OP_12", 0x5c), ("OP_13", 0x5d), ("OP_14", 0x5e), ("OP_15", 0x5f), ("OP_16", 0x60), ("OP_NOP", 0x61),
   ("OP_VER", 0x62), ("OP_IF", 0x63), ("OP_NOTIF", 0x64), ("OP_VERIF", 0x65), ("OP_VERNOTIF", 0x66), ("OP_ELSE", 0x67),
   ("OP_ENDIF", 0x68), ("OP_VERIFY", 0x69), ("OP_RETURN", 0x6a), ("OP_TOALTSTACK", 0x6b), ("OP_FROMALTSTACK", 0x6c),
   ("OP_2DROP", 0x6d), ("OP_2DUP", 0x6e), ("OP_3DUP", 0x6f), ("OP_2OVER", 0x70), ("OP_2ROT", 0x71), ("OP_2SWAP", 0x72),
   ("OP_IFDUP", 0x73), ("OP_DEPTH", 0x74), ("OP_DROP", 0x75), ("OP_DUP", 0x76), ("OP_NIP", 0x77), ("OP_OVER", 0x78),
   ("OP_PICK", 0x79), ("OP_ROLL", 0x7a), ("OP_ROT", 0x7b), ("OP_SWAP", 0x7c), ("OP_TUCK", 0x7d), ("OP_CAT", 0x7e),
   ("OP_SUBSTR", 0x7f), ("OP_LEFT", 0x80), ("OP_RIGHT", 0x81), ("OP_SIZE", 0x82), ("OP_INVERT", 0x83), ("OP_AND", 0x84),
   ("OP_OR", 0x85), ("OP_XOR", 0x86), ("OP_EQUAL", 0x87), ("OP_EQUALVERIFY", 0x88), ("OP_RESERVED1", 0x89),
   ("OP_RESERVED2", 0x8a), ("OP_1ADD", 0x8b), ("OP_1SUB", 0x8c), ("OP_2MUL", 0x8d), ("OP_2DIV", 0x8e), ("OP_NEGATE", 0x8f),
   ("OP_ABS", 0x90), ("OP_NOT", 0x91), ("OP_0NOTEQUAL", 0x92), ("OP_ADD", 0x93), ("OP_SUB", 0x94), ("OP_MUL", 0x95),
   ("OP_DIV", 0x96), ("OP_MOD", 0x97), ("OP_LSHIFT", 0x98), ("OP_RSHIFT", 0x99), ("OP_BOOLAND", 0x9a), ("OP_BOOLOR", 0x9b),
   ("OP_NUMEQUAL", 0x9c), ("OP_NUMEQUALVERIFY", 0x9d), ("OP_NUMNOTEQUAL", 0x9e), ("OP_LESSTHAN", 0x9f),
   ("OP_GREATERTHAN", 0xa0), ("OP_LESSTHANOREQUAL", 0xa1), ("OP_GREATERTHANOREQUAL", 0xa2), ("OP_MIN", 0xa3),
   ("OP_MAX", 0xa4), ("OP_WITHIN", 0xa5), ("OP_RIPEMD160", 0xa6), ("OP_SHA1", 0xa7), ("OP_SHA256", 0xa8),
   ("OP_HASH160", 0xa9), ("OP_HASH256", 0xaa), ("OP_CODESEPARATOR", 0xab), ("OP_CHECKSIG", 0xac),
   ("OP_CHECKSIGVERIFY", 0xad), ("OP_CHECKMULTISIG", 0xae), ("OP_CHECKMULTISIGVERIFY", 0xaf), ("OP_NOP1", 0xb0),
   ("OP_NOP2", 0xb1), ("OP_NOP3", 0xb2), ("OP_NOP4", 0xb3), ("OP_NOP5", 0xb4), ("OP_NOP6", 0xb5), ("OP_NOP7", 0xb6),
   ("OP_NOP8", 0xb7), ("OP_NOP9", 0xb8), ("OP_NOP10", 0xb9), ("OP_SMALLINTEGER", 0xfa), ("OP_PUBKEYS", 0xfb),
   ("OP_PUBKEYHASH", 0xfd), ("OP_PUBKEY", 0xfe), ("OP_INVALIDOPCODE", 0xff)]

/-- The items of a script. -/
def Val.item : Val → Option Item
  | .int n => some (.int n)
  | .op o => some (.op o)
  | .bytes d => some (.data d)
  | _ => none

def Val.txin? : Val → Option CTxIn
  | .txin i => some i
  | _ => none

def Val.txout? : Val → Option CTxOut
  | .txout o => some o
  | _ => none

/-- `bool(n)`. -/
def Val.truth : Val → Option Bool
  | .int n => some (decide (n ≠ 0))
  | _ => none

/-- The elements of a list or tuple. -/
def Val.elems : Val → Option (List Val)
  | .list xs => some xs
  | .tuple xs => some xs
  | _ => none

/-- An exception counts as no result. -/
def result {α} (x : Py α) (f : α → Val) : Option Val :=
  match x with
  | .ok a => some (f a)
  | .error _ => none

/-- `int(q)`. -/
def truncQ (q : ℚ) : Int := if 0 ≤ q then ⌊q⌋ else ⌈q⌉

/-- Calls of the functions and classes of the library. -/
def callLib (f : String) (args : List Val) : Option Val :=
  match f, args with
  | "x", [.str h] => result (unhex h) .bytes
  | "lx", [.str h] => result (lx h) .bytes
  | "CScriptOp", [.int n] => if 0 ≤ n ∧ n ≤ 0xff then some (.op (BitVec.ofInt 8 n)) else none
  | "CScript", [xs] => do
    let vs ← xs.elems
    let is ← vs.mapM Val.item
    result (mkScript is) .script
  | "COutPoint", [] => result (COutPoint.new (List.replicate 32 0#8) 0xffffffff) .outpoint
  | "COutPoint", [.bytes h, .int n] => result (COutPoint.new h n) .outpoint
  | "CTxIn", [.outpoint o, .script s, .int n] => result (CTxIn.new o s n) .txin
  | "CTxOut", [.int v, .script s] => some (.txout ⟨v, s⟩)
  | "CTxOut", [.float q, .script s] => some (.txout ⟨truncQ q, s⟩)
  | "CTransaction", [vin, vout, .int l, .int v] => do
    let is ← vin.elems
    let is ← is.mapM Val.txin?
    let os ← vout.elems
    let os ← os.mapM Val.txout?
    result (CTransaction.new is os l v) .tx
  | "CBlockHeader", [.int v, .bytes p, .bytes m, .int t, .int b, .int n] => result (CBlockHeader.new v p m t b n) .header
  | "HashTag", [.str s] => result (newTag s) .tag
  | "Bits", [xs] => do
    let vs ← xs.elems
    let bs ← vs.mapM Val.truth
    return .bits (Bits.ofIter bs)
  | _, _ => none

mutual
/-- The value of an expression; `none` if there is an exception, or something not described here. -/
def eval : Expr → Option Val
  | .num w => number w
  | .name w =>
    if w = "COIN".toList then some (.int 100000000)
    else (opConsts.find? fun e => e.1.toList = w).map fun e => .op (BitVec.ofNat 8 e.2)
  | .str s => some (.str s)
  | .call f args => do
    let vs ← evals args
    callLib (String.ofList f) vs
  | .list xs => do
    let vs ← evals xs
    return .list vs
  | .tuple xs => do
    let vs ← evals xs
    return .tuple vs
  | .neg e => do
    match ← eval e with
    | .int n => return .int (-n)
    | .float q => return .float (-q)
    | _ => none
  | .times a b => do
    match ← eval a, ← eval b with
    | .int m, .int n => return .int (m * n)
    | .float p, .int n => return .float (toFloat (p * toFloat n))
    | _, _ => none
def evals : List Expr → Option (List Val)
  | [] => some []
  | e :: es => do
    let v ← eval e
    let vs ← evals es
    return v :: vs
end

/-- `eval(text)`. -/
def evalText (s : Str) : Option Val := do
  let e ← parse s
  eval e

/-! ## What comes of an object -/

/-- The same operation, written in the shortest way if it is a push. -/
def shorten : Tok → Tok
  | .op o => .op o
  | .push _ d => .push (shortest d) d

/-- A script of the same operations, the pushes written in the shortest way. -/
def ScriptReads (s s' : Bytes) : Prop := ∃ ts, WFToks ts ∧ s = scriptOf ts ∧ s' = scriptOf (ts.map shorten)

/-- `int(x*COIN)`, where `x` is the number with the amount as its decimal digits: a product of floats. -/
def moneyBack (v : Int) : Int := truncQ (toFloat (toFloat ((v : ℚ) / 10 ^ 8) * 10 ^ 8))

/-- An input. -/
def InReads (i i' : CTxIn) : Prop := i'.prevout = i.prevout ∧ i'.nSequence = i.nSequence ∧ ScriptReads i.scriptSig i'.scriptSig

/-- An output. -/
def OutReads (o o' : CTxOut) : Prop := o'.nValue = (if 0 ≤ o.nValue then moneyBack o.nValue else o.nValue) ∧ ScriptReads o.scriptPubKey o'.scriptPubKey

/-- The values of the fields are in range. -/
def InOk (i : CTxIn) : Prop := i.prevout.hash.length = 32 ∧ (0 ≤ i.prevout.n ∧ i.prevout.n ≤ 0xffffffff) ∧ (0 ≤ i.nSequence ∧ i.nSequence ≤ 0xffffffff)

/-- A decimal number, with sign and point. -/
def decimal (s : Str) : Option ℚ :=
  match s with
  | '-' :: t => (udecimal t).map fun q => -q
  | t => udecimal t
where
  udecimal (t : Str) : Option ℚ := do
    let f := (t.dropWhile (· ≠ '.')).drop 1
    let m ← numeral 10 (t.takeWhile (· ≠ '.'))
    let n ← numeral 10 f
    return m + n / 10 ^ f.length

end Verif.Rp
