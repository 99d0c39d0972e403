import Verif.Model.Block
import Verif.Model.Script
import Verif.Model.SusTool
/-!
# Model of the text forms of scripts, transactions and block headers

`BC` abbreviates `lib/python-bitcoinlib/bitcoin/core/__init__.py`, `SC` `lib/python-bitcoinlib/bitcoin/core/script.py`.
Formatting with `%i`, `%d`, `%s` of an integer is `dec`; the `%r` of a text without quotes, backslashes and unprintable characters puts
it between `'`; the `repr` of a tuple or list is that of its elements with `, ` between them.  All of this is Python's.
-/
namespace Verif.Rp
open Verif Verif.Btc Verif.Sus

/-- `OPCODE_NAMES`, SC:249-366, with the values of SC:107-247. -/
def opNames : List (Nat × String) :=
  [(0x00, "OP_0"), (0x4c, "OP_PUSHDATA1"), (0x4d, "OP_PUSHDATA2"), (0x4e, "OP_PUSHDATA4"), (0x4f, "OP_1NEGATE"),
   (0x50, "OP_RESERVED"), (0x51, "OP_1"), (0x52, "OP_2"), (0x53, "OP_3"), (0x54, "OP_4"), (0x55, "OP_5"), (0x56, "OP_6"),
   (0x57, "OP_7"), (0x58, "OP_8"), (0x59, "OP_9"), (0x5a, "OP_10"), (0x5b, "OP_11"), (0x5c, "OP_12"), (0x5d, "OP_13"),
   (0x5e, "OP_14"), (0x5f, "OP_15"), (0x60, "OP_16"), (0x61, "OP_NOP"), (0x62, "OP_VER"), (0x63, "OP_IF"),
   (0x64, "OP_NOTIF"), (0x65, "OP_VERIF"), (0x66, "OP_VERNOTIF"), (0x67, "OP_ELSE"), (0x68, "OP_ENDIF"),
   (0x69, "OP_VERIFY"), (0x6a, "OP_RETURN"), (0x6b, "OP_TOALTSTACK"), (0x6c, "OP_FROMALTSTACK"), (0x6d, "OP_2DROP"),
   (0x6e, "OP_2DUP"), (0x6f, "OP_3DUP"), (0x70, "OP_2OVER"), (0x71, "OP_2ROT"), (0x72, "OP_2SWAP"), (0x73, "OP_IFDUP"),
   (0x74, "OP_DEPTH"), (0x75, "OP_DROP"), (0x76, "OP_DUP"), (0x77, "OP_NIP"), (0x78, "OP_OVER"), (0x79, "OP_PICK"),
   (0x7a, "OP_ROLL"), (0x7b, "OP_ROT"), (0x7c, "OP_SWAP"), (0x7d, "OP_TUCK"), (0x7e, "OP_CAT"), (0x7f, "OP_SUBSTR"),
   (0x80, "OP_LEFT"), (0x81, "OP_RIGHT"), (0x82, "OP_SIZE"), (0x83, "OP_INVERT"), (0x84, "OP_AND"), (0x85, "OP_OR"),
   (0x86, "OP_XOR"), (0x87, "OP_EQUAL"), (0x88, "OP_EQUALVERIFY"), (0x89, "OP_RESERVED1"), (0x8a, "OP_RESERVED2"),
   (0x8b, "OP_1ADD"), (0x8c, "OP_1SUB"), (0x8d, "OP_2MUL"), (0x8e, "OP_2DIV"), (0x8f, "OP_NEGATE"), (0x90, "OP_ABS"),
   (0x91, "OP_NOT"), (0x92, "OP_0NOTEQUAL"), (0x93, "OP_ADD"), (0x94, "OP_SUB"), (0x95, "OP_MUL"), (0x96, "OP_DIV"),
   (0x97, "OP_MOD"), (0x98, "OP_LSHIFT"), (0x99, "OP_RSHIFT"), (0x9a, "OP_BOOLAND"), (0x9b, "OP_BOOLOR"),
   (0x9c, "OP_NUMEQUAL"), (0x9d, "OP_NUMEQUALVERIFY"), (0x9e, "OP_NUMNOTEQUAL"), (0x9f, "OP_LESSTHAN"),
   (0xa0, "OP_GREATERTHAN"), (0xa1, "OP_LESSTHANOREQUAL"), (0xa2, "OP_GREATERTHANOREQUAL"), (0xa3, "OP_MIN"),
   (0xa4, "OP_MAX"), (0xa5, "OP_WITHIN"), (0xa6, "OP_RIPEMD160"), (0xa7, "OP_SHA1"), (0xa8, "OP_SHA256"),
   (0xa9, "OP_HASH160"), (0xaa, "OP_HASH256"), (0xab, "OP_CODESEPARATOR"), (0xac, "OP_CHECKSIG"),
   (0xad, "OP_CHECKSIGVERIFY"), (0xae, "OP_CHECKMULTISIG"), (0xaf, "OP_CHECKMULTISIGVERIFY"), (0xb0, "OP_NOP1"),
   (0xb1, "OP_NOP2"), (0xb2, "OP_NOP3"), (0xb3, "OP_NOP4"), (0xb4, "OP_NOP5"), (0xb5, "OP_NOP6"), (0xb6, "OP_NOP7"),
   (0xb7, "OP_NOP8"), (0xb8, "OP_NOP9"), (0xb9, "OP_NOP10"), (0xfa, "OP_SMALLINTEGER"), (0xfb, "OP_PUBKEYS"),
   (0xfd, "OP_PUBKEYHASH"), (0xfe, "OP_PUBKEY"), (0xff, "OP_INVALIDOPCODE")]

/-- `'%x' % n`, for a number that is not negative. -/
def hexNat (n : Nat) : Str := if h : n < 16 then [hexChar n] else hexNat (n / 16) ++ [hexChar (n % 16)]

/-- `%x`. -/
def hexInt (i : Int) : Str := if i < 0 then '-' :: hexNat i.natAbs else hexNat i.natAbs

/-- The `0` of `%08x` and `%08i`: zeros between the sign and the digits, up to a width. -/
def zeros (w : Nat) (s : Str) : Str :=
  match s with
  | '-' :: t => '-' :: (List.replicate (w - 1 - t.length) '0' ++ t)
  | t => List.replicate (w - t.length) '0' ++ t

/-- `', '.join(…)`. -/
def join : List Str → Str
  | [] => []
  | [a] => a
  | a :: as => a ++ (", ".toList ++ join as)

/-- The name of an opcode, if it has one. -/
def opName (o : Byte) : Option String := (opNames.find? fun e => e.1 == o.toNat).map (·.2)

/-- `CScriptOp.__repr__`, SC:90-94. -/
def reprOp (o : Byte) : Str :=
  match opName o with
  | some s => s.toList
  | none => "CScriptOp(0x".toList ++ (hexNat o.toNat ++ ")".toList)

/-- `_repr`, SC:635-639. -/
def reprItem : Item → Str
  | .op o => reprOp o
  | .int n => dec n
  | .data d => "x('".toList ++ (b2x d ++ "')".toList)

/-- What the texts of the exceptions of `raw_iter` call a push, SC:574-600. -/
def pushName (op : Byte) : Str :=
  if op.toNat < 0x4c then "PUSHDATA(".toList ++ (decNat op.toNat ++ ")".toList)
  else if op = OP_PUSHDATA1 then "PUSHDATA1".toList
  else if op = OP_PUSHDATA2 then "PUSHDATA2".toList
  else "PUSHDATA4".toList

/-- What is shown in place of the operation that cannot be read, SC:646-653, by the exceptions SC:580-608. -/
def reprBad : Bytes → Str
  | [] => []
  | op :: s =>
    match dataSize op s with
    | .error _ => "<ERROR: ".toList ++ (pushName op ++ ": missing data length>".toList)
    | .ok (_, d) => reprItem (.data d) ++ ("...<ERROR: ".toList ++ (pushName op ++ ": truncated data>".toList))

/-- The loop of `CScript.__repr__`, SC:641-657, which takes from `__iter__`, SC:622-630, one item after the other. -/
def reprOps : Nat → Bytes → Py (List Str)
  | 0, _ => .ok []
  | n + 1, s =>
    if s.length = 0 then .ok []
    else match rawOp s with
      | .error _ => .ok [reprBad s]
      | .ok (op, d, s') => do
        let i ← cook ⟨op, d, 0⟩
        let r ← reprOps n s'
        return reprItem i :: r

/-- `CScript.__repr__`, SC:632-659. -/
def reprScript (s : Bytes) : Py Str := do
  let ops ← reprOps s.length s
  return "CScript([".toList ++ (join ops ++ "])".toList)

/-- `str_money_value`, BC:94-100.  `COIN` is 100000000, BC:25. -/
def strMoneyValue (value : Int) : Str :=
  let r := dec (value / 100000000) ++ ('.' :: zeros 8 (dec (value % 100000000)))
  let r := (r.reverse.dropWhile (· == '0')).reverse
  if r.getLast? = some '.' then r ++ ['0'] else r

/-- `COutPoint.__repr__`, BC:147-151. -/
def reprOutPoint (o : COutPoint) : Str :=
  if o.isNull then "COutPoint()".toList
  else "COutPoint(lx('".toList ++ (b2lx o.hash ++ ("'), ".toList ++ (dec o.n ++ ")".toList)))

/-- `CTxIn.__repr__`, BC:207-208. -/
def reprTxIn (i : CTxIn) : Py Str := do
  let s ← reprScript i.scriptSig
  return "CTxIn(".toList ++ (reprOutPoint i.prevout ++ (", ".toList ++ (s ++ (", 0x".toList ++ (hexInt i.nSequence ++ ")".toList)))))

/-- `CTxOut.__repr__`, BC:274-278. -/
def reprTxOut (o : CTxOut) : Py Str := do
  let s ← reprScript o.scriptPubKey
  if 0 ≤ o.nValue then return "CTxOut(".toList ++ (strMoneyValue o.nValue ++ ("*COIN, ".toList ++ (s ++ ")".toList)))
  else return "CTxOut(".toList ++ (dec o.nValue ++ (", ".toList ++ (s ++ ")".toList)))

/-- The `repr` of a list, or of a tuple. -/
def reprSeq (list : Bool) (xs : List Str) : Str :=
  if list then '[' :: (join xs ++ "]".toList)
  else match xs with
    | [a] => '(' :: (a ++ ",)".toList)
    | xs => '(' :: (join xs ++ ")".toList)

/-- `CTransaction.__repr__`, BC:339-340.  The inputs and outputs of a `CMutableTransaction` are lists, those of a `CTransaction`
tuples. -/
def reprTx (mutable : Bool) (t : CTransaction) : Py Str := do
  let vin ← t.vin.mapM reprTxIn
  let vout ← t.vout.mapM reprTxOut
  return "CTransaction(".toList ++ (reprSeq mutable vin ++ (", ".toList ++ (reprSeq mutable vout ++ (", ".toList ++
    (dec t.nLockTime ++ (", ".toList ++ (dec t.nVersion ++ ")".toList)))))))

/-- `CBlockHeader.__repr__`, BC:434-437. -/
def reprHeader (h : CBlockHeader) : Str :=
  "CBlockHeader(".toList ++ (dec h.nVersion ++ (", lx(".toList ++ (b2lx h.hashPrevBlock ++ ("), lx(".toList ++ (b2lx h.hashMerkleRoot ++
    ("), ".toList ++ (dec h.nTime ++ (", 0x".toList ++ (zeros 8 (hexInt h.nBits) ++ (", 0x".toList ++ (zeros 8 (hexInt h.nNonce) ++
      ")".toList)))))))))))

end Verif.Rp
