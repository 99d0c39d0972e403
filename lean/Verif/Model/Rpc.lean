import Mathlib.Data.Int.Log
import Mathlib.Data.Rat.Floor
import Verif.Model.Block
import Verif.Model.Base58
/-!
# Model of lib/python-bitcoinlib/bitcoin/rpc.py

`RPC` is `lib/python-bitcoinlib/bitcoin/rpc.py`, `BC` is `lib/python-bitcoinlib/bitcoin/core/__init__.py`.

The node is a parameter: a state and a function that takes a request and returns a response.  The proxy has a counter of requests.

Simplifications:
* JSON is a tree; its text form is modelled for requests (Model/RpcText.lean) and, in responses, for numbers only.  `NaN` and `Infinity`, which `json.loads` makes
  `float`s, do not occur in responses.  Keys of an object are distinct.
* HTTP is not modelled: a request is answered, or `getresponse` returns `None`.  Timeouts and connection errors do not occur.
* Messages of exceptions are not modelled, but their arguments are computed.
* Exponents of `Decimal`s stay within the limits of the decimal module (10^18).
* Arguments have the documented types: `bytes`, `int`, `bool`, objects of the library.
* A list or an object where an address or an amount is expected is a `TypeError`.
-/
namespace Verif.Rpc
open Verif Btc Sus

/-! ## Numbers -/

/-- `COIN`, BC:26. -/
def COIN : Nat := 100000000

/-- A JSON value as `json.loads(..., parse_float=decimal.Decimal)` returns it, RPC:184-185; `dec c e` is the `Decimal` c·10^e.  `flt q` is a
`float` with value `q`; it occurs in requests only. -/
inductive Json where
  | null
  | bool (b : Bool)
  | int (n : Int)
  | dec (c : Int) (e : Int)
  | flt (q : ℚ)
  | str (s : Str)
  | arr (l : List Json)
  | obj (l : List (Str × Json))

/-- The number of decimal digits of the coefficient of a `Decimal`. -/
def numDigits (c : Nat) : Nat := if c < 10 then 1 else numDigits (c / 10) + 1
decreasing_by omega

/-- Rounding to `k` digits less, half to even. -/
def dropDigits (c k : Nat) : Nat :=
  let q := c / 10 ^ k
  let r := c % 10 ^ k
  if 10 ^ k < 2 * r ∨ 10 ^ k = 2 * r ∧ q % 2 = 1 then q + 1 else q

/-- Rounding of an absolute value to 28 digits, the precision of the default context of the decimal module.  If rounding carries into a 29th digit
the module removes it; this does not change the value. -/
def round28 (c : Nat) (e : Int) : Nat × Int :=
  if numDigits c ≤ 28 then (c, e) else (dropDigits c (numDigits c - 28), e + (numDigits c - 28 : Nat))

/-- `int(d)` of the `Decimal` with absolute value c·10^e, without the sign: truncation. -/
def truncDec (c : Nat) (e : Int) : Nat := if 0 ≤ e then c * 10 ^ e.toNat else c / 10 ^ (-e).toNat

/-- `int(d * COIN)` for a `Decimal`: multiplication rounds to 28 digits; `decimal.Overflow` is raised if the result is 10^1000000 or more.
Results below 10^-999999 are rounded to fewer digits; `int` makes them 0 all the same. -/
def decToSat (c : Int) (e : Int) : Py Int :=
  let r := round28 (c.natAbs * COIN) e
  if r.1 ≠ 0 ∧ 999999 < r.2 + numDigits r.1 - 1 then .error .other
  else .ok (if c < 0 then -(truncDec r.1 r.2 : Int) else truncDec r.1 r.2)

/-- `int(r * COIN)`.  A `str` is repeated `COIN` times; this is no number, or one with too many digits for `int`. -/
def toSat : Json → Py Int
  | .int n => .ok (n * COIN)
  | .bool b => .ok (if b then COIN else 0)
  | .dec c e => decToSat c e
  | .str _ => .error .valueError
  | .flt _ => .error .other
  | .null | .arr _ | .obj _ => .error .typeError

/-- Is the character a decimal digit? -/
def isDig (c : Char) : Bool := decide (48 ≤ c.toNat ∧ c.toNat ≤ 57)

/-- The value of decimal digits. -/
def digVal (s : Str) : Nat := s.foldl (fun v c => 10 * v + (c.toNat - 48)) 0

/-- The optional `[eE][-+]?\d+` at the end of a number; `none` in the first component if there is no exponent. -/
def jsonExp : Str → Option (Option Int)
  | [] => some none
  | c :: s =>
    if c = 'e' ∨ c = 'E' then
      let (neg, s) := match s with
        | '-' :: s => (true, s)
        | '+' :: s => (false, s)
        | s => (false, s)
      if s ≠ [] ∧ s.all isDig then some (some (if neg then -(digVal s : Int) else digVal s)) else none
    else none

/-- The optional `\.\d+` of a number, and what comes after it. -/
def jsonFrac : Str → Option (Option Str × Str)
  | '.' :: s =>
    let f := s.takeWhile isDig
    if f = [] then none else some (some f, s.dropWhile isDig)
  | s => some (none, s)

/-- The optional minus sign of a number. -/
def jsonSign : Str → Bool × Str
  | '-' :: s => (true, s)
  | s => (false, s)

/-- A number as `json.loads(..., parse_float=decimal.Decimal)` reads it, RPC:184-185: an `int` without fraction and exponent, a `Decimal`
otherwise.  `none` if the text is not a JSON number. -/
def jsonNumber (s : Str) : Option Json :=
  let neg := (jsonSign s).1
  let s := (jsonSign s).2
  let i := s.takeWhile isDig
  if i = [] ∨ (i.head? = some '0' ∧ i.length ≠ 1) then none
  else do
    let (f, s) ← jsonFrac (s.dropWhile isDig)
    let e ← jsonExp s
    let sign (n : Nat) : Int := if neg then -(n : Int) else n
    match f, e with
    | none, none => return .int (sign (digVal i))
    | f, e => return .dec (sign (digVal (i ++ f.getD []))) (e.getD 0 - (f.getD []).length)

/-- Rounding to an integer, half to even. -/
def roundEven (q : ℚ) : Int :=
  let f := ⌊q⌋
  if q - f < 1 / 2 then f else if 1 / 2 < q - f then f + 1 else if f % 2 = 0 then f else f + 1

/-- The `float` (binary64) nearest to `q`: 53 binary digits, and no unit below 2^-1074.  `q` is less than 2^1023. -/
def toFloat (q : ℚ) : ℚ :=
  if q = 0 then 0 else
    let u := (2 : ℚ) ^ (max (Int.log 2 |q|) (-1022) - 52)
    roundEven (q / u) * u

/-! ## The low-level proxy -/

/-- An exception: `JSONRPCException` with the error as attribute, or another one. -/
inductive RErr where
  | py (e : PyErr)
  | rpc (err : Json)

/-- A request, RPC:134-137; the member `version` is always `1.1`. -/
structure Req where
  method : Str
  params : List Json
  id : Nat

/-- A node: how it answers requests.  `none` is a missing HTTP response. -/
structure Server (σ : Type) where
  handle : σ → Req → Option Json × σ

/-- `__id_count` of the proxy, and the state of the node. -/
structure PSt (σ : Type) where
  count : Nat
  node : σ

/-- A method of the proxy. -/
def RM (σ α : Type) := PSt σ → Except RErr α × PSt σ

namespace RM
variable {σ α β : Type}
def pure (a : α) : RM σ α := fun s => (.ok a, s)
def bind (x : RM σ α) (f : α → RM σ β) : RM σ β := fun s =>
  match x s with
  | (.ok a, s') => f a s'
  | (.error e, s') => (.error e, s')
instance : Monad (RM σ) where
  pure := RM.pure
  bind := RM.bind
def fail (e : RErr) : RM σ α := fun s => (.error e, s)
/-- Python code that does not use the proxy. -/
def lift (x : Py α) : RM σ α := fun s => (match x with | .ok a => .ok a | .error e => .error (.py e), s)
end RM

/-- `j[k]` with a string `k`. -/
def Json.get (j : Json) (k : Str) : Py Json :=
  match j with
  | .obj l => match l.lookup k with
    | some v => .ok v
    | none => .error .keyError
  | _ => .error .typeError

/-- Texts, for short. -/
abbrev T (s : String) : Str := s.toList

/-- `raise JSONRPCException(err)`, RPC:50-54: the constructor looks up the message and the code. -/
def raiseRpc {α} (err : Json) : Except RErr α :=
  match err.get (T "message") with
  | .error e => .error (.py e)
  | .ok _ => match err.get (T "code") with
    | .error e => .error (.py e)
    | .ok _ => .error (.rpc err)

/-- What `_call` makes of the response, RPC:144-151 and RPC:178-185. -/
def useResponse : Option Json → Except RErr Json
  | none => raiseRpc (.obj [(T "code", .int (-342)), (T "message", .str (T "missing HTTP response from server"))])
  | some r =>
    match r.get (T "error") with
    | .error e => .error (.py e)
    | .ok .null => match r.get (T "result") with
      | .ok v => .ok v
      | .error _ => raiseRpc (.obj [(T "code", .int (-343)), (T "message", .str (T "missing JSON-RPC result"))])
    | .ok err => raiseRpc err

section
variable {σ : Type} (S : Server σ)

/-- `RawProxy._call`, RPC:131-151. -/
def call (method : Str) (params : List Json) : RM σ Json := fun s =>
  let a := S.handle s.node ⟨method, params, s.count + 1⟩
  (useResponse a.1, ⟨s.count + 1, a.2⟩)

/-- `raise IndexError('...%s (%d)' % (..., ex.error['message'], ex.error['code']))`: which exception is raised. -/
def indexErr (err : Json) : PyErr :=
  match err.get (T "code") with
  | .ok (.int _) | .ok (.bool _) | .ok (.dec _ _) | .ok (.flt _) => .indexError
  | .ok _ => .typeError
  | .error e => e

/-- `except JSONRPCException as ex: raise IndexError(...)`. -/
def indexed {α} (x : RM σ α) : RM σ α := fun s =>
  match x s with
  | (.error (.rpc err), s') => (.error (.py (indexErr err)), s')
  | r => r

/-! ## Conversions -/

/-- `hexlify(b)`, RPC:43-47. -/
def hexlify (b : Bytes) : Json := .str (b2x b)

/-- `unhexlify(j)`, RPC:43-47. -/
def unhexlify : Json → Py Bytes
  | .str s => unhex s
  | _ => .error .attributeError

/-- `lx(j)`, BC:74-75. -/
def jlx : Json → Py Bytes
  | .str s => lx s
  | _ => .error .attributeError

/-- `CBitcoinAddress(j)`; without text it decodes to no bytes (lib/python-bitcoinlib/bitcoin/base58.py:58-59), which have no checksum. -/
def toAddress (H : HashFns) (p : Prefixes) : Json → Py B58Data
  | .str s => newB58 H p .address s
  | .null | .bool false | .int 0 => .error .base58
  | _ => .error .typeError

/-- `COutPoint(hash, j)`, BC:125-131; `True` is 1.  A `Decimal` is not modelled. -/
def toOutPoint (hash : Bytes) : Json → Py COutPoint
  | .int n => COutPoint.new hash n
  | .bool b => COutPoint.new hash (if b then 1 else 0)
  | .dec _ _ | .flt _ => .error .other
  | _ => if hash.length = 32 then .error .typeError else .error .valueError

/-- The values in dictionaries that `Proxy` returns. -/
inductive PyV where
  | json (j : Json)
  | bytes (b : Bytes)
  | tx (t : CTransaction)
  | txout (o : CTxOut)
  | outpoint (o : COutPoint)
  | addr (a : B58Data)
  | script (s : Bytes)

/-- A `dict`. -/
abbrev Dict := List (Str × PyV)

/-- The `dict` that a JSON object is. -/
def Dict.ofObj (l : List (Str × Json)) : Dict := l.map fun kv => (kv.1, .json kv.2)

/-- `r[k] = v`. -/
def Dict.set (d : Dict) (k : Str) (v : PyV) : Dict :=
  if (d.lookup k).isSome then d.map fun kv => if kv.1 = k then (k, v) else kv else d ++ [(k, v)]

/-- `del r[k]`. -/
def Dict.del (d : Dict) (k : Str) : Py Dict :=
  if (d.lookup k).isSome then .ok (d.filter fun kv => kv.1 ≠ k) else .error .keyError

/-- The members, if the value is a `dict`.  Anything else does not understand `r['...']`: `TypeError`. -/
def members : Json → Py (List (Str × Json))
  | .obj l => .ok l
  | _ => .error .typeError

/-- `l[k]`. -/
def fld (l : List (Str × Json)) (k : Str) : Py Json :=
  match l.lookup k with
  | some v => .ok v
  | none => .error .keyError

/-! ## Methods of Proxy -/

variable (H : HashFns) (p : Prefixes)

/-- An optional text argument: `None` is `null`. -/
def optStr : Option Str → Json
  | some s => .str s
  | none => .null

/-- `getaccountaddress`, RPC:214-217. -/
def getaccountaddress (account : Option Str) : RM σ B58Data := do
  let r ← call S (T "getaccountaddress") [optStr account]
  RM.lift (toAddress H p r)

/-- `getbalance`, RPC:219-226. -/
def getbalance (account : Str) (minconf : Int) : RM σ Int := do
  let r ← call S (T "getbalance") [.str account, .int minconf]
  RM.lift (toSat r)

/-- `getblock`, RPC:228-243. -/
def getblock (hash : Bytes) : RM σ CBlock := do
  let r ← indexed (call S (T "getblock") [.str (b2lx hash), .bool false])
  RM.lift (do
    let b ← unhexlify r
    deserializeAll (CBlock.deser H) b)

/-- `getblockhash`, RPC:245-254. -/
def getblockhash (height : Int) : RM σ Bytes := indexed (do
  let r ← call S (T "getblockhash") [.int height]
  RM.lift (jlx r))

/-- `getinfo`, RPC:256-262, from the second line on. -/
def infoDict (l : List (Str × Json)) : Py Dict := do
  let d := Dict.ofObj l
  let d ← (match l.lookup (T "balance") with
    | some b => do
      let b ← toSat b
      return d.set (T "balance") (.json (.int b))
    | none => return d)
  let f ← fld l (T "paytxfee")
  let f ← toSat f
  return d.set (T "paytxfee") (.json (.int f))

/-- `getinfo`, RPC:256-262.  A response that is no `dict` is a `TypeError`. -/
def getinfo : RM σ Dict := do
  let r ← call S (T "getinfo") []
  RM.lift (do
    let l ← members r
    infoDict l)

/-- `getnewaddress`, RPC:264-276. -/
def getnewaddress (account : Option Str) : RM σ B58Data := do
  let r ← call S (T "getnewaddress") (match account with | some a => [.str a] | none => [])
  RM.lift (toAddress H p r)

/-- `getrawchangeaddress`, RPC:278-284. -/
def getrawchangeaddress : RM σ B58Data := do
  let r ← call S (T "getrawchangeaddress") []
  RM.lift (toAddress H p r)

/-- The elements of what a `for` loop runs over: those of a list, the characters of a text, the keys of a dictionary. -/
def elements : Json → Py (List Json)
  | .arr l => .ok l
  | .str s => .ok (s.map fun c => .str [c])
  | .obj l => .ok (l.map fun kv => .str kv.1)
  | _ => .error .typeError

/-- `getrawmempool()`, RPC:286-294, without `verbose`. -/
def getrawmempool : RM σ (List Bytes) := do
  let r ← call S (T "getrawmempool") []
  RM.lift (do
    let l ← elements r
    l.mapM jlx)

/-- `getrawtransaction(txid)`, RPC:296-324, without `verbose`. -/
def getrawtransaction (txid : Bytes) : RM σ CTransaction := do
  let r ← indexed (call S (T "getrawtransaction") [.str (b2lx txid), .int 0])
  RM.lift (do
    let b ← unhexlify r
    deserializeAll CTransaction.deser b)

/-- RPC:314-321. -/
def rawTxDict (l : List (Str × Json)) : Py Dict := do
  let hex ← fld l (T "hex")
  let b ← unhexlify hex
  let t ← deserializeAll CTransaction.deser b
  let d := (Dict.ofObj l).set (T "tx") (.tx t)
  let d ← d.del (T "hex")
  let d ← d.del (T "txid")
  let d ← d.del (T "version")
  let d ← d.del (T "locktime")
  let d ← d.del (T "vin")
  let d ← d.del (T "vout")
  match l.lookup (T "blockhash") with
  | some h => do
    let h ← jlx h
    return d.set (T "blockhash") (.bytes h)
  | none => return d.set (T "blockhash") (.json .null)

/-- The bytes that `getrawtransaction` deserializes, RPC:303-304 and RPC:322-324; sus-tool.py:158-159 calls it. -/
def rawBytes (st : PSt σ) (txid : Bytes) : Py Bytes :=
  match (indexed (call S (T "getrawtransaction") [.str (b2lx txid), .int 0]) st).1 with
  | .ok r => unhexlify r
  | .error (.py e) => .error e
  | .error (.rpc _) => .error .other

/-- `getrawtransaction(txid, verbose=True)`, RPC:296-324. -/
def getrawtransactionVerbose (txid : Bytes) : RM σ Dict := do
  let r ← indexed (call S (T "getrawtransaction") [.str (b2lx txid), .int 1])
  RM.lift (do
    let l ← members r
    rawTxDict l)

/-- `getreceivedbyaddress`, RPC:326-339. -/
def getreceivedbyaddress (addr : B58Data) (minconf : Int) : RM σ Int := do
  let a ← RM.lift (strB58 H addr)
  let r ← call S (T "getreceivedbyaddress") [.str a, .int minconf]
  RM.lift (toSat r)

/-- `gettransaction`, RPC:341-353. -/
def gettransaction (txid : Bytes) : RM σ Json := indexed (call S (T "gettransaction") [.str (b2lx txid)])

/-- RPC:367-372. -/
def txoutDict (l : List (Str × Json)) : Py Dict := do
  let v ← fld l (T "value")
  let v ← toSat v
  let s ← fld l (T "scriptPubKey")
  let h ← s.get (T "hex")
  let s ← unhexlify h
  let d := (Dict.ofObj l).set (T "txout") (.txout ⟨v, s⟩)
  let d ← d.del (T "value")
  let d ← d.del (T "scriptPubKey")
  let b ← fld l (T "bestblock")
  let b ← jlx b
  return d.set (T "bestblock") (.bytes b)

/-- `gettxout`, RPC:355-372. -/
def gettxout (o : COutPoint) (includemempool : Bool) : RM σ Dict := do
  let r ← call S (T "gettxout") [.str (b2lx o.hash), .int o.n, .bool includemempool]
  match r with
  | .null => RM.fail (.py .indexError)
  | r => RM.lift (do
    let l ← members r
    txoutDict l)

/-- The body of the loop RPC:389-397. -/
def unspentDict (r : Json) : Py Dict := do
  let l ← members r
  let t ← fld l (T "txid")
  let t ← jlx t
  let n ← fld l (T "vout")
  let o ← toOutPoint t n
  let d := (Dict.ofObj l).set (T "outpoint") (.outpoint o)
  let d ← d.del (T "txid")
  let d ← d.del (T "vout")
  let a ← fld l (T "address")
  let a ← toAddress H p a
  let d := d.set (T "address") (.addr a)
  let s ← fld l (T "scriptPubKey")
  let s ← unhexlify s
  let d := d.set (T "scriptPubKey") (.script s)
  let v ← fld l (T "amount")
  let v ← toSat v
  return d.set (T "amount") (.json (.int v))

/-- `listunspent`, RPC:374-398. -/
def listunspent (minconf maxconf : Int) (addrs : Option (List B58Data)) : RM σ (List Dict) := do
  let args ← RM.lift (match addrs with
    | none => .ok []
    | some l => do
      let l ← l.mapM (strB58 H)
      return [.arr (l.map .str)])
  let r ← call S (T "listunspent") (.int minconf :: .int maxconf :: args)
  RM.lift (do
    let l ← elements r
    l.mapM (unspentDict H p))

/-- An outpoint in the form `lockunspent` sends it, RPC:402. -/
def jsonOutPoint (o : COutPoint) : Json := .obj [(T "txid", .str (b2lx o.hash)), (T "vout", .int o.n)]

/-- `lockunspent`, RPC:400-403. -/
def lockunspent (unlock : Bool) (outpoints : List COutPoint) : RM σ Json :=
  call S (T "lockunspent") [.bool unlock, .arr (outpoints.map jsonOutPoint)]

/-- `sendrawtransaction`, RPC:405-416. -/
def sendrawtransaction (tx : CTransaction) (allowhighfees : Bool) : RM σ Bytes := do
  let b ← RM.lift tx.ser
  let r ← call S (T "sendrawtransaction") (hexlify b :: if allowhighfees then [.bool true] else [])
  RM.lift (jlx r)

/-- `float(amount)/COIN`, RPC:421, for an `int`.  Amounts of 2^1023 and more are not modelled. -/
def floatAmount (amount : Int) : ℚ := toFloat (toFloat amount / COIN)

/-- `sendtoaddress`, RPC:418-423. -/
def sendtoaddress (addr : B58Data) (amount : Int) : RM σ Bytes := do
  let a ← RM.lift (strB58 H addr)
  let r ← call S (T "sendtoaddress") [.str a, .flt (floatAmount amount)]
  RM.lift (jlx r)

/-- RPC:432-434. -/
def signedDict (r : Json) : Py Dict := do
  let l ← members r
  let hex ← fld l (T "hex")
  let b ← unhexlify hex
  let t ← deserializeAll CTransaction.deser b
  ((Dict.ofObj l).set (T "tx") (.tx t)).del (T "hex")

/-- `signrawtransaction`, RPC:425-434. -/
def signrawtransaction (tx : CTransaction) (args : List Json) : RM σ Dict := do
  let b ← RM.lift tx.ser
  let r ← call S (T "signrawtransaction") (hexlify b :: args)
  RM.lift (signedDict r)

/-- `submitblock`, RPC:436-446. -/
def submitblock (block : CBlock) (params : Option Json) : RM σ Json := do
  let b ← RM.lift block.ser
  call S (T "submitblock") (hexlify b :: match params with | some j => [j] | none => [])

/-- `if j:`. -/
def truthy : Json → Bool
  | .null => false
  | .bool b => b
  | .int n => n ≠ 0
  | .dec c _ => c ≠ 0
  | .flt q => q ≠ 0
  | .str s => s ≠ []
  | .arr l => !l.isEmpty
  | .obj l => !l.isEmpty

/-- RPC:451-455. -/
def validDict (r : Json) : Py Dict := do
  let l ← members r
  let v ← fld l (T "isvalid")
  let d := Dict.ofObj l
  let d ← (if truthy v then do
      let a ← fld l (T "address")
      let a ← toAddress H p a
      return d.set (T "address") (.addr a)
    else return d)
  match l.lookup (T "pubkey") with
  | some k => do
    let k ← unhexlify k
    return d.set (T "pubkey") (.bytes k)
  | none => return d

/-- `validateaddress`, RPC:448-455. -/
def validateaddress (addr : B58Data) : RM σ Dict := do
  let a ← RM.lift (strB58 H addr)
  let r ← call S (T "validateaddress") [.str a]
  RM.lift (validDict H p r)

/-- `_addnode`, RPC:457-459. -/
def addnodeWith (node arg : Str) : RM σ Json := call S (T "addnode") [.str node, .str arg]
/-- `addnode`, RPC:461-462. -/
def addnode (node : Str) : RM σ Json := addnodeWith S node (T "add")
/-- `addnodeonetry`, RPC:464-465. -/
def addnodeonetry (node : Str) : RM σ Json := addnodeWith S node (T "onetry")
/-- `removenode`, RPC:467-468. -/
def removenode (node : Str) : RM σ Json := addnodeWith S node (T "remove")

end
end Verif.Rpc
