import Verif.Model.SusTool
/-!
# Model of lib/python-bitcoinlib/bitcoin/base58.py and wallet.py

`B58` abbreviates `lib/python-bitcoinlib/bitcoin/base58.py`, `WA` abbreviates `lib/python-bitcoinlib/bitcoin/wallet.py`.

Simplifications: Python 3; the prefixes of the selected chain are an argument; what libssl does is a parameter (`validPubkey`), and a `CKey`
is what is passed to it; a `str` is a list of characters.  `Base58Error` stands for its subclasses.
-/
namespace Verif.Btc
open Verif
open Verif.Sus (Str hexChar hexVal b2x unhex)

/-- `B58_DIGITS`, B58:29. -/
def B58_DIGITS : Str := ['1', '2', '3', '4', '5', '6', '7', '8', '9',
  'A', 'B', 'C', 'D', 'E', 'F', 'G', 'H', 'J', 'K', 'L', 'M', 'N', 'P', 'Q', 'R', 'S', 'T', 'U', 'V', 'W', 'X', 'Y', 'Z',
  'a', 'b', 'c', 'd', 'e', 'f', 'g', 'h', 'i', 'j', 'k', 'm', 'n', 'o', 'p', 'q', 'r', 's', 't', 'u', 'v', 'w', 'x', 'y', 'z']

/-- `int('0x0' + s, 16)`, for a string of hexadecimal digits. -/
def intHex (s : Str) : Nat := s.foldl (fun n c => 16 * n + (hexVal c).getD 0) 0

/-- The loop B58:49-51.  The first argument bounds the number of rounds; each divides `n` by 58. -/
def divLoop : Nat → Nat → Str
  | 0, _ => []
  | f + 1, n => if n > 0 then B58_DIGITS.getD (n % 58) '?' :: divLoop f (n / 58) else []

/-- The loops B58:59-64 and B58:88-91: how many members at the start are `z`. -/
def leading {α : Type} [BEq α] (z : α) (l : List α) : Nat := (l.takeWhile (· == z)).length

/-- `encode`, B58:41-65.  A number of `k` bytes has at most `2 * k` digits. -/
def b58encode (b : Bytes) : Str :=
  let res := (divLoop (2 * b.length) (intHex (b2x b))).reverse
  List.replicate (leading 0#8 b) '1' ++ res

/-- The loop B58:73-79. -/
def digitLoop (n : Nat) : Str → Py Nat
  | [] => .ok n
  | c :: s =>
    match B58_DIGITS.idxOf? c with
    | none => .error .base58
    | some d => digitLoop (n * 58 + d) s

/-- The digits of `'%x' % n` for a positive `n`, last first.  The first argument bounds their number. -/
def hexDigits : Nat → Nat → Str
  | 0, _ => []
  | f + 1, n => if n > 0 then hexChar (n % 16) :: hexDigits f (n / 16) else []

/-- `'%x' % n`, for `n` with at most `f` digits. -/
def pctX (f n : Nat) : Str := if n = 0 then ['0'] else (hexDigits f n).reverse

/-- `decode`, B58:67-92.  A number of `k` base 58 digits has at most `2 * k` hexadecimal digits. -/
def b58decode (s : Str) : Py Bytes :=
  if s = [] then .ok []
  else do
    let n ← digitLoop 0 s
    let h := pctX (2 * s.length) n
    let h := if h.length % 2 ≠ 0 then '0' :: h else h
    let res ← unhex h
    return List.replicate (leading '1' s.dropLast) 0#8 ++ res

/-- The classes `CBase58Data`, `CBitcoinAddress`, `P2SHBitcoinAddress`, `P2PKHBitcoinAddress`, `CBitcoinSecret`. -/
inductive B58Cls where
  | data | address | p2sh | p2pkh | secret
deriving DecidableEq, Repr

/-- An instance of one of these. -/
structure B58Data where
  cls : B58Cls
  bytes : Bytes
  nVersion : Int
deriving DecidableEq, Repr

/-- `BASE58_PREFIXES` of the selected chain, bitcoin/__init__.py:27-29, 37-39, 46-48. -/
structure Prefixes where
  pubkey : Int
  script : Int
  secret : Int
deriving DecidableEq, Repr

def mainPrefixes : Prefixes := ⟨0, 5, 128⟩
def testPrefixes : Prefixes := ⟨111, 196, 239⟩

/-- `CBase58Data.from_bytes`, B58:121-129. -/
def baseFromBytes (cls : B58Cls) (data : Bytes) (nVersion : Int) : Py B58Data :=
  if ¬ (0 ≤ nVersion ∧ nVersion ≤ 255) then .error .valueError
  else .ok ⟨cls, data, nVersion⟩

/-- `CBitcoinAddress.from_bytes`, WA:37-50. -/
def addrFromBytes (p : Prefixes) (cls : B58Cls) (data : Bytes) (nVersion : Int) : Py B58Data := do
  let self ← baseFromBytes cls data nVersion
  if nVersion = p.script then return { self with cls := .p2sh }
  else if nVersion = p.pubkey then return { self with cls := .p2pkh }
  else .error .base58

/-- `cls.from_bytes(data, nVersion)`; for `P2SHBitcoinAddress` WA:77-86, for `P2PKHBitcoinAddress` WA:115-124. -/
def fromBytes (p : Prefixes) (cls : B58Cls) (data : Bytes) (nVersion : Int) : Py B58Data :=
  match cls with
  | .data | .secret => baseFromBytes cls data nVersion
  | .address => addrFromBytes p .address data nVersion
  | .p2sh => if nVersion ≠ p.script then .error .valueError else addrFromBytes p .p2sh data nVersion
  | .p2pkh => if nVersion ≠ p.pubkey then .error .valueError else addrFromBytes p .p2pkh data nVersion

/-- `cls(s)`, `CBase58Data.__new__`, B58:104-111. -/
def newB58 (H : HashFns) (p : Prefixes) (cls : B58Cls) (s : Str) : Py B58Data := do
  let k ← b58decode s
  let verbyte := k.take 1
  let data := (k.drop 1).take (k.length - 5)
  let check0 := k.drop (k.length - 4)
  let check1 := (H.hash256 (verbyte ++ data)).take 4
  if check0 ≠ check1 then .error .base58
  else match verbyte with
    | [] => .error .indexError
    | v :: _ => fromBytes p cls data v.toNat

/-- `str(x)`, `CBase58Data.__str__`, B58:139-143. -/
def strB58 (H : HashFns) (x : B58Data) : Py Str :=
  if 0 ≤ x.nVersion ∧ x.nVersion ≤ 255 then
    let vs := BitVec.ofNat 8 x.nVersion.toNat :: x.bytes
    .ok (b58encode (vs ++ (H.hash256 vs).take 4))
  else .error .valueError

/-- `x == y`: `CBase58Data`, B58:99, inherits the comparison of `bytes`. -/
def eqB58 (x y : B58Data) : Bool := x.bytes == y.bytes

/-- `to_scriptPubKey`, WA:72-74, 109-112, 196-199. -/
def toScriptPubKey (p : Prefixes) (x : B58Data) : Py Bytes :=
  match x.cls with
  | .p2sh => do
    pyAssert (decide (x.nVersion = p.script))
    mkScript [.op 0xa9#8, .data x.bytes, .op 0x87#8]
  | .p2pkh => do
    pyAssert (decide (x.nVersion = p.pubkey))
    mkScript [.op 0x76#8, .op 0xa9#8, .data x.bytes, .op 0x88#8, .op 0xac#8]
  | .address => .error .notImplemented
  | _ => .error .attributeError

/-- `P2SHBitcoinAddress.from_scriptPubKey`, WA:96-107. -/
def p2shFromScript (p : Prefixes) (s : Bytes) : Py B58Data :=
  if isP2sh s then fromBytes p .p2sh ((s.drop 2).take 20) p.script
  else .error .base58

/-- `P2SHBitcoinAddress.from_redeemScript`, WA:88-94. -/
def p2shFromRedeem (H : HashFns) (p : Prefixes) (s : Bytes) : Py B58Data := do
  let o ← toP2sh H s true
  p2shFromScript p o

/-- `P2PKHBitcoinAddress.from_pubkey`, WA:126-145; `validPubkey` tells whether `set_pubkey` (bitcoin/core/key.py:69-71) accepts the key. -/
def p2pkhFromPubkey (H : HashFns) (p : Prefixes) (validPubkey : Bytes → Bool) (pubkey : Bytes) (acceptInvalid : Bool) : Py B58Data :=
  if acceptInvalid = false ∧ validPubkey pubkey = false then .error .base58
  else fromBytes p .p2pkh (H.hash160 pubkey) p.pubkey

/-- The canonicalization WA:157-164. -/
def canonScript (s : Bytes) : Py Bytes :=
  match scriptItems s with
  | .error .scriptInvalid => .error .base58
  | .error e => .error e
  | .ok is =>
    match mkScript is with
    | .error .scriptInvalid => .error .base58
    | r => r

/-- `P2PKHBitcoinAddress.from_scriptPubKey`, WA:147-194. -/
def p2pkhFromScript (H : HashFns) (p : Prefixes) (validPubkey : Bytes → Bool) (s : Bytes) (acceptNonCanonical acceptBare : Bool) : Py B58Data := do
  let s ← (if acceptNonCanonical then canonScript s else .ok s)
  if s.length = 25 ∧ s[0]? = some 0x76#8 ∧ s[1]? = some 0xa9#8 ∧ s[2]? = some 0x14#8 ∧ s[23]? = some 0x88#8 ∧ s[24]? = some 0xac#8 then
    fromBytes p .p2pkh ((s.drop 3).take 20) p.pubkey
  else if acceptBare then
    if s.length = 35 ∧ s[0]? = some 0x21#8 ∧ s[34]? = some 0xac#8 then p2pkhFromPubkey H p validPubkey ((s.drop 1).take 33) true
    else if s.length = 67 ∧ s[0]? = some 0x41#8 ∧ s[66]? = some 0xac#8 then p2pkhFromPubkey H p validPubkey ((s.drop 1).take 64) true
    else .error .base58
  else .error .base58

/-- `CBitcoinAddress.from_scriptPubKey`, WA:52-70. -/
def addrFromScript (H : HashFns) (p : Prefixes) (validPubkey : Bytes → Bool) (s : Bytes) : Py B58Data :=
  match p2shFromScript p s with
  | .error .base58 =>
    match p2pkhFromScript H p validPubkey s true true with
    | .error .base58 => .error .base58
    | r => r
  | r => r

/-- What `CKey.__init__`, WA:210-215, passes to libssl: the secret, of which 32 bytes are read (bitcoin/core/key.py:52), and whether the public
key is to be compressed. -/
structure CKeyArgs where
  secret : Bytes
  compressed : Bool
deriving DecidableEq, Repr

/-- `CBitcoinSecret.__init__`, WA:239-244. -/
def secretInit (p : Prefixes) (x : B58Data) : Py CKeyArgs :=
  if x.nVersion ≠ p.secret then .error .base58
  else .ok ⟨x.bytes.take 32, decide (x.bytes.length > 32) && x.bytes[32]? == some 0x01#8⟩

/-- `CBitcoinSecret(s)`. -/
def newSecret (H : HashFns) (p : Prefixes) (s : Str) : Py (B58Data × CKeyArgs) := do
  let x ← newB58 H p .secret s
  let k ← secretInit p x
  return (x, k)

/-- `CBitcoinSecret.from_secret_bytes`, WA:231-237. -/
def fromSecretBytes (p : Prefixes) (secret : Bytes) (compressed : Bool) : Py (B58Data × CKeyArgs) := do
  let x ← fromBytes p .secret (secret ++ (if compressed then [0x01#8] else [])) p.secret
  let k ← secretInit p x
  return (x, k)

end Verif.Btc
