import Verif.Model.Base58Repr
import Verif.Spec.Repr
import Verif.Spec.Base58
/-! # Reading the text of an address or key as an expression -/
namespace Verif.Btc
open Verif
open Verif.Sus (Str)

/-- The class of this name, in a program that has imported them. -/
def classNamed (f : Str) : Option B58Cls :=
  [("CBase58Data".toList, .data), ("CBitcoinAddress".toList, .address), ("P2SHBitcoinAddress".toList, .p2sh), ("P2PKHBitcoinAddress".toList, .p2pkh),
    ("CBitcoinSecret".toList, .secret)].lookup f

/-- The class called with a text. -/
def construct (H : HashFns) (p : Prefixes) : B58Cls → Str → Py B58Data
  | .secret, s => (newSecret H p s).map Prod.fst
  | c, s => newB58 H p c s

/-- `eval(text)` if the text is an expression with one of the classes called with a text; the chain with the prefixes `p` is selected. -/
def evalB58 (H : HashFns) (p : Prefixes) (text : Str) : Option (Py B58Data) :=
  match Rp.parse text with
  | some (.call f [.str s]) => (classNamed f).map fun c => construct H p c s
  | _ => none

/-- `x` came from one of the constructors while the chain with the prefixes `p` was selected. -/
inductive Made (H : HashFns) (p : Prefixes) (x : B58Data) : Prop
  /-- `cls.from_bytes(data, n)`, for secrets see `secret`. -/
  | bytes (cls : B58Cls) (data : Bytes) (n : Int) (hc : cls ≠ .secret) (h : fromBytes p cls data n = .ok x)
  /-- `cls(s)` -/
  | text (cls : B58Cls) (s : Str) (h : construct H p cls s = .ok x)
  /-- `CBitcoinSecret.from_secret_bytes(secret, compressed)` -/
  | secret (secret : Bytes) (compressed : Bool) (k : CKeyArgs) (h : fromSecretBytes p secret compressed = .ok (x, k))

end Verif.Btc
