import Verif.Model.Rpc
import Verif.Spec.SusText
/-!
# Numbers, amounts and nodes

What the text of a JSON number means, what a node answers.
-/
namespace Verif.Rpc
open Verif Btc Sus

/-- The characters are these decimal digits. -/
def Digs (s : Str) (ds : List Nat) : Prop := List.Forall₂ IsDec s ds

/-- Digits without a zero too much at the beginning. -/
def IntPart (s : Str) (ds : List Nat) : Prop := Digs s ds ∧ ds ≠ [] ∧ (ds.head? = some 0 → ds.length = 1)

/-- Nothing, or a point and digits. -/
inductive FracPart : Str → List Nat → Prop where
  | none : FracPart [] []
  | some {s ds} : Digs s ds → ds ≠ [] → FracPart ('.' :: s) ds

/-- Nothing, or an exponent. -/
inductive ExpPart : Str → Int → Prop where
  | none : ExpPart [] 0
  | plain {c s ds} : c = 'e' ∨ c = 'E' → Digs s ds → ds ≠ [] → ExpPart (c :: s) (decValue ds)
  | plus {c s ds} : c = 'e' ∨ c = 'E' → Digs s ds → ds ≠ [] → ExpPart (c :: '+' :: s) (decValue ds)
  | minus {c s ds} : c = 'e' ∨ c = 'E' → Digs s ds → ds ≠ [] → ExpPart (c :: '-' :: s) (-(decValue ds : Int))

/-- The text of a JSON number (RFC 8259, section 6): its digits form the number `c` and it stands for c·10^e, or -c·10^e. -/
inductive NumText : Str → Bool → Nat → Int → Prop where
  | pos {i f x ds fs e} : IntPart i ds → FracPart f fs → ExpPart x e → NumText (i ++ (f ++ x)) false (decValue (ds ++ fs)) (e - fs.length)
  | neg {i f x ds fs e} : IntPart i ds → FracPart f fs → ExpPart x e → NumText ('-' :: (i ++ (f ++ x))) true (decValue (ds ++ fs)) (e - fs.length)

/-- The number it stands for. -/
def numValue (neg : Bool) (c : Nat) (e : Int) : ℚ := (if neg then -1 else 1) * c * (10 : ℚ) ^ e

/-- `n` is `x` without its fraction. -/
def IsTrunc (x : ℚ) (n : Int) : Prop := |(n : ℚ)| ≤ |x| ∧ |x| - |(n : ℚ)| < 1 ∧ 0 ≤ x * n

/-- The numbers with 53 binary digits and units of at least 2^-1074: `float`s, without the limit on large ones. -/
def IsFloat (f : ℚ) : Prop := ∃ (m k : Int), |m| ≤ 2 ^ 53 ∧ -1074 ≤ k ∧ f = m * (2 : ℚ) ^ k

/-- `f` is a `float` nearest to `x`. -/
def Nearest (x f : ℚ) : Prop := IsFloat f ∧ ∀ g, IsFloat g → |x - f| ≤ |x - g|

/-- `c·10^e` is what `repr` and `json.dumps` write for the `float` `f` that is not negative: reading it as a `float` gives `f`, no number with fewer digits does, and
none with as many digits that does is closer to `f`. -/
structure Shortest (f : ℚ) (c : Nat) (e : Int) : Prop where
  reads : Nearest (c * (10 : ℚ) ^ e) f
  short : ∀ (c' : Nat) (e' : Int), Nearest (c' * (10 : ℚ) ^ e') f → ∀ k, c' < 10 ^ (k + 1) → c < 10 ^ (k + 1)
  close : ∀ (c' : Nat) (e' : Int), Nearest (c' * (10 : ℚ) ^ e') f → (∀ k, c' < 10 ^ (k + 1) ↔ c < 10 ^ (k + 1)) →
    |c * (10 : ℚ) ^ e - f| ≤ |c' * (10 : ℚ) ^ e' - f|

/-- In the state `s` the node answers the next request of the proxy, if it is this one, with the value `r`, and is in the state `t` then. -/
def Answers {σ : Type} (S : Server σ) (s : PSt σ) (method : String) (params : List Json) (r : Json) (t : σ) : Prop :=
  ∃ l, S.handle s.node ⟨method.toList, params, s.count + 1⟩ = (some (.obj l), t) ∧ l.lookup "error".toList = some .null ∧ l.lookup "result".toList = some r

/-- Bytes in lower case hexadecimal digits. -/
def hexText (b : Bytes) : Str := b.flatMap fun x => ["0123456789abcdef".toList.getD (x.toNat / 16) '?', "0123456789abcdef".toList.getD (x.toNat % 16) '?']

/-- A hash as it is shown: backwards. -/
def shownHash (b : Bytes) : Str := hexText b.reverse

/-- It answers with an error, which has a message and a number. -/
def Refuses {σ : Type} (S : Server σ) (s : PSt σ) (method : String) (params : List Json) (err : Json) (t : σ) : Prop :=
  ∃ l m n, S.handle s.node ⟨method.toList, params, s.count + 1⟩ = (some (.obj l), t) ∧ l.lookup "error".toList = some err ∧
    err = .obj m ∧ (m.lookup "message".toList).isSome ∧ m.lookup "code".toList = some (.int n)

/-- The states a node may be in later: after requests, from this proxy or others. -/
inductive Later {σ : Type} (S : Server σ) : σ → σ → Prop where
  | now {s} : Later S s s
  | step {s s'} (r : Req) : Later S s s' → Later S s (S.handle s' r).2

/-- A node that knows what it accepted: a transaction that it took is known by the id that it returned, which is the hash of the transaction.  Blocks it has
are found by their hashes. -/
structure Node (H : HashFns) {σ : Type} (S : Server σ) : Prop where
  tx : ∀ (s : PSt σ) (raw : Bytes) (more : List Json) (r : Json) (t : σ), Answers S s "sendrawtransaction" (.str (hexText raw) :: more) r t →
    r = .str (shownHash (H.hash256 raw)) ∧
    ∀ s' : PSt σ, Later S t s'.node → ∃ t', Answers S s' "getrawtransaction" [.str (shownHash (H.hash256 raw)), .int 0] (.str (hexText raw)) t'
  block : ∀ (s : PSt σ) (raw : Bytes) (more : List Json) (t : σ), Answers S s "submitblock" (.str (hexText raw) :: more) .null t →
    ∀ s' : PSt σ, Later S t s'.node → ∃ t', Answers S s' "getblock" [.str (shownHash (H.hash256 (raw.take 80))), .bool false] (.str (hexText raw)) t'

/-- The values of a dictionary. -/
def Holds (d : Dict) (k : String) (v : PyV) : Prop := d.lookup k.toList = some v

/-- A dictionary has no such key. -/
def Lacks (d : Dict) (k : String) : Prop := d.lookup k.toList = none

/-- A JSON number of as many units of 1/COIN; it has at most 20 digits. -/
def IsAmount (j : Json) (v : Int) : Prop :=
  ∃ s neg c e, NumText s neg c e ∧ c < 10 ^ 20 ∧ e ≤ 900000 ∧ jsonNumber s = some j ∧ numValue neg c e * 10 ^ 8 = v

/-- An unspent output as a node lists it. -/
structure Listed (H : HashFns) (p : Prefixes) (l : List (Str × Json)) (o : COutPoint) (a : B58Data) (script : Bytes) (v : Int) : Prop where
  txid : ∃ s, l.lookup "txid".toList = some (.str s) ∧ HexText s o.hash.reverse
  vout : l.lookup "vout".toList = some (.int o.n)
  valid : o.Valid
  address : ∃ s, l.lookup "address".toList = some (.str s) ∧ newB58 H p .address s = .ok a
  script : ∃ s, l.lookup "scriptPubKey".toList = some (.str s) ∧ HexText s script
  amount : ∃ j, l.lookup "amount".toList = some j ∧ IsAmount j v

end Verif.Rpc
