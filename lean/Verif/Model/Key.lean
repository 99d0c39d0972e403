import Verif.Model.Base58
import Verif.Model.MsgRepr
import Verif.Model.Spend
/-!
# Model of the wrappers around libssl: bitcoin/core/key.py, and `CKey` of bitcoin/wallet.py

`BK` abbreviates `lib/python-bitcoinlib/bitcoin/core/key.py`, `WA` `lib/python-bitcoinlib/bitcoin/wallet.py`.  The functions of libssl are
an argument (`Ssl`), the wrappers around them are modelled.

Simplifications:
* Signing draws random numbers; the function `Ssl.sign` is what it does with those of one run.
* `set_secretbytes` reads 32 bytes whatever the length of the secret is; only secrets of at least 32 bytes are meant.
* `set_privkey`, `get_privkey` and the ECDH functions (BK:67-69, BK:75-79, BK:87-99) are not modelled; nothing in the repository uses them.
-/
namespace Verif.Btc
open Verif
open Verif.Sus (Str)

/-- The functions of libssl that are used, for the curve secp256k1. -/
structure Ssl where
  /-- Points of the curve. -/
  Pt : Type
  /-- `EC_POINT_mul` of the generator, BK:58; `none` if it fails. -/
  mul : Bytes → Option Pt
  /-- `i2o_ECPublicKey`, BK:82-84: a point in compressed form or not. -/
  enc : Bool → Pt → Bytes
  /-- `o2i_ECPublicKey`, BK:73: the point, and the form it had, which it sets in the key too; `none` if it fails. -/
  dec : Bytes → Option (Pt × Bool)
  /-- The point that a new key has after `o2i_ECPublicKey` failed. -/
  unset : Pt
  /-- `ECDSA_sign`, BK:111: secret and hash; `none` if the result is not 1. -/
  sign : Bytes → Bytes → Option Bytes
  /-- `ECDSA_verify(...) == 1`, BK:117: public key, hash, signature. -/
  verify : Pt → Bytes → Bytes → Bool

variable (S : Ssl)

/-- `CECKey`, BK:39-51: the `EC_KEY` it holds. -/
structure EcKey where
  priv : Option Bytes := none
  pub : Option S.Pt := none
  compressed : Bool := false

variable {S}

/-- `set_secretbytes`, BK:53-65. -/
def EcKey.setSecret (k : EcKey S) (secret : Bytes) : Py (EcKey S) :=
  match S.mul (secret.take 32) with
  | none => .error .valueError
  | some P => .ok { k with priv := some (secret.take 32), pub := some P }

/-- `set_compressed`, BK:119-124. -/
def EcKey.setCompressed (k : EcKey S) (compressed : Bool) : EcKey S := { k with compressed := compressed }

/-- `set_pubkey`, BK:71-73: the result as a truth value, and the key afterwards. -/
def EcKey.setPubkey (k : EcKey S) (b : Bytes) : Bool × EcKey S :=
  match S.dec b with
  | some (P, c) => (true, { k with pub := some P, compressed := c })
  | none => (false, { k with pub := some (k.pub.getD S.unset) })

/-- `get_pubkey`, BK:81-85. -/
def EcKey.getPubkey (k : EcKey S) : Bytes :=
  match k.pub with
  | some P => S.enc k.compressed P
  | none => []

/-- An argument: bytes, or something else. -/
inductive HashArg where
  | bytes (b : Bytes)
  | other

/-- `sign`, BK:101-113. -/
def EcKey.sign (k : EcKey S) : HashArg → Py Bytes
  | .other => .error .typeError
  | .bytes h =>
    if h.length ≠ 32 then .error .valueError
    else match k.priv.bind fun s => S.sign s h with
      | some sig => .ok sig
      | none => .error .assertion

/-- `verify`, BK:115-117. -/
def EcKey.verify (k : EcKey S) (h sig : Bytes) : Bool :=
  match k.pub with
  | some P => S.verify P h sig
  | none => false

variable (S)

/-- `CPubKey`, BK:127-144: the bytes, `_cec_key`, and `is_fullyvalid`. -/
structure CPubKey where
  bytes : Bytes
  key : EcKey S
  isFullyvalid : Bool

variable {S}

/-- `CPubKey(buf, _cec_key)`, BK:137-143. -/
def CPubKey.new (buf : Bytes) (key : EcKey S := {}) : CPubKey S := ⟨buf, (key.setPubkey buf).2, (key.setPubkey buf).1⟩

/-- `is_valid`, BK:145-147. -/
def CPubKey.isValid (p : CPubKey S) : Bool := decide (p.bytes.length > 0)

/-- `is_compressed`, BK:149-151. -/
def CPubKey.isCompressed (p : CPubKey S) : Bool := decide (p.bytes.length = 33)

/-- `verify`, BK:153-154. -/
def CPubKey.verify (p : CPubKey S) (h sig : Bytes) : Bool := p.key.verify h sig

/-- `__repr__`, BK:159-163, in Python 3. -/
def CPubKey.repr (p : CPubKey S) : Str := "CPubKey(".toList ++ (Rp.reprBytes p.bytes ++ ")".toList)

variable (S)

/-- `CKey`, WA:201-222.  Its `_cec_key` is the object that its `pub` has too. -/
structure CKey where
  pub : CPubKey S

variable {S}

/-- `CKey(secret, compressed)`, WA:210-215. -/
def CKey.new (secret : Bytes) (compressed : Bool) : Py (CKey S) := do
  let k ← ({} : EcKey S).setSecret secret
  let k := k.setCompressed compressed
  return ⟨CPubKey.new k.getPubkey k⟩

/-- `is_compressed`, WA:217-219. -/
def CKey.isCompressed (k : CKey S) : Bool := k.pub.isCompressed

/-- `sign`, WA:221-222. -/
def CKey.sign (k : CKey S) (h : HashArg) : Py Bytes := k.pub.key.sign h

/-- What `_CheckSig` does with the public key, bitcoin/core/scripteval.py:117-118, 134. -/
def checkWith (S : Ssl) (pubkey h sig : Bytes) : Bool := (({} : EcKey S).setPubkey pubkey).2.verify h sig

end Verif.Btc
