import Verif.Model.Block
/-!
# Model of comparison and hashing of Bitcoin objects

`BC` abbreviates `lib/python-bitcoinlib/bitcoin/core/__init__.py`, `BS` the file `serialize.py` beside it.

Simplification: an object is given by its class and content at the time; `ImmutableSerializable` keeps the result of `hash()` (BS:159-165), so what is said here about `hash()`
is for objects whose parts have not been changed since (C125 says when parts can change).
-/
namespace Verif.Btc

/-- The classes of BC:121-536 that inherit from `Serializable`. -/
inductive BtcCls where
  | outPoint | mutableOutPoint | txIn | mutableTxIn | txOut | mutableTxOut | transaction | mutableTransaction | blockHeader | block
deriving DecidableEq, Repr

/-- An instance of one of the classes. -/
inductive BtcObj where
  | outPoint (isMutable : Bool) (x : COutPoint)
  | txIn (isMutable : Bool) (x : CTxIn)
  | txOut (isMutable : Bool) (x : CTxOut)
  | tx (isMutable : Bool) (x : CTransaction)
  | header (x : CBlockHeader)
  | block (x : CBlock)
deriving DecidableEq, Repr

namespace BtcObj

/-- `x.__class__`. -/
def cls : BtcObj → BtcCls
  | .outPoint m _ => if m then .mutableOutPoint else .outPoint
  | .txIn m _ => if m then .mutableTxIn else .txIn
  | .txOut m _ => if m then .mutableTxOut else .txOut
  | .tx m _ => if m then .mutableTransaction else .transaction
  | .header _ => .blockHeader
  | .block _ => .block

end BtcObj

/-- `issubclass`: BC:167, BC:224, BC:294, BC:357, BC:439. -/
def BtcCls.sub (c d : BtcCls) : Bool :=
  c == d || match c, d with
    | .mutableOutPoint, .outPoint => true
    | .mutableTxIn, .txIn => true
    | .mutableTxOut, .txOut => true
    | .mutableTransaction, .transaction => true
    | .block, .blockHeader => true
    | _, _ => false

namespace BtcObj

/-- `serialize()`, BS:99-103, with the method `stream_serialize` of the class; the mutable classes inherit it. -/
def ser : BtcObj → Py Bytes
  | .outPoint _ x => x.ser
  | .txIn _ x => x.ser
  | .txOut _ x => x.ser
  | .tx _ x => x.ser
  | .header x => x.ser
  | .block x => x.ser

/-- `Serializable.__eq__`, BS:127-131; `none` is `NotImplemented`. -/
def eqMethod (a b : BtcObj) : Py (Option Bool) :=
  if !b.cls.sub a.cls && !a.cls.sub b.cls then .ok none
  else do
    let x ← a.ser
    let y ← b.ser
    return some (x == y)

/-- `a == b` in Python: the method of `b` is asked first if its class is a proper subclass; if both methods return `NotImplemented`, objects are compared by identity (and
one object has one class, so the methods do not). -/
def pyEq (a b : BtcObj) : Py Bool := do
  let (p, q) := if b.cls ≠ a.cls ∧ b.cls.sub a.cls then (b, a) else (a, b)
  match ← eqMethod p q with
  | some r => return r
  | none => match ← eqMethod q p with
    | some r => return r
    | none => return false

/-- `a != b`: `Serializable.__ne__`, BS:133-134. -/
def pyNe (a b : BtcObj) : Py Bool := do
  let r ← pyEq a b
  return !r

/-- `hash(a)`, BS:136-137, BS:159-165; `hashBytes` is Python's `hash` of `bytes`. -/
def pyHash (hashBytes : Bytes → Int) (a : BtcObj) : Py Int := do
  let x ← a.ser
  return hashBytes x

/-- `d[a]` for a dictionary with these items: the hash is computed once, then the items with the same hash are compared with `==`; `none` is a `KeyError`.  The objects in
the dictionary were hashed when they were put in, so they can be serialized. -/
def lookup {β} (hashBytes : Bytes → Int) (a : BtcObj) : List (BtcObj × β) → Py (Option β)
  | [] => do
    let _ ← pyHash hashBytes a
    return none
  | (k, v) :: d => do
    let h ← pyHash hashBytes a
    let h' ← pyHash hashBytes k
    if h' = h then
      let r ← pyEq k a
      if r then return some v
    lookup hashBytes a d

end BtcObj
end Verif.Btc
