import Verif.Model.SigHash
/-!
# Model of transactions as objects, lib/python-bitcoinlib/bitcoin/core/__init__.py and script.py

`BC` abbreviates `lib/python-bitcoinlib/bitcoin/core/__init__.py`, `BS` `lib/python-bitcoinlib/bitcoin/core/serialize.py` and `SC`
`lib/python-bitcoinlib/bitcoin/core/script.py`.  Here a transaction is an object that refers to other objects; several objects may refer to the
same one, and what is assigned to an attribute through one of them is seen through the others.

Simplifications:
* Attributes are assigned values of their type only.
* Bytes, scripts and numbers are values: nothing can change them in Python either.
* Of the hashes that are cached only `GetHash()` of transactions is modelled.
* Reading the attributes and writing the serialization are done one after the other, not in turns.
-/
namespace Verif.Btc.Objs
open Verif

/-- Addresses of objects. -/
scoped notation "Addr" => Nat

/-- An object; `isMutable` is true for the `CMutable…` classes, `isList` is false for tuples.  `cached` is `_cached_GetHash`, BS:133. -/
inductive Cell where
  | outpoint (isMutable : Bool) (hash : Bytes) (n : Int)
  | txin (isMutable : Bool) (prevout : Addr) (scriptSig : Bytes) (nSequence : Int)
  | txout (isMutable : Bool) (nValue : Int) (scriptPubKey : Bytes)
  | seq (isList : Bool) (items : List Addr)
  | tx (isMutable : Bool) (nVersion : Int) (vin vout : Addr) (nLockTime : Int) (cached : Option Bytes)
deriving DecidableEq, Repr

/-- All objects. -/
abbrev Heap := List Cell

/-- Code that uses objects. -/
def TH (α : Type) := Heap → Py α × Heap

namespace TH
variable {α β : Type}
def pure (a : α) : TH α := fun h => (.ok a, h)
def bind (x : TH α) (f : α → TH β) : TH β := fun h =>
  match x h with
  | (.ok a, h') => f a h'
  | (.error e, h') => (.error e, h')
instance : Monad TH where
  pure := TH.pure
  bind := TH.bind
/-- Code that does not use objects. -/
def lift (x : Py α) : TH α := fun h => (x, h)
def raise (e : PyErr) : TH α := fun h => (.error e, h)
/-- `[f(x) for x in xs]`. -/
def each (f : α → TH β) : List α → TH (List β)
  | [] => TH.pure []
  | x :: xs => do
    let y ← f x
    let ys ← each f xs
    return y :: ys
/-- `for x in xs: f(x)`. -/
def loop (f : α → TH Unit) : List α → TH Unit
  | [] => TH.pure ()
  | x :: xs => do
    f x
    loop f xs
end TH

/-- A new object. -/
def alloc (c : Cell) : TH Addr := fun h => (.ok h.length, h ++ [c])

/-- The object at an address. -/
def cell (a : Addr) : TH Cell := fun h =>
  match h[a]? with
  | some c => (.ok c, h)
  | none => (.error .attributeError, h)

/-- Replace an object. -/
def store (a : Addr) (c : Cell) : TH Unit := fun h => (.ok (), h.set a c)

/-- The items of a list or tuple. -/
def items (a : Addr) : TH (List Addr) := do
  match ← cell a with
  | .seq _ xs => return xs
  | _ => TH.raise .typeError

/-- `tx.vin`. -/
def vinOf (a : Addr) : TH Addr := do
  match ← cell a with
  | .tx _ _ i _ _ _ => return i
  | _ => TH.raise .attributeError

/-- `tx.vout`. -/
def voutOf (a : Addr) : TH Addr := do
  match ← cell a with
  | .tx _ _ _ o _ _ => return o
  | _ => TH.raise .attributeError

/-- `txin.prevout`. -/
def prevoutOf (a : Addr) : TH Addr := do
  match ← cell a with
  | .txin _ p _ _ => return p
  | _ => TH.raise .attributeError

/-- `xs[i]`. -/
def itemAt (a : Addr) (i : Int) : TH Addr := do
  let xs ← items a
  TH.lift (pyGetItem xs i)

/-- `xs.append(x)`. -/
def append (a x : Addr) : TH Unit := do
  match ← cell a with
  | .seq true xs => store a (.seq true (xs ++ [x]))
  | _ => TH.raise .attributeError

/-! ## Assignment to attributes: `ImmutableSerializable.__setattr__`, BS:135-136, and `__make_mutable`, BC:109-117 -/

/-- `outpoint.hash = v`. -/
def setHash (a : Addr) (v : Bytes) : TH Unit := do
  match ← cell a with
  | .outpoint true _ n => store a (.outpoint true v n)
  | _ => TH.raise .attributeError

/-- `outpoint.n = v`. -/
def setN (a : Addr) (v : Int) : TH Unit := do
  match ← cell a with
  | .outpoint true x _ => store a (.outpoint true x v)
  | _ => TH.raise .attributeError

/-- `txin.prevout = v`. -/
def setPrevout (a v : Addr) : TH Unit := do
  match ← cell a with
  | .txin true _ s q => store a (.txin true v s q)
  | _ => TH.raise .attributeError

/-- `txin.scriptSig = v`. -/
def setScriptSig (a : Addr) (v : Bytes) : TH Unit := do
  match ← cell a with
  | .txin true p _ q => store a (.txin true p v q)
  | _ => TH.raise .attributeError

/-- `txin.nSequence = v`. -/
def setSequence (a : Addr) (v : Int) : TH Unit := do
  match ← cell a with
  | .txin true p s _ => store a (.txin true p s v)
  | _ => TH.raise .attributeError

/-- `txout.nValue = v`. -/
def setValue (a : Addr) (v : Int) : TH Unit := do
  match ← cell a with
  | .txout true _ s => store a (.txout true v s)
  | _ => TH.raise .attributeError

/-- `txout.scriptPubKey = v`. -/
def setScriptPubKey (a : Addr) (v : Bytes) : TH Unit := do
  match ← cell a with
  | .txout true x _ => store a (.txout true x v)
  | _ => TH.raise .attributeError

/-- `tx.nVersion = v`. -/
def setVersion (a : Addr) (v : Int) : TH Unit := do
  match ← cell a with
  | .tx true _ i o l c => store a (.tx true v i o l c)
  | _ => TH.raise .attributeError

/-- `tx.nLockTime = v`. -/
def setLockTime (a : Addr) (v : Int) : TH Unit := do
  match ← cell a with
  | .tx true n i o _ c => store a (.tx true n i o v c)
  | _ => TH.raise .attributeError

/-- `tx.vin = v`. -/
def setVin (a v : Addr) : TH Unit := do
  match ← cell a with
  | .tx true n _ o l c => store a (.tx true n v o l c)
  | _ => TH.raise .attributeError

/-- `tx.vout = v`. -/
def setVout (a v : Addr) : TH Unit := do
  match ← cell a with
  | .tx true n i _ l c => store a (.tx true n i v l c)
  | _ => TH.raise .attributeError

/-! ## Constructors -/

/-- `COutPoint(hash, n)`, `CMutableOutPoint(hash, n)`, BC:125-131. -/
def newOutPoint (m : Bool) (hash : Bytes) (n : Int) : TH Addr := do
  let v ← TH.lift (COutPoint.new hash n)
  alloc (.outpoint m v.hash v.n)

/-- `CTxIn(prevout, scriptSig, nSequence)`, BC:184-190, and `CMutableTxIn`, BC:227-235; the outpoint is not copied. -/
def newTxIn (m : Bool) (prevout : Addr) (scriptSig : Bytes) (nSequence : Int) : TH Addr := do
  if 0 ≤ nSequence ∧ nSequence ≤ 0xffffffff then alloc (.txin m prevout scriptSig nSequence) else TH.raise .valueError

/-- `CTxOut(nValue, scriptPubKey)`, `CMutableTxOut(nValue, scriptPubKey)`, BC:252-255. -/
def newTxOut (m : Bool) (nValue : Int) (scriptPubKey : Bytes) : TH Addr := alloc (.txout m nValue scriptPubKey)

/-- `CTxIn.from_txin`, BC:210-221: a mutable one raises (see `immTxIn` in `Copies.lean`). -/
def immIn (a : Addr) : TH Addr := do
  match ← cell a with
  | .txin false _ _ _ => return a
  | _ => TH.raise .attributeError

/-- `CTxOut.from_txout`, BC:280-291. -/
def immOut (a : Addr) : TH Addr := do
  match ← cell a with
  | .txout false _ _ => return a
  | .txout true v s => newTxOut false v s
  | _ => TH.raise .attributeError

/-- `CTransaction(vin, vout, nLockTime, nVersion)`, BC:307-320. -/
def newTx (vin vout : Addr) (nLockTime nVersion : Int) : TH Addr := do
  if 0 ≤ nLockTime ∧ nLockTime ≤ 0xffffffff then
    let xs ← items vin
    let is ← TH.each immIn xs
    let i ← alloc (.seq false is)
    let ys ← items vout
    let os ← TH.each immOut ys
    let o ← alloc (.seq false os)
    alloc (.tx false nVersion i o nLockTime none)
  else TH.raise .valueError

/-- `CMutableTransaction(vin, vout, nLockTime, nVersion)`, BC:361-373: the lists are not copied. -/
def newMutTx (vin vout : Addr) (nLockTime nVersion : Int) : TH Addr := do
  if 0 ≤ nLockTime ∧ nLockTime ≤ 0xffffffff then alloc (.tx true nVersion vin vout nLockTime none) else TH.raise .valueError

/-! ## Copies -/

/-- `CMutableOutPoint.from_outpoint`, BC:171-174. -/
def copyOutPoint (a : Addr) : TH Addr := do
  match ← cell a with
  | .outpoint _ x n => newOutPoint true x n
  | _ => TH.raise .attributeError

/-- `CMutableTxIn.from_txin`, BC:237-242. -/
def copyIn (a : Addr) : TH Addr := do
  match ← cell a with
  | .txin _ p s q => do
    let p' ← copyOutPoint p
    newTxIn true p' s q
  | _ => TH.raise .attributeError

/-- `CMutableTxOut.from_txout`, BC:298-301. -/
def copyOut (a : Addr) : TH Addr := do
  match ← cell a with
  | .txout _ v s => newTxOut true v s
  | _ => TH.raise .attributeError

/-- `CMutableTransaction.from_tx`, BC:375-381. -/
def copyTx (a : Addr) : TH Addr := do
  match ← cell a with
  | .tx _ v i o l _ => do
    let xs ← items i
    let is ← TH.each copyIn xs
    let i' ← alloc (.seq true is)
    let ys ← items o
    let os ← TH.each copyOut ys
    let o' ← alloc (.seq true os)
    newMutTx i' o' l v
  | _ => TH.raise .attributeError

/-- `CTransaction.from_tx`, BC:342-353. -/
def immTx (a : Addr) : TH Addr := do
  match ← cell a with
  | .tx false _ _ _ _ _ => return a
  | .tx true v i o l _ => newTx i o l v
  | _ => TH.raise .attributeError

/-! ## Deserialization -/

/-- `CTxIn.stream_deserialize`, BC:192-197: a new outpoint and a new input. -/
def loadIn (x : CTxIn) : TH Addr := do
  let p ← newOutPoint false x.prevout.hash x.prevout.n
  newTxIn false p x.scriptSig x.nSequence

/-- `CTransaction.deserialize(b)`, BC:322-328: the parts are read into lists, and the constructor is called. -/
def loadTx (b : Bytes) : TH Addr := do
  let t ← TH.lift (deserializeAll CTransaction.deser b)
  let is ← TH.each loadIn t.vin
  let i ← alloc (.seq true is)
  let os ← TH.each (fun (x : CTxOut) => newTxOut false x.nValue x.scriptPubKey) t.vout
  let o ← alloc (.seq true os)
  newTx i o t.nLockTime t.nVersion

/-! ## Serialization and hash -/

/-- What is in an outpoint. -/
def readOutPoint (a : Addr) : TH COutPoint := do
  match ← cell a with
  | .outpoint _ x n => return ⟨x, n⟩
  | _ => TH.raise .attributeError

/-- What is in an input. -/
def readIn (a : Addr) : TH CTxIn := do
  match ← cell a with
  | .txin _ p s q => do
    let x ← readOutPoint p
    return ⟨x, s, q⟩
  | _ => TH.raise .attributeError

/-- What is in an output. -/
def readOut (a : Addr) : TH CTxOut := do
  match ← cell a with
  | .txout _ v s => return ⟨v, s⟩
  | _ => TH.raise .attributeError

/-- What is in a transaction. -/
def readTx (a : Addr) : TH CTransaction := do
  match ← cell a with
  | .tx _ v i o l _ => do
    let xs ← items i
    let is ← TH.each readIn xs
    let ys ← items o
    let os ← TH.each readOut ys
    return ⟨v, is, os, l⟩
  | _ => TH.raise .attributeError

/-- `tx.serialize()`, BC:330-334. -/
def serialize (a : Addr) : TH Bytes := do
  let t ← readTx a
  TH.lift t.ser

/-- `tx.GetHash()`: BS:121-123 for mutable transactions, BS:141-148 for others. -/
def getHash (H : HashFns) (a : Addr) : TH Bytes := do
  match ← cell a with
  | .tx true _ _ _ _ _ => do
    let b ← serialize a
    return H.hash256 b
  | .tx false _ _ _ _ (some d) => return d
  | .tx false v i o l none => do
    let b ← serialize a
    store a (.tx false v i o l (some (H.hash256 b)))
    return H.hash256 b
  | _ => TH.raise .attributeError

/-! ## Signature hashes -/

/-- The loops SC:823-825, SC:838-840. -/
def zeroSeqs (tx : Addr) (inIdx : Int) : TH Unit := do
  let xs ← items (← vinOf tx)
  TH.loop (fun (i : Nat) =>
    if (i : Int) ≠ inIdx then do
      let x ← itemAt (← vinOf tx) i
      setSequence x 0
    else TH.pure ()) (List.range xs.length)

/-- SC:842-852. -/
def sigFinish (H : HashFns) (tx : Addr) (inIdx hashtype : Int) : TH (Bytes × Bool) := do
  if hashtype / 128 % 2 ≠ 0 then
    let tmp ← itemAt (← vinOf tx) inIdx
    let l ← alloc (.seq true [])
    setVin tx l
    append (← vinOf tx) tmp
  let s ← serialize tx
  let t ← TH.lift (packU 4 hashtype)
  return (H.hash256 (s ++ t), false)

/-- `RawSignatureHash`, SC:801-852, on objects. -/
def rawSigHash (H : HashFns) (script : Bytes) (txTo : Addr) (inIdx hashtype : Int) : TH (Bytes × Bool) := do
  let xs ← items (← vinOf txTo)
  if inIdx ≥ xs.length then return (HASH_ONE, true)
  else
    let tmp ← copyTx txTo
    let is ← items (← vinOf tmp)
    TH.loop (fun x => setScriptSig x []) is
    let sep ← TH.lift (mkScript [.op OP_CODESEPARATOR])
    let code ← TH.lift (findAndDelete script sep)
    let x ← itemAt (← vinOf tmp) inIdx
    setScriptSig x code
    if hashtype % 32 = 2 then
      let l ← alloc (.seq true [])
      setVout tmp l
      zeroSeqs tmp inIdx
      sigFinish H tmp inIdx hashtype
    else if hashtype % 32 = 3 then
      let os ← items (← voutOf tmp)
      if inIdx ≥ os.length then return (HASH_ONE, true)
      else
        let o ← itemAt (← voutOf tmp) inIdx
        let l ← alloc (.seq true [])
        setVout tmp l
        TH.loop (fun (_ : Nat) => do
          let d ← newTxOut false (-1) []
          append (← voutOf tmp) d) (List.range inIdx.toNat)
        append (← voutOf tmp) o
        zeroSeqs tmp inIdx
        sigFinish H tmp inIdx hashtype
    else sigFinish H tmp inIdx hashtype

/-- `SignatureHash`, SC:855-865, on objects. -/
def sigHash (H : HashFns) (script : Bytes) (txTo : Addr) (inIdx hashtype : Int) : TH Bytes := do
  let r ← rawSigHash H script txTo inIdx hashtype
  if r.2 then TH.raise .valueError else return r.1

/-! ## Programs -/

/-- Something done with a mutable transaction `tx`: assignments and `append`, as in the examples of the library. -/
inductive Edit where
  | version (v : Int)
  | lockTime (v : Int)
  | scriptSig (i : Int) (v : Bytes)
  | sequence (i : Int) (v : Int)
  | prevHash (i : Int) (v : Bytes)
  | prevN (i : Int) (v : Int)
  | value (i : Int) (v : Int)
  | scriptPubKey (i : Int) (v : Bytes)
  | clearIns
  | clearOuts
  | addIn (prev : COutPoint) (scriptSig : Bytes) (nSequence : Int)
  | addOut (nValue : Int) (scriptPubKey : Bytes)

/-- The statement. -/
def Edit.run (tx : Addr) : Edit → TH Unit
  | .version v => setVersion tx v
  | .lockTime v => setLockTime tx v
  | .scriptSig i v => do
    let x ← itemAt (← vinOf tx) i
    setScriptSig x v
  | .sequence i v => do
    let x ← itemAt (← vinOf tx) i
    setSequence x v
  | .prevHash i v => do
    let x ← itemAt (← vinOf tx) i
    let p ← prevoutOf x
    setHash p v
  | .prevN i v => do
    let x ← itemAt (← vinOf tx) i
    let p ← prevoutOf x
    setN p v
  | .value i v => do
    let x ← itemAt (← voutOf tx) i
    setValue x v
  | .scriptPubKey i v => do
    let x ← itemAt (← voutOf tx) i
    setScriptPubKey x v
  | .clearIns => do
    let l ← alloc (.seq true [])
    setVin tx l
  | .clearOuts => do
    let l ← alloc (.seq true [])
    setVout tx l
  | .addIn p s q => do
    let o ← newOutPoint true p.hash p.n
    let x ← newTxIn true o s q
    append (← vinOf tx) x
  | .addOut v s => do
    let x ← newTxOut true v s
    append (← voutOf tx) x

/-- Any statement that changes or makes objects: the assignments and calls of the library with any objects. -/
inductive Stmt where
  | setHash (a : Addr) (v : Bytes)
  | setN (a : Addr) (v : Int)
  | setPrevout (a v : Addr)
  | setScriptSig (a : Addr) (v : Bytes)
  | setSequence (a : Addr) (v : Int)
  | setValue (a : Addr) (v : Int)
  | setScriptPubKey (a : Addr) (v : Bytes)
  | setVersion (a : Addr) (v : Int)
  | setLockTime (a : Addr) (v : Int)
  | setVin (a v : Addr)
  | setVout (a v : Addr)
  | append (a x : Addr)
  | setItem (a : Addr) (i : Nat) (x : Addr)
  | clear (a : Addr)
  | newList (xs : List Addr)
  | newTuple (xs : List Addr)
  | newOutPoint (m : Bool) (x : Bytes) (n : Int)
  | newTxIn (m : Bool) (p : Addr) (s : Bytes) (q : Int)
  | newTxOut (m : Bool) (v : Int) (s : Bytes)
  | newTx (i o : Addr) (l v : Int)
  | newMutTx (i o : Addr) (l v : Int)
  | copyTx (a : Addr)
  | immTx (a : Addr)
  | loadTx (b : Bytes)
  | serialize (a : Addr)
  | getHash (a : Addr)
  | sigHash (script : Bytes) (a : Addr) (i ty : Int)

/-- The statement; results are forgotten (they are the last object of the heap). -/
def Stmt.run (H : HashFns) : Stmt → TH Unit
  | .setHash a v => Objs.setHash a v
  | .setN a v => Objs.setN a v
  | .setPrevout a v => Objs.setPrevout a v
  | .setScriptSig a v => Objs.setScriptSig a v
  | .setSequence a v => Objs.setSequence a v
  | .setValue a v => Objs.setValue a v
  | .setScriptPubKey a v => Objs.setScriptPubKey a v
  | .setVersion a v => Objs.setVersion a v
  | .setLockTime a v => Objs.setLockTime a v
  | .setVin a v => Objs.setVin a v
  | .setVout a v => Objs.setVout a v
  | .append a x => Objs.append a x
  | .setItem a i x => do
    match ← cell a with
    | .seq true xs => if i < xs.length then store a (.seq true (xs.set i x)) else TH.raise .indexError
    | _ => TH.raise .typeError
  | .clear a => do
    match ← cell a with
    | .seq true _ => store a (.seq true [])
    | _ => TH.raise .attributeError
  | .newList xs => do let _ ← alloc (.seq true xs)
  | .newTuple xs => do let _ ← alloc (.seq false xs)
  | .newOutPoint m x n => do let _ ← Objs.newOutPoint m x n
  | .newTxIn m p s q => do let _ ← Objs.newTxIn m p s q
  | .newTxOut m v s => do let _ ← Objs.newTxOut m v s
  | .newTx i o l v => do let _ ← Objs.newTx i o l v
  | .newMutTx i o l v => do let _ ← Objs.newMutTx i o l v
  | .copyTx a => do let _ ← Objs.copyTx a
  | .immTx a => do let _ ← Objs.immTx a
  | .loadTx b => do let _ ← Objs.loadTx b
  | .serialize a => do let _ ← Objs.serialize a
  | .getHash a => do let _ ← Objs.getHash H a
  | .sigHash s a i ty => do let _ ← Objs.sigHash H s a i ty

/-- Statements one after the other; an exception is caught (or ends the program, if nothing follows). -/
def runStmts (H : HashFns) : List Stmt → Heap → Heap
  | [], h => h
  | s :: ss, h => runStmts H ss (s.run H h).2

end Verif.Btc.Objs
