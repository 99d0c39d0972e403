import Verif.Model.Seal
import Verif.Model.GuMap
/-!
# Model of sus-tool.py

`ST` is `sus-tool.py`, `BC` is `lib/python-bitcoinlib/bitcoin/core/__init__.py`.

A command is a program on the files, the printed lines and the heap of proof objects.  What argparse does with the arguments is
part of the commands: it converts them in the order of the command line, opens the files, and exits when that fails.

Simplifications:
* Text is a list of characters; digits and white space outside ASCII, which `int` understands, are treated as any other
  character, and so is the limit on the number of digits (`sys.set_int_max_str_digits`).
* The name `-`, which argparse takes for the standard streams, and the value of `name` for them are not modelled.
* Opening, reading and writing files succeeds but for files that do not exist or exist already; nobody else uses the files
  meanwhile; a process is not killed halfway.
* `bitcoin.rpc.Proxy()` (ST:271) succeeds.  What `getrawtransaction` returns is a parameter: the serialized transaction, which
  the proxy deserializes (bitcoin/rpc.py:296-324).
* Logging has no effect, but its arguments are computed (ST:127-128).
-/
namespace Verif.Sus
open Verif Btc Seal

/-- A Python `str`. -/
abbrev Str := List Char

/-! ## Text -/

/-- The hexadecimal digits used by `binascii.hexlify`. -/
def hexChar (d : Nat) : Char := if d < 10 then Char.ofNat (48 + d) else Char.ofNat (87 + d)

/-- The value of a hexadecimal digit. -/
def hexVal (c : Char) : Option Nat :=
  let n := c.toNat
  if 48 ≤ n ∧ n ≤ 57 then some (n - 48)
  else if 97 ≤ n ∧ n ≤ 102 then some (n - 87)
  else if 65 ≤ n ∧ n ≤ 70 then some (n - 55)
  else none

/-- `b2x`, BC:50-52. -/
def b2x (b : Bytes) : Str := b.flatMap fun x => [hexChar (x.toNat / 16), hexChar (x.toNat % 16)]

/-- `b2lx`, BC:78-84. -/
def b2lx (b : Bytes) : Str := b2x b.reverse

/-- `x`, BC:42-44.  `binascii.Error` is a `ValueError`. -/
def unhex : Str → Py Bytes
  | [] => .ok []
  | [_] => .error .valueError
  | a :: b :: rest =>
    match hexVal a, hexVal b with
    | some m, some n => do
      let r ← unhex rest
      return BitVec.ofNat 8 (16 * m + n) :: r
    | _, _ => .error .valueError

/-- `lx`, BC:62-68. -/
def lx (s : Str) : Py Bytes := do
  let b ← unhex s
  return b.reverse

/-- The white space `int` and `bytes.fromhex` skip. -/
def isSpace (c : Char) : Bool := c = ' ' || (9 ≤ c.toNat && c.toNat ≤ 13)

/-- `'%d' % n` for a natural number. -/
def decNat (n : Nat) : Str := if h : n < 10 then [hexChar n] else decNat (n / 10) ++ [hexChar (n % 10)]

/-- `'%d' % i`. -/
def dec (i : Int) : Str := if i < 0 then '-' :: decNat i.natAbs else decNat i.natAbs

/-- The value of a decimal digit. -/
def digitVal (c : Char) : Option Nat := if 48 ≤ c.toNat ∧ c.toNat ≤ 57 then some (c.toNat - 48) else none

/-- Digits with single underscores between them; `v` is the value so far, `u` tells whether an underscore may not come now. -/
def digits (v : Nat) (u : Bool) : Str → Option Nat
  | [] => if u then none else some v
  | c :: cs =>
    if c = '_' then (if u then none else digits v true cs)
    else match digitVal c with
      | some d => digits (10 * v + d) false cs
      | none => none

/-- `int(s)`. -/
def pyInt (s : Str) : Py Int :=
  let s := ((s.dropWhile isSpace).reverse.dropWhile isSpace).reverse
  let (neg, s) := match s with
    | '-' :: s => (true, s)
    | '+' :: s => (false, s)
    | s => (false, s)
  match digits 0 true s with
  | some n => .ok (if neg then -(n : Int) else n)
  | none => .error .valueError

/-- `bytes.fromhex(s)` (Python 3.7 and later: white space may precede every byte). -/
def fromhexF : Nat → Str → Py Bytes
  | 0, _ => .error .other
  | n + 1, s =>
    match s.dropWhile isSpace with
    | [] => .ok []
    | [_] => .error .valueError
    | a :: b :: rest =>
      match hexVal a, hexVal b with
      | some x, some y => do
        let r ← fromhexF n rest
        return BitVec.ofNat 8 (16 * x + y) :: r
      | _, _ => .error .valueError

/-- `bytes.fromhex(s)`. -/
def fromhex (s : Str) : Py Bytes := fromhexF (s.length + 1) s

/-- `except ValueError`: `parser.exit`. -/
def exitOn {α} (x : Py α) : Py α :=
  match x with
  | .error .valueError => .error .systemExit
  | x => x

/-- `str_to_COutPoint`, ST:30-40. -/
def strToCOutPoint (s : Str) : Py COutPoint := exitOn (do
  if s.count ':' ≠ 1 then .error .valueError
  let txid ← lx (s.takeWhile (· ≠ ':'))
  let n ← pyInt ((s.dropWhile (· ≠ ':')).drop 1)
  COutPoint.new txid n)

/-- `str_to_digest`, ST:49-56. -/
def strToDigest (s : Str) : Py Bytes := exitOn (do
  let d ← fromhex s
  if d.length ≠ 32 then .error .valueError
  return d)

/-! ## Commands -/

/-- What a command acts on. -/
structure World where
  heap : PState := {}
  files : Str → Option Bytes
  out : List Str := []

/-- A command. -/
def TM (α : Type) := World → Py α × World

namespace TM
def pure {α} (a : α) : TM α := fun w => (.ok a, w)
def bind {α β} (x : TM α) (f : α → TM β) : TM β := fun w =>
  match x w with
  | (.ok a, w') => f a w'
  | (.error e, w') => (.error e, w')
instance : Monad TM where
  pure := TM.pure
  bind := TM.bind
def fail {α} (e : PyErr) : TM α := fun w => (.error e, w)
def lift {α} (x : Py α) : TM α := fun w => (x, w)
/-- Act on proofs. -/
def heap {α} (x : HM α) : TM α := fun w => ((x w.heap).1, { w with heap := (x w.heap).2 })
/-- `print`. -/
def print (s : Str) : TM Unit := fun w => (.ok (), { w with out := w.out ++ [s] })
/-- `argparse.FileType('rb')`: exits if there is no such file. -/
def openR (name : Str) : TM Unit := fun w => (match w.files name with | some _ => .ok () | none => .error .systemExit, w)
/-- `fd.read()` of a file opened before. -/
def read (name : Str) : TM Bytes := fun w => (match w.files name with | some b => .ok b | none => .error .fileNotFound, w)
/-- `open(name, 'xb')`: the file must not exist, and is then empty.  `e` is raised otherwise. -/
def openX (name : Str) (e : PyErr) : TM Unit := fun w =>
  match w.files name with
  | some _ => (.error e, w)
  | none => (.ok (), { w with files := fun f => if f = name then some [] else w.files f })
/-- `fd.write(b)` to the file just created. -/
def write (name : Str) (b : Bytes) : TM Unit := fun w => (.ok (), { w with files := fun f => if f = name then some b else w.files f })
end TM

section
variable (T : Table) (H : HashFns)

/-- `mkseal TXID:N FILE`, ST:82-94.  The nonce is missing. -/
def mkseal (arg file : Str) : TM Unit := do
  let o ← TM.lift (strToCOutPoint arg)
  TM.openX file .systemExit
  let r ← TM.heap (Prf.new T Cls.btcSeal [.prim (.outpoint o)])
  let b ← TM.heap (Prf.serialize T H r)
  TM.write file b

/-- `seal.outpoint`. -/
def sealOutpoint (r : Nat) : HM COutPoint := do
  let v ← Prf.getAttr T r 0
  match v with
  | .prim (.outpoint o) => return o
  | _ => HM.fail .other

/-- `seal in seals`, ST:123, for a dictionary with these keys: `Proof.__hash__` and `Proof.__eq__` (proof.py:72-83) compare hashes. -/
def isIn (r : Nat) : List Nat → HM Bool
  | [] => do
    let _ ← Prf.hash T H r
    return false
  | q :: qs => do
    let e ← Prf.eq T H q r
    if e then return true else isIn r qs

/-- The loop ST:121-128; `seals` is the dictionary so far. -/
def readSeals (seals : List Nat) : List Str → TM (List Nat)
  | [] => return seals
  | f :: fs => do
    let b ← TM.read f
    let r ← TM.heap (Prf.deserialize T Cls.btcSeal b)
    let dup ← TM.heap (isIn T H r seals)
    if dup then TM.fail .systemExit
    else do
      let _ ← TM.heap (Prf.hash T H r)
      let _ ← TM.heap (sealOutpoint T r)
      readSeals (seals ++ [r]) fs

/-- `[seal.outpoint for seal in seals]`, proofchains/uniquebits/singleuseseal.py:32. -/
def outpoints : List Nat → HM (List COutPoint)
  | [] => return []
  | r :: rs => do
    let o ← sealOutpoint T r
    let os ← outpoints rs
    return o :: os

/-- argparse opens files. -/
def openAll : List Str → TM Unit
  | [] => return ()
  | f :: fs => do
    TM.openR f
    openAll fs

/-- `mkclosetx DIGEST SEAL-FILE...`, ST:98-136. -/
def mkclosetx (arg : Str) (files : List Str) (meth : Meth) : TM Unit := do
  let digest ← TM.lift (strToDigest arg)
  openAll files
  let seals ← readSeals T H [] files
  let _ ← TM.lift (closeTxOut H digest meth 600)
  let os ← TM.heap (outpoints T seals)
  let tx ← TM.lift (makeCloseTx H digest os meth 600)
  let b ← TM.lift tx.ser
  TM.print (b2x b)

/-- The name of the witness file, ST:180. -/
def witnessName (f : Str) : Str := f ++ ".witness".toList

/-- The loop ST:165-182. -/
def mkWitnesses (tp : Nat) : List Str → TM Unit
  | [] => return ()
  | f :: fs => do
    let b ← TM.read f
    let sl ← TM.heap (Prf.deserialize T Cls.btcSeal b)
    let w ← TM.heap (makeWitness T tp sl)
    match w with
    | none => TM.fail .systemExit
    | some w => do
      TM.openX (witnessName f) .fileExists
      let b ← TM.heap (Prf.serialize T H w)
      TM.write (witnessName f) b
      mkWitnesses tp fs

/-- Where `mkwitness` gets the transaction from: `--tx` or `--txid`. -/
inductive TxArg where
  | tx (hex : Str)
  | txid (hex : Str)

/-- The argument parser's conversion of the option, ST:144-149: argparse exits on a `ValueError` of `x` or `lx`. -/
def TxArg.parse : TxArg → Py Bytes
  | .tx h => exitOn (unhex h)
  | .txid h => exitOn (lx h)

/-- The serialized transaction, ST:152-159: given, or from `args.proxy.getrawtransaction`; `a` is the converted argument. -/
def TxArg.raw (getraw : Bytes → Py Bytes) (a : Bytes) : TxArg → Py Bytes
  | .tx _ => .ok a
  | .txid _ => getraw a

/-- `mkwitness`, ST:151-182. -/
def mkwitness (getraw : Bytes → Py Bytes) (files : List Str) (arg : TxArg) : TM Unit := do
  let a ← TM.lift arg.parse
  openAll files
  let raw ← TM.lift (arg.raw getraw a)
  let tx ← TM.lift (deserializeAll CTransaction.deser raw)
  let tp ← TM.heap (Prf.new T Cls.txProof [.prim (.tx tx)])
  mkWitnesses T H tp files

/-- `verifywitness`, ST:187-218: the options `--seal-file` (a file that must exist) and `--seal-id` have no effect. -/
def verifywitness (file : Str) (digest sealFile sealId : Option Str) : TM Unit := do
  TM.openR file
  let d ← TM.lift (digest.mapM strToDigest)
  let _ ← sealFile.mapM TM.openR
  let _ ← TM.lift (sealId.mapM strToDigest)
  let b ← TM.read file
  let r ← TM.heap (Prf.deserialize T Cls.btcWitness b)
  TM.heap ((witnessVerify []).runM T H r)
  match d with
  | none => return ()
  | some d => TM.heap ((witnessVerifyHash H d []).runM T H r)

/-- `sealinfo`, ST:227-231. -/
def sealinfo (file : Str) : TM Unit := do
  TM.openR file
  let b ← TM.read file
  let r ← TM.heap (Prf.deserialize T Cls.btcSeal b)
  let h ← TM.heap (Prf.hash T H r)
  TM.print ("Hash:\t\t".toList ++ b2x h)
  let o ← TM.heap (sealOutpoint T r)
  TM.print ("OutPoint:\t".toList ++ b2lx o.hash ++ ':' :: dec o.n)

/-- `x.hash` of the proof at `π`. -/
def hashAt (π : List Nat) : Prog Bytes := .hash π fun h => .ret (.ok h)

/-- `witnessinfo`, ST:242-248. -/
def witnessinfo (file : Str) : TM Unit := do
  TM.openR file
  let b ← TM.read file
  let r ← TM.heap (Prf.deserialize T Cls.btcWitness b)
  let h ← TM.heap (Prf.hash T H r)
  TM.print ("Hash:\t\t".toList ++ b2x h)
  let id ← TM.heap ((txproof [1] txhash).runM T H r)
  TM.print ("Txid:\t\t".toList ++ b2lx id)
  let h ← TM.heap ((hashAt [0]).runM T H r)
  TM.print ("Seal Hash:\t".toList ++ b2x h)
  let o ← TM.heap ((outpoint [0]).runM T H r)
  TM.print ("Seal OutPoint:\t".toList ++ b2x o.hash ++ ':' :: dec o.n)
end

end Verif.Sus
