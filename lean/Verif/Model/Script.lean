import Verif.Model.Bignum
/-!
# Model of lib/python-bitcoinlib/bitcoin/core/script.py

`SC` abbreviates `lib/python-bitcoinlib/bitcoin/core/script.py`.  A `CScript` is its bytes.  Signature hashes are in
`Model/SigHash.lean`; `__repr__` is not modelled.
-/
namespace Verif.Btc
open Verif

/-- `OP_0`, `OP_PUSHDATA1`, `OP_PUSHDATA2`, `OP_PUSHDATA4`, `OP_1NEGATE`, `OP_1`, `OP_16`, SC:109-131. -/
abbrev OP_0 : Byte := 0x00#8
@[inherit_doc OP_0] abbrev OP_PUSHDATA1 : Byte := 0x4c#8
@[inherit_doc OP_0] abbrev OP_PUSHDATA2 : Byte := 0x4d#8
@[inherit_doc OP_0] abbrev OP_PUSHDATA4 : Byte := 0x4e#8
@[inherit_doc OP_0] abbrev OP_1NEGATE : Byte := 0x4f#8
@[inherit_doc OP_0] abbrev OP_1 : Byte := 0x51#8
@[inherit_doc OP_0] abbrev OP_16 : Byte := 0x60#8
/-- `OP_RETURN`, `OP_DUP`, `OP_EQUAL`, `OP_EQUALVERIFY`, `OP_HASH160`, `OP_CODESEPARATOR`, `OP_CHECKSIG`,
`OP_CHECKSIGVERIFY`, `OP_CHECKMULTISIG`, `OP_CHECKMULTISIGVERIFY`, `OP_INVALIDOPCODE`, SC:133-260. -/
abbrev OP_RETURN : Byte := 0x6a#8
@[inherit_doc OP_RETURN] abbrev OP_DUP : Byte := 0x76#8
@[inherit_doc OP_RETURN] abbrev OP_EQUAL : Byte := 0x87#8
@[inherit_doc OP_RETURN] abbrev OP_EQUALVERIFY : Byte := 0x88#8
@[inherit_doc OP_RETURN] abbrev OP_HASH160 : Byte := 0xa9#8
@[inherit_doc OP_RETURN] abbrev OP_CODESEPARATOR : Byte := 0xab#8
@[inherit_doc OP_RETURN] abbrev OP_CHECKSIG : Byte := 0xac#8
@[inherit_doc OP_RETURN] abbrev OP_CHECKSIGVERIFY : Byte := 0xad#8
@[inherit_doc OP_RETURN] abbrev OP_CHECKMULTISIG : Byte := 0xae#8
@[inherit_doc OP_RETURN] abbrev OP_CHECKMULTISIGVERIFY : Byte := 0xaf#8
@[inherit_doc OP_RETURN] abbrev OP_INVALIDOPCODE : Byte := 0xff#8

/-- `CScriptOp.encode_op_pushdata`, SC:45-57. -/
def encodePushdata (d : Bytes) : Py Bytes :=
  if d.length < 0x4c then .ok (BitVec.ofNat 8 d.length :: d)
  else if d.length ≤ 0xff then .ok (OP_PUSHDATA1 :: BitVec.ofNat 8 d.length :: d)
  else if d.length ≤ 0xffff then do
    let l ← packU 2 d.length
    return OP_PUSHDATA2 :: (l ++ d)
  else if d.length ≤ 0xffffffff then do
    let l ← packU 4 d.length
    return OP_PUSHDATA4 :: (l ++ d)
  else .error .valueError

/-- `CScriptOp.encode_op_n`, SC:59-68. -/
def encodeOpN (n : Int) : Py Byte :=
  if ¬ (0 ≤ n ∧ n ≤ 16) then .error .valueError
  else if n = 0 then .ok OP_0
  else .ok (BitVec.ofNat 8 (0x51 + n.toNat - 1))

/-- `CScriptOp.decode_op_n`, SC:70-78. -/
def decodeOpN (op : Byte) : Py Int :=
  if op = OP_0 then .ok 0
  else if ¬ (0x51 ≤ op.toNat ∧ op.toNat ≤ 0x60) then .error .valueError
  else .ok (op.toNat - 0x51 + 1)

/-- `CScriptOp.is_small_int`, SC:80-85. -/
def isSmallInt (op : Byte) : Bool := (decide (0x51 ≤ op.toNat) && decide (op.toNat ≤ 0x60)) || op == 0x00#8

/-- What scripts are built from and iterated to: a `CScriptOp`, a (plain) integer, or bytes. -/
inductive Item where
  | op (o : Byte)
  | int (n : Int)
  | data (d : Bytes)
deriving DecidableEq, Repr

/-- `CScript.__coerce_instance`, SC:513-527. -/
def coerceItem : Item → Py Bytes
  | .op o => .ok [o]
  | .int n =>
    if 0 ≤ n ∧ n ≤ 16 then do
      let o ← encodeOpN n
      return [o]
    else if n = -1 then .ok [OP_1NEGATE]
    else do
      let v ← bn2vch n
      encodePushdata v
  | .data d => encodePushdata d

/-- `CScript(iterable)`, SC:544-553. -/
def mkScript : List Item → Py Bytes
  | [] => .ok []
  | i :: is => do
    let a ← coerceItem i
    let b ← mkScript is
    return a ++ b

/-- `CScript.__add__`, SC:529-538. -/
def scriptAdd (s : Bytes) (i : Item) : Py Bytes := do
  let a ← coerceItem i
  return s ++ a

/-- What `raw_iter` yields: opcode, data, index. -/
structure RawOp where
  opcode : Byte
  data : Option Bytes
  idx : Nat
deriving DecidableEq, Repr

/-- The number of bytes pushed, SC:571-599, and the bytes that follow; for opcodes up to `OP_PUSHDATA4`. -/
def dataSize (op : Byte) (s : Bytes) : Py (Nat × Bytes) :=
  if op.toNat < 0x4c then .ok (op.toNat, s)
  else if op = OP_PUSHDATA1 then
    match s with
    | a :: s => .ok (a.toNat, s)
    | _ => .error .scriptInvalid
  else if op = OP_PUSHDATA2 then
    match s with
    | a :: b :: s => .ok (a.toNat + b.toNat <<< 8, s)
    | _ => .error .scriptInvalid
  else
    match s with
    | a :: b :: c :: d :: s => .ok (a.toNat + b.toNat <<< 8 + c.toNat <<< 16 + d.toNat <<< 24, s)
    | _ => .error .scriptInvalid

/-- One round of the loop of `raw_iter`, SC:565-610, on the bytes from `sop_idx` on: the opcode, its data, and the bytes
that follow. -/
def rawOp : Bytes → Py (Byte × Option Bytes × Bytes)
  | [] => .error .indexError
  | op :: s =>
    if 0x4e < op.toNat then .ok (op, none, s)
    else do
      let (n, s) ← dataSize op s
      let data := s.take n
      if data.length < n then .error .scriptInvalid
      else .ok (op, some data, s.drop n)

/-- The loop of `raw_iter`, SC:563-610: what it yields, and the exception that ends it, if any.  Every round consumes a byte, so
the number of bytes is a bound for the rounds. -/
def rawIterF : Nat → Nat → Bytes → List RawOp × Option PyErr
  | 0, _, _ => ([], none)
  | n + 1, i, s =>
    if s.length = 0 then ([], none)
    else match rawOp s with
      | .error e => ([], some e)
      | .ok (op, d, s') =>
        let r := rawIterF n (i + (s.length - s'.length)) s'
        (⟨op, d, i⟩ :: r.1, r.2)

/-- `CScript.raw_iter`, SC:555-610. -/
def rawIter (s : Bytes) : List RawOp × Option PyErr := rawIterF s.length 0 s

/-- The body of the loop of `__iter__`, SC:622-630. -/
def cook (r : RawOp) : Py Item :=
  match r.data with
  | some d => .ok (.data d)
  | none =>
    if isSmallInt r.opcode then do
      let n ← decodeOpN r.opcode
      return .int n
    else .ok (.op r.opcode)

/-- `list(script)`, by `CScript.__iter__`, SC:612-630. -/
def scriptItems (s : Bytes) : Py (List Item) := do
  let r := rawIter s
  let is ← r.1.mapM cook
  match r.2 with
  | none => return is
  | some e => .error e

/-- `CScript.is_p2sh`, SC:661-669. -/
def isP2sh (s : Bytes) : Bool :=
  s.length == 23 && s[0]? == some OP_HASH160 && s[1]? == some 0x14#8 && s[22]? == some OP_EQUAL

/-- The loop of `is_push_only`, SC:680-683; `raw_iter` raises nothing but `CScriptInvalidError`s. -/
def isPushOnly (s : Bytes) : Bool :=
  let r := rawIter s
  if r.1.any (fun o => decide (0x60 < o.opcode.toNat)) then false else r.2.isNone

/-- The tests of `has_canonical_pushes`, SC:696-713: is this op a push that could be shorter?  (Ops up to `OP_PUSHDATA4` have data;
the tests on data are made for no others.) -/
def badPush (o : RawOp) : Bool :=
  let d := o.data.getD []
  if 0x60 < o.opcode.toNat then false
  else if o.opcode.toNat < 0x4c ∧ 0 < o.opcode.toNat ∧ d.length = 1 ∧ (d.headD 0).toNat ≤ 16 then true
  else if o.opcode = OP_PUSHDATA1 ∧ d.length < 0x4c then true
  else if o.opcode = OP_PUSHDATA2 ∧ d.length ≤ 0xff then true
  else decide (o.opcode = OP_PUSHDATA4 ∧ d.length ≤ 0xffff)

/-- `CScript.has_canonical_pushes`, SC:689-717. -/
def hasCanonicalPushes (s : Bytes) : Bool :=
  let r := rawIter s
  if r.1.any badPush then false else r.2.isNone

/-- `CScript.is_unspendable`, SC:719-722. -/
def isUnspendable (s : Bytes) : Bool := s.length > 0 && s[0]? == some OP_RETURN

/-- `CScript.is_valid`, SC:724-734. -/
def isValidScript (s : Bytes) : Py Bool :=
  match scriptItems s with
  | .ok _ => .ok true
  | .error .scriptInvalid => .ok false
  | .error e => .error e

/-- `MAX_SCRIPT_ELEMENT_SIZE`, SC:35. -/
def MAX_SCRIPT_ELEMENT_SIZE : Nat := 520

/-- `CScript.to_p2sh_scriptPubKey`, SC:736-750. -/
def toP2sh (H : HashFns) (s : Bytes) (checksize : Bool) : Py Bytes :=
  if checksize = true ∧ s.length > MAX_SCRIPT_ELEMENT_SIZE then .error .valueError
  else mkScript [.op OP_HASH160, .data (H.hash160 s), .op OP_EQUAL]

/-- The loop of `GetSigOpCount`, SC:761-769.  `opcode` is an `int`, which has no method `decode_op_n` (SC:766). -/
def sigOpLoop (accurate : Bool) (n : Nat) (last : Byte) : List RawOp → Py Nat
  | [] => .ok n
  | o :: os =>
    if o.opcode = OP_CHECKSIG ∨ o.opcode = OP_CHECKSIGVERIFY then sigOpLoop accurate (n + 1) o.opcode os
    else if o.opcode = OP_CHECKMULTISIG ∨ o.opcode = OP_CHECKMULTISIGVERIFY then
      if accurate = true ∧ 0x51 ≤ last.toNat ∧ last.toNat ≤ 0x60 then .error .attributeError
      else sigOpLoop accurate (n + 20) o.opcode os
    else sigOpLoop accurate n o.opcode os

/-- `CScript.GetSigOpCount`, SC:752-770. -/
def getSigOpCount (s : Bytes) (accurate : Bool) : Py Nat := do
  let r := rawIter s
  let n ← sigOpLoop accurate 0 OP_INVALIDOPCODE r.1
  match r.2 with
  | none => return n
  | some e => .error e

/-- The loop of `FindAndDelete`, SC:788-795: `r`, `last_sop_idx` and `skip` when it ends. -/
def findAndDeleteLoop (script sig : Bytes) (r : Bytes) (last : Nat) (skip : Bool) : List RawOp → Bytes × Nat × Bool
  | [] => (r, last, skip)
  | o :: os =>
    let r := if skip then r else r ++ (script.drop last).take (o.idx - last)
    findAndDeleteLoop script sig r o.idx ((script.drop o.idx).take sig.length == sig) os

/-- `FindAndDelete`, SC:783-798. -/
def findAndDelete (script sig : Bytes) : Py Bytes :=
  let it := rawIter script
  let (r, last, skip) := findAndDeleteLoop script sig [] 0 true it.1
  match it.2 with
  | some e => .error e
  | none => .ok (if skip then r else r ++ script.drop last)

end Verif.Btc
