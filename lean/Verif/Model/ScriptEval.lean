import Verif.Model.SigHash
/-!
# Model of lib/python-bitcoinlib/bitcoin/core/scripteval.py

`SE` abbreviates `lib/python-bitcoinlib/bitcoin/core/scripteval.py`.

Simplifications: the verification of a signature by libssl (`CECKey.set_pubkey`, `CECKey.verify`, bitcoin/core/key.py:69-71, 109-111),
SHA-1 and the other hashes are parameters; the transaction is immutable; what is left on the caller's stack by an exception is not
modelled, nor is the state stored in exceptions; only the class of an exception matters, `EvalScriptError` stands for its subclasses.
A Python list used as a stack is a list with the top at the end.
-/
namespace Verif.Btc
open Verif

/-- What the interpreter takes from elsewhere: hash functions and `CECKey.verify` after `set_pubkey`. -/
structure Crypto where
  H : HashFns
  sha1 : Bytes → Bytes
  sha1_len : ∀ m, (sha1 m).length = 20
  /-- public key, hash, signature -/
  verify : Bytes → Bytes → Bytes → Bool

/-- `MAX_SCRIPT_SIZE`, SC:33. -/
def MAX_SCRIPT_SIZE : Nat := 10000
/-- `MAX_SCRIPT_OPCODES`, SC:35. -/
def MAX_SCRIPT_OPCODES : Nat := 201
/-- `MAX_NUM_SIZE`, SE:39. -/
def MAX_NUM_SIZE : Nat := 4
/-- `MAX_STACK_ITEMS`, SE:40. -/
def MAX_STACK_ITEMS : Nat := 1000

/-! ## Python lists as stacks -/

/-- `stack[-n]`, for a positive `n`. -/
def neg (s : List Bytes) (n : Nat) : Py Bytes :=
  if 0 < n ∧ n ≤ s.length then
    match s[s.length - n]? with
    | some x => .ok x
    | none => .error .indexError
  else .error .indexError

/-- `stack[-n] = x`, for a positive `n`. -/
def setNeg (s : List Bytes) (n : Nat) (x : Bytes) : Py (List Bytes) :=
  if 0 < n ∧ n ≤ s.length then .ok (s.set (s.length - n) x) else .error .indexError

/-- `del stack[-n]`, for a positive `n`. -/
def delNeg (s : List Bytes) (n : Nat) : Py (List Bytes) :=
  if 0 < n ∧ n ≤ s.length then .ok (s.eraseIdx (s.length - n)) else .error .indexError

/-- `stack.pop()` -/
def pop (s : List Bytes) : Py (Bytes × List Bytes) :=
  match s.getLast? with
  | some x => .ok (x, s.dropLast)
  | none => .error .indexError

/-- `stack.insert(len(stack) - n, x)`, for `n` up to `len(stack)`. -/
def insertBelow (s : List Bytes) (n : Nat) (x : Bytes) : List Bytes := s.take (s.length - n) ++ x :: s.drop (s.length - n)

/-- `check_args`, SE:384-386, and the checks like it. -/
def checkArgs (s : List Bytes) (n : Nat) : Py Unit := if s.length < n then .error .evalScript else .ok ()

/-! ## Values -/

/-- `_CastToBigNum`, SE:99-103. -/
def castToBigNum (s : Bytes) : Py Int := do
  let v ← vch2bn s
  if s.length > MAX_NUM_SIZE then .error .evalScript
  else match v with
    | some v => .ok v
    | none => .error .typeError

/-- `_CastToBool`, SE:105-114. -/
def castToBool : Bytes → Bool
  | [] => false
  | b :: bs =>
    if b ≠ 0#8 then (if bs = [] ∧ b = 0x80#8 then false else true)
    else castToBool bs

/-- The values pushed for truth and falsehood, SE:199-202, SE:483-487, SE:520-523, SE:657-660. -/
def vBool (b : Bool) : Bytes := if b then [0x01#8] else [0x00#8]

/-! ## Operations on the stack only -/

/-- `_ISA_UNOP`, SE:206-213. -/
def isaUnop : List Nat := [0x8b, 0x8c, 0x8f, 0x90, 0x91, 0x92]

/-- The arithmetic in `_UnaryOp`, SE:221-241: `OP_1ADD`, `OP_1SUB`, `OP_NEGATE`, `OP_ABS`, `OP_NOT`, `OP_0NOTEQUAL`. -/
def unary (o : Nat) (bn : Int) : Py Int :=
  match o with
  | 0x8b => .ok (bn + 1)
  | 0x8c => .ok (bn - 1)
  | 0x8f => .ok (-bn)
  | 0x90 => .ok (if bn < 0 then -bn else bn)
  | 0x91 => .ok (if bn = 0 then 1 else 0)
  | 0x92 => .ok (if bn ≠ 0 then 1 else 0)
  | _ => .error .assertion

/-- `_UnaryOp`, SE:215-243. -/
def unaryOp (o : Nat) (s : List Bytes) : Py (List Bytes) := do
  checkArgs s 1
  let bn ← castToBigNum (← neg s 1)
  let (_, s) ← pop s
  let bn ← unary o bn
  return s ++ [← bn2vch bn]

/-- `_ISA_BINOP`, SE:247-261. -/
def isaBinop : List Nat := [0x93, 0x94, 0x9a, 0x9b, 0x9c, 0x9d, 0x9e, 0x9f, 0xa0, 0xa1, 0xa2, 0xa3, 0xa4]

/-- The arithmetic in `_BinOp`, SE:273-326, but for `OP_NUMEQUALVERIFY`: `OP_ADD`, `OP_SUB`, `OP_BOOLAND`, `OP_BOOLOR`, `OP_NUMEQUAL`,
`OP_NUMNOTEQUAL`, `OP_LESSTHAN`, `OP_GREATERTHAN`, `OP_LESSTHANOREQUAL`, `OP_GREATERTHANOREQUAL`, `OP_MIN`, `OP_MAX`. -/
def binary (o : Nat) (bn1 bn2 : Int) : Py Int :=
  match o with
  | 0x93 => .ok (bn1 + bn2)
  | 0x94 => .ok (bn1 - bn2)
  | 0x9a => .ok (if bn1 ≠ 0 ∧ bn2 ≠ 0 then 1 else 0)
  | 0x9b => .ok (if bn1 ≠ 0 ∨ bn2 ≠ 0 then 1 else 0)
  | 0x9c => .ok (if bn1 = bn2 then 1 else 0)
  | 0x9e => .ok (if bn1 ≠ bn2 then 1 else 0)
  | 0x9f => .ok (if bn1 < bn2 then 1 else 0)
  | 0xa0 => .ok (if bn1 > bn2 then 1 else 0)
  | 0xa1 => .ok (if bn1 ≤ bn2 then 1 else 0)
  | 0xa2 => .ok (if bn1 ≥ bn2 then 1 else 0)
  | 0xa3 => .ok (if bn1 < bn2 then bn1 else bn2)
  | 0xa4 => .ok (if bn1 > bn2 then bn1 else bn2)
  | _ => .error .assertion

/-- `_BinOp`, SE:263-330. -/
def binOp (o : Nat) (s : List Bytes) : Py (List Bytes) := do
  checkArgs s 2
  let bn2 ← castToBigNum (← neg s 1)
  let bn1 ← castToBigNum (← neg s 2)
  if o = 0x9d then
    if bn1 = bn2 then do
      let (_, s) ← pop s
      let (_, s) ← pop s
      return s
    else .error .evalScript
  else do
    let bn ← binary o bn1 bn2
    let (_, s) ← pop s
    let (_, s) ← pop s
    return s ++ [← bn2vch bn]

/-- The branches of SE:411-660 that use the main stack only, by opcode. -/
def plainOp (C : Crypto) (o : Nat) (s : List Bytes) : Py (List Bytes) :=
  match o with
  | 0x6d => do  -- OP_2DROP, SE:411-414
    checkArgs s 2
    let (_, s) ← pop s
    let (_, s) ← pop s
    return s
  | 0x6e => do  -- OP_2DUP, SE:416-421
    checkArgs s 2
    let v1 ← neg s 2
    let v2 ← neg s 1
    return s ++ [v1] ++ [v2]
  | 0x70 => do  -- OP_2OVER, SE:423-428
    checkArgs s 4
    let v1 ← neg s 4
    let v2 ← neg s 3
    return s ++ [v1] ++ [v2]
  | 0x71 => do  -- OP_2ROT, SE:430-437
    checkArgs s 6
    let v1 ← neg s 6
    let v2 ← neg s 5
    let s ← delNeg s 6
    let s ← delNeg s 5
    return s ++ [v1] ++ [v2]
  | 0x72 => do  -- OP_2SWAP, SE:439-447
    checkArgs s 4
    let tmp ← neg s 4
    let s ← setNeg s 4 (← neg s 2)
    let s ← setNeg s 2 tmp
    let tmp ← neg s 3
    let s ← setNeg s 3 (← neg s 1)
    setNeg s 1 tmp
  | 0x6f => do  -- OP_3DUP, SE:449-456
    checkArgs s 3
    let v1 ← neg s 3
    let v2 ← neg s 2
    let v3 ← neg s 1
    return s ++ [v1] ++ [v2] ++ [v3]
  | 0x74 => do  -- OP_DEPTH, SE:492-494
    return s ++ [← bn2vch s.length]
  | 0x75 => do  -- OP_DROP, SE:496-498
    checkArgs s 1
    let (_, s) ← pop s
    return s
  | 0x76 => do  -- OP_DUP, SE:500-503
    checkArgs s 1
    let v ← neg s 1
    return s ++ [v]
  | 0x87 => do  -- OP_EQUAL, SE:515-523
    checkArgs s 2
    let (v1, s) ← pop s
    let (v2, s) ← pop s
    return s ++ [vBool (v1 == v2)]
  | 0x88 => do  -- OP_EQUALVERIFY, SE:525-534
    checkArgs s 2
    let v1 ← neg s 1
    let v2 ← neg s 2
    if v1 == v2 then do
      let (_, s) ← pop s
      let (_, s) ← pop s
      return s
    else .error .evalScript
  | 0xa9 => do  -- OP_HASH160, SE:542-544
    checkArgs s 1
    let (v, s) ← pop s
    return s ++ [C.H.hash160 v]
  | 0xaa => do  -- OP_HASH256, SE:546-548
    checkArgs s 1
    let (v, s) ← pop s
    return s ++ [C.H.hash256 v]
  | 0x73 => do  -- OP_IFDUP, SE:563-567
    checkArgs s 1
    let v ← neg s 1
    return (if castToBool v then s ++ [v] else s)
  | 0x77 => do  -- OP_NIP, SE:569-571
    checkArgs s 2
    delNeg s 2
  | 0x61 => .ok s  -- OP_NOP, SE:573-574
  | 0x78 => do  -- OP_OVER, SE:576-579
    checkArgs s 2
    let v ← neg s 2
    return s ++ [v]
  | 0x79 => do  -- OP_PICK, SE:581-589
    checkArgs s 2
    let (v, s) ← pop s
    let n ← castToBigNum v
    if n < 0 ∨ n ≥ s.length then .error .evalScript
    else do
      let v ← neg s (n.toNat + 1)
      return s ++ [v]
  | 0x7a => do  -- OP_ROLL, SE:581-589
    checkArgs s 2
    let (v, s) ← pop s
    let n ← castToBigNum v
    if n < 0 ∨ n ≥ s.length then .error .evalScript
    else do
      let v ← neg s (n.toNat + 1)
      let s ← delNeg s (n.toNat + 1)
      return s ++ [v]
  | 0x6a => .error .evalScript  -- OP_RETURN, SE:591-592
  | 0xa6 => do  -- OP_RIPEMD160, SE:594-599
    checkArgs s 1
    let (v, s) ← pop s
    return s ++ [C.H.ripemd160 v]
  | 0x7b => do  -- OP_ROT, SE:601-609
    checkArgs s 3
    let tmp ← neg s 3
    let s ← setNeg s 3 (← neg s 2)
    let s ← setNeg s 2 tmp
    let tmp ← neg s 2
    let s ← setNeg s 2 (← neg s 1)
    setNeg s 1 tmp
  | 0x82 => do  -- OP_SIZE, SE:611-614
    checkArgs s 1
    let v ← neg s 1
    return s ++ [← bn2vch v.length]
  | 0xa7 => do  -- OP_SHA1, SE:616-618
    checkArgs s 1
    let (v, s) ← pop s
    return s ++ [C.sha1 v]
  | 0xa8 => do  -- OP_SHA256, SE:620-622
    checkArgs s 1
    let (v, s) ← pop s
    return s ++ [C.H.sha256 v]
  | 0x7c => do  -- OP_SWAP, SE:624-628
    checkArgs s 2
    let tmp ← neg s 2
    let s ← setNeg s 2 (← neg s 1)
    setNeg s 1 tmp
  | 0x7d => do  -- OP_TUCK, SE:635-638
    checkArgs s 2
    let v ← neg s 1
    return insertBelow s 2 v
  | 0x69 => do  -- OP_VERIFY, SE:640-646
    checkArgs s 1
    let v ← neg s 1
    if castToBool v then do
      let (_, s) ← pop s
      return s
    else .error .evalScript
  | 0xa5 => do  -- OP_WITHIN, SE:648-660
    checkArgs s 3
    let bn3 ← castToBigNum (← neg s 1)
    let bn2 ← castToBigNum (← neg s 2)
    let bn1 ← castToBigNum (← neg s 3)
    let (_, s) ← pop s
    let (_, s) ← pop s
    let (_, s) ← pop s
    return s ++ [vBool (decide (bn2 ≤ bn1) && decide (bn1 < bn3))]
  | _ => if 0xb0 ≤ o ∧ o ≤ 0xb9 then .ok s  -- OP_NOP1 ... OP_NOP10, SE:573-574
    else .error .evalScript  -- SE:662-663

/-- SE:401-409 and the branches after it that use the main stack only. -/
def stackOp (C : Crypto) (o : Nat) (s : List Bytes) : Py (List Bytes) :=
  if o = 0x4f ∨ (0x51 ≤ o ∧ o ≤ 0x60) then do
    return s ++ [← bn2vch ((o : Int) - 0x50)]
  else if o ∈ isaBinop then binOp o s
  else if o ∈ isaUnop then unaryOp o s
  else plainOp C o s

/-! ## Signatures -/

/-- `_CheckSig`, SE:116-134. -/
def checkSig (C : Crypto) (sig pubkey script : Bytes) (txTo : CTransaction) (inIdx : Int) : Py Bool :=
  match sig.getLast? with
  | none => .ok false
  | some hashtype => do
    let (h, _) ← rawSignatureHash C.H script txTo inIdx hashtype.toNat
    return C.verify pubkey h sig.dropLast

/-- `FindAndDelete(script, CScript([sig]))`, SE:172, SE:472. -/
def dropSig (script sig : Bytes) : Py Bytes := do
  let d ← mkScript [.data sig]
  findAndDelete script d

/-- The loop SE:170-172, over the remaining values of `k`. -/
def dropSigs (s : List Bytes) (isig : Nat) : List Nat → Bytes → Py Bytes
  | [], script => .ok script
  | k :: ks, script => do
    let sig ← neg s (isig + k)
    dropSigs s isig ks (← dropSig script sig)

/-- The loop SE:176-192: `sigs_count` and `keys_count` are the last two arguments; the result is `success`.  There are never more
signatures than keys at the start of a round, so the second case does not arise. -/
def multiSigLoop (C : Crypto) (s : List Bytes) (script : Bytes) (txTo : CTransaction) (inIdx : Int) : Nat → Nat → Nat → Nat → Py Bool
  | _, _, 0, _ => .ok true
  | _, _, _ + 1, 0 => .ok false
  | isig, ikey, sigs + 1, keys + 1 => do
    let sig ← neg s isig
    let pubkey ← neg s ikey
    let ok ← checkSig C sig pubkey script txTo inIdx
    if (if ok then sigs else sigs + 1) > keys then .ok false
    else if ok then multiSigLoop C s script txTo inIdx (isig + 1) (ikey + 1) sigs keys
    else multiSigLoop C s script txTo inIdx isig (ikey + 1) (sigs + 1) keys

/-- `stack.pop()`, `n` times. -/
def popN : Nat → List Bytes → Py (List Bytes)
  | 0, s => .ok s
  | n + 1, s => do
    let (_, s) ← pop s
    popN n s

/-- `_CheckMultiSig`, SE:137-202; returns the stack and the new `nOpCount`. -/
def checkMultiSig (C : Crypto) (o : Nat) (script : Bytes) (s : List Bytes) (txTo : CTransaction) (inIdx : Int) (nOp : Nat) :
    Py (List Bytes × Nat) := do
  checkArgs s 1
  let keys ← castToBigNum (← neg s 1)
  if keys < 0 ∨ keys > 20 then .error .evalScript
  else do
    let i := 2 + keys.toNat
    let nOp := nOp + keys.toNat
    if nOp > MAX_SCRIPT_OPCODES then .error .evalScript
    else do
      checkArgs s i
      let sigs ← castToBigNum (← neg s i)
      if sigs < 0 ∨ sigs > keys then .error .evalScript
      else do
        let isig := i + 1
        let i := i + 1 + sigs.toNat
        checkArgs s (i - 1)
        checkArgs s i
        let script ← dropSigs s isig (List.range sigs.toNat) script
        let success ← multiSigLoop C s script txTo inIdx isig 2 sigs.toNat keys.toNat
        if success = false ∧ o = 0xaf then .error .evalScript
        else do
          let s ← popN i s
          return (if o = 0xae then s ++ [vBool success] else s, nOp)

/-! ## Evaluation -/

/-- The stack and the local variables of `_EvalScript`, SE:353-356. -/
structure EvalState where
  stack : List Bytes
  alt : List Bytes
  exec : List Bool
  begin_ : Nat
  nOp : Nat
deriving DecidableEq, Repr

/-- `DISABLED_OPCODES`, SC:488-491. -/
def disabled : List Nat := [0x65, 0x66, 0x7e, 0x7f, 0x80, 0x81, 0x83, 0x84, 0x85, 0x86, 0x8d, 0x8e, 0x95, 0x96, 0x97, 0x98, 0x99]

/-- `_CheckExec`, SE:333-337. -/
def checkExec (l : List Bool) : Bool := l.all id

/-- The operations SE:401-663; `fExec` was found before. -/
def evalOp (C : Crypto) (script : Bytes) (txTo : CTransaction) (inIdx : Int) (fExec : Bool) (r : RawOp) (st : EvalState) : Py EvalState :=
  let o := r.opcode.toNat
  if o = 0xae ∨ o = 0xaf then do  -- OP_CHECKMULTISIG, OP_CHECKMULTISIGVERIFY, SE:458-460
    let (s, n) ← checkMultiSig C o (script.drop st.begin_) st.stack txTo inIdx st.nOp
    return { st with stack := s, nOp := n }
  else if o = 0xac ∨ o = 0xad then do  -- OP_CHECKSIG, OP_CHECKSIGVERIFY, SE:462-487
    checkArgs st.stack 2
    let pubkey ← neg st.stack 1
    let sig ← neg st.stack 2
    let code ← dropSig (script.drop st.begin_) sig
    let ok ← checkSig C sig pubkey code txTo inIdx
    if ok = false ∧ o = 0xad then .error .evalScript
    else do
      let (_, s) ← pop st.stack
      let (_, s) ← pop s
      return { st with stack := if ok then (if o ≠ 0xad then s ++ [vBool true] else s) else s ++ [vBool false] }
  else if o = 0xab then .ok { st with begin_ := r.idx }  -- OP_CODESEPARATOR, SE:489-490
  else if o = 0x67 then  -- OP_ELSE, SE:505-508
    match st.exec.getLast? with
    | none => .error .evalScript
    | some b => .ok { st with exec := st.exec.dropLast ++ [!b] }
  else if o = 0x68 then  -- OP_ENDIF, SE:510-513
    if st.exec.length = 0 then .error .evalScript else .ok { st with exec := st.exec.dropLast }
  else if o = 0x6c then  -- OP_FROMALTSTACK, SE:536-540
    if st.alt.length < 1 then .error .evalScript
    else do
      let (v, a) ← pop st.alt
      return { st with stack := st.stack ++ [v], alt := a }
  else if o = 0x63 ∨ o = 0x64 then  -- OP_IF, OP_NOTIF, SE:550-560
    if fExec then do
      checkArgs st.stack 1
      let (v, s) ← pop st.stack
      return { st with stack := s, exec := st.exec ++ [if o = 0x64 then !castToBool v else castToBool v] }
    else .ok { st with exec := st.exec ++ [false] }
  else if o = 0x6b then do  -- OP_TOALTSTACK, SE:630-633
    checkArgs st.stack 1
    let (v, s) ← pop st.stack
    return { st with stack := s, alt := st.alt ++ [v] }
  else do
    let s ← stackOp C o st.stack
    return { st with stack := s }

/-- SE:665-667. -/
def sizeLimits (st : EvalState) : Py EvalState :=
  if st.stack.length + st.alt.length > MAX_STACK_ITEMS then .error .evalScript else .ok st

/-- One round of the loop SE:357-667. -/
def evalStep (C : Crypto) (script : Bytes) (txTo : CTransaction) (inIdx : Int) (st : EvalState) (r : RawOp) : Py EvalState :=
  let fExec := checkExec st.exec
  let o := r.opcode.toNat
  if o ∈ disabled then .error .evalScript
  else
    let st := if o > 0x60 then { st with nOp := st.nOp + 1 } else st
    if o > 0x60 ∧ st.nOp > MAX_SCRIPT_OPCODES then .error .evalScript
    else if o ≤ 0x4e then
      match r.data with
      | none => .error .typeError  -- raw_iter gives data for these
      | some d =>
        if d.length > MAX_SCRIPT_ELEMENT_SIZE then .error .evalScript
        else if fExec then .ok { st with stack := st.stack ++ [d] }  -- `continue`, SE:397
        else sizeLimits st
    else if fExec ∨ (0x63 ≤ o ∧ o ≤ 0x68) then do
      let st ← evalOp C script txTo inIdx fExec r st
      sizeLimits st
    else sizeLimits st

/-- The loop SE:357-667. -/
def evalLoop (C : Crypto) (script : Bytes) (txTo : CTransaction) (inIdx : Int) : List RawOp → EvalState → Py EvalState
  | [], st => .ok st
  | r :: rs, st => do
    let st ← evalStep C script txTo inIdx st r
    evalLoop C script txTo inIdx rs st

/-- `_EvalScript`, SE:340-676; returns the stack. -/
def evalScriptRaw (C : Crypto) (stack : List Bytes) (script : Bytes) (txTo : CTransaction) (inIdx : Int) : Py (List Bytes) := do
  if script.length > MAX_SCRIPT_SIZE then .error .evalScript
  else do
    let r := rawIter script
    let st ← evalLoop C script txTo inIdx r.1 ⟨stack, [], [], 0, 0⟩
    match r.2 with
    | some e => .error e
    | none => if st.exec.length ≠ 0 then .error .evalScript else return st.stack

/-- `EvalScript`, SE:679-697. -/
def evalScript (C : Crypto) (stack : List Bytes) (script : Bytes) (txTo : CTransaction) (inIdx : Int) : Py (List Bytes) :=
  match evalScriptRaw C stack script txTo inIdx with
  | .error .scriptInvalid => .error .evalScript
  | r => r

/-- The flags are objects without state, told apart by identity.  Both script.py (SC:773-776) and scripteval.py (SE:42-45, after importing
the others) make their own. -/
inductive Flag where
  | p2sh            -- scripteval.SCRIPT_VERIFY_P2SH
  | scriptP2sh      -- script.SCRIPT_VERIFY_P2SH
  | other (n : Nat) -- the others, which nothing looks at
deriving DecidableEq, Repr

/-- The checks of the top of the stack, SE:717-720, 736-740. -/
def topTrue (s : List Bytes) : Py Unit :=
  match s.getLast? with
  | none => .error .validation
  | some v => if castToBool v = false then .error .validation else .ok ()

/-- `VerifyScript`, SE:702-740. -/
def verifyScript (C : Crypto) (scriptSig scriptPubKey : Bytes) (txTo : CTransaction) (inIdx : Int) (flags : List Flag) : Py Unit := do
  let stack1 ← evalScript C [] scriptSig txTo inIdx
  let stack2 ← evalScript C stack1 scriptPubKey txTo inIdx
  topTrue stack2
  if Flag.p2sh ∈ flags ∧ isP2sh scriptPubKey = true then
    if isPushOnly scriptSig = false then .error .validation
    else do
      pyAssert (decide (stack1.length ≠ 0))
      let (pubKey2, stack1) ← pop stack1
      let stack3 ← evalScript C stack1 pubKey2 txTo inIdx
      topTrue stack3
  else return ()

/-- `VerifySignature`, SE:746-768.  `n` of an outpoint is not negative. -/
def verifySignature (C : Crypto) (txFrom txTo : CTransaction) (inIdx : Int) : Py Unit := do
  if inIdx < 0 then .error .validation
  else match txTo.vin[inIdx.toNat]? with
    | none => .error .validation
    | some txin =>
      if txin.prevout.n < 0 then .error .validation
      else match txFrom.vout[txin.prevout.n.toNat]? with
        | none => .error .validation
        | some txout => do
          let h ← txFrom.getHash C.H
          if txin.prevout.hash ≠ h then .error .validation
          else verifyScript C txin.scriptSig txout.scriptPubKey txTo inIdx []

end Verif.Btc
