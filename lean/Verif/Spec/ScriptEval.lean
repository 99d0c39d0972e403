import Verif.Spec.SigHash
import Verif.Model.ScriptEval
/-!
# What scripts do

The script language, as documented for the Satoshi client: a script is a tree of operations and conditionals; an operation takes
values from the top of a stack and leaves others.  Stacks are written with the top first.
-/
namespace Verif.Btc
open Verif

/-- The language: the functions it uses, the shortest byte strings of numbers, what stands for falsehood, and whether the number of
values is limited after a push as after any other operation. -/
structure Lang where
  C : Crypto
  num : Int → Bytes
  num_spec : ∀ n, n.natAbs < 2 ^ 63 → ShortestNum n (num n)
  ff : Bytes
  strict : Bool

/-- A value is false if it stands for 0. -/
def Truthy (b : Bytes) : Prop := numOf b ≠ 0

instance (b : Bytes) : Decidable (Truthy b) := inferInstanceAs (Decidable (_ ≠ _))

/-- Numbers that are used have at most four bytes. -/
def arg (b : Bytes) : Option Int := if b.length ≤ 4 then some (numOf b) else none

namespace Lang

/-- What stands for a truth value. -/
def bool (L : Lang) (b : Prop) [Decidable b] : Bytes := if b then [0x01#8] else L.ff

/-- 1 or 0 -/
def bit (b : Prop) [Decidable b] : Int := if b then 1 else 0

/-- An operation on one number. -/
def un (L : Lang) (f : Int → Int) : List Bytes → Option (List Bytes)
  | a :: s => do
    let x ← arg a
    some (L.num (f x) :: s)
  | _ => none

/-- An operation on two numbers, the first of them below the second. -/
def bin (L : Lang) (f : Int → Int → Int) : List Bytes → Option (List Bytes)
  | b :: a :: s => do
    let y ← arg b
    let x ← arg a
    some (L.num (f x y) :: s)
  | _ => none

/-- The operations on the stack, by their opcodes. -/
def effect (L : Lang) (o : Nat) (s : List Bytes) : Option (List Bytes) :=
  match o with
  -- numbers
  | 0x4f => some (L.num (-1) :: s)
  | 0x51 => some (L.num 1 :: s)
  | 0x52 => some (L.num 2 :: s)
  | 0x53 => some (L.num 3 :: s)
  | 0x54 => some (L.num 4 :: s)
  | 0x55 => some (L.num 5 :: s)
  | 0x56 => some (L.num 6 :: s)
  | 0x57 => some (L.num 7 :: s)
  | 0x58 => some (L.num 8 :: s)
  | 0x59 => some (L.num 9 :: s)
  | 0x5a => some (L.num 10 :: s)
  | 0x5b => some (L.num 11 :: s)
  | 0x5c => some (L.num 12 :: s)
  | 0x5d => some (L.num 13 :: s)
  | 0x5e => some (L.num 14 :: s)
  | 0x5f => some (L.num 15 :: s)
  | 0x60 => some (L.num 16 :: s)
  -- NOP, VERIFY
  | 0x61 => some s
  | 0x69 => match s with | a :: s => if Truthy a then some s else none | _ => none
  -- 2DROP, 2DUP, 3DUP, 2OVER, 2ROT, 2SWAP
  | 0x6d => match s with | _ :: _ :: s => some s | _ => none
  | 0x6e => match s with | b :: a :: s => some (b :: a :: b :: a :: s) | _ => none
  | 0x6f => match s with | c :: b :: a :: s => some (c :: b :: a :: c :: b :: a :: s) | _ => none
  | 0x70 => match s with | d :: c :: b :: a :: s => some (b :: a :: d :: c :: b :: a :: s) | _ => none
  | 0x71 => match s with | f :: e :: d :: c :: b :: a :: s => some (b :: a :: f :: e :: d :: c :: s) | _ => none
  | 0x72 => match s with | d :: c :: b :: a :: s => some (b :: a :: d :: c :: s) | _ => none
  -- IFDUP, DEPTH, DROP, DUP, NIP, OVER, PICK, ROLL, ROT, SWAP, TUCK
  | 0x73 => match s with | a :: s => some (if Truthy a then a :: a :: s else a :: s) | _ => none
  | 0x74 => some (L.num s.length :: s)
  | 0x75 => match s with | _ :: s => some s | _ => none
  | 0x76 => match s with | a :: s => some (a :: a :: s) | _ => none
  | 0x77 => match s with | b :: _ :: s => some (b :: s) | _ => none
  | 0x78 => match s with | b :: a :: s => some (a :: b :: a :: s) | _ => none
  | 0x79 => match s with
    | a :: s => do
      let n ← arg a
      if n < 0 then none else (s[n.toNat]?).map (· :: s)
    | _ => none
  | 0x7a => match s with
    | a :: s => do
      let n ← arg a
      if n < 0 then none else (s[n.toNat]?).map (· :: (s.take n.toNat ++ s.drop (n.toNat + 1)))
    | _ => none
  | 0x7b => match s with | c :: b :: a :: s => some (a :: c :: b :: s) | _ => none
  | 0x7c => match s with | b :: a :: s => some (a :: b :: s) | _ => none
  | 0x7d => match s with | b :: a :: s => some (b :: a :: b :: s) | _ => none
  -- SIZE, EQUAL, EQUALVERIFY
  | 0x82 => match s with | a :: s => some (L.num a.length :: a :: s) | _ => none
  | 0x87 => match s with | b :: a :: s => some (L.bool (a = b) :: s) | _ => none
  | 0x88 => match s with | b :: a :: s => if a = b then some s else none | _ => none
  -- 1ADD, 1SUB, NEGATE, ABS, NOT, 0NOTEQUAL
  | 0x8b => L.un (fun x => x + 1) s
  | 0x8c => L.un (fun x => x - 1) s
  | 0x8f => L.un (fun x => -x) s
  | 0x90 => L.un (fun x => (x.natAbs : Int)) s
  | 0x91 => L.un (fun x => bit (x = 0)) s
  | 0x92 => L.un (fun x => bit (x ≠ 0)) s
  -- ADD, SUB, BOOLAND, BOOLOR, NUMEQUAL, NUMEQUALVERIFY, NUMNOTEQUAL, LESSTHAN, GREATERTHAN, LESSTHANOREQUAL, GREATERTHANOREQUAL, MIN, MAX, WITHIN
  | 0x93 => L.bin (fun x y => x + y) s
  | 0x94 => L.bin (fun x y => x - y) s
  | 0x9a => L.bin (fun x y => bit (x ≠ 0 ∧ y ≠ 0)) s
  | 0x9b => L.bin (fun x y => bit (x ≠ 0 ∨ y ≠ 0)) s
  | 0x9c => L.bin (fun x y => bit (x = y)) s
  | 0x9d => match s with
    | b :: a :: s => do
      let y ← arg b
      let x ← arg a
      if x = y then some s else none
    | _ => none
  | 0x9e => L.bin (fun x y => bit (x ≠ y)) s
  | 0x9f => L.bin (fun x y => bit (x < y)) s
  | 0xa0 => L.bin (fun x y => bit (y < x)) s
  | 0xa1 => L.bin (fun x y => bit (x ≤ y)) s
  | 0xa2 => L.bin (fun x y => bit (y ≤ x)) s
  | 0xa3 => L.bin (fun x y => min x y) s
  | 0xa4 => L.bin (fun x y => max x y) s
  | 0xa5 => match s with
    | c :: b :: a :: s => do
      let hi ← arg c
      let lo ← arg b
      let x ← arg a
      some (L.bool (lo ≤ x ∧ x < hi) :: s)
    | _ => none
  -- RIPEMD160, SHA1, SHA256, HASH160, HASH256
  | 0xa6 => match s with | a :: s => some (L.C.H.ripemd160 a :: s) | _ => none
  | 0xa7 => match s with | a :: s => some (L.C.sha1 a :: s) | _ => none
  | 0xa8 => match s with | a :: s => some (L.C.H.sha256 a :: s) | _ => none
  | 0xa9 => match s with | a :: s => some (L.C.H.ripemd160 (L.C.H.sha256 a) :: s) | _ => none
  | 0xaa => match s with | a :: s => some (L.C.H.sha256 (L.C.H.sha256 a) :: s) | _ => none
  -- NOP1 … NOP10; every other operation (RETURN among them) fails
  | _ => if 0xb0 ≤ o ∧ o ≤ 0xb9 then some s else none

end Lang

/-! ## Signatures -/

/-- A transaction whose numbers, scripts and lists have sizes that can be serialized. -/
structure TxFits (t : CTransaction) : Prop where
  valid : t.Valid
  version : -(2 ^ 31) ≤ t.nVersion ∧ t.nVersion < 2 ^ 31
  values : ∀ o ∈ t.vout, -(2 ^ 63) ≤ o.nValue ∧ o.nValue < 2 ^ 63
  scripts : ∀ o ∈ t.vout, o.scriptPubKey.length ≤ MAX_SIZE
  ins : t.vin.length < 2 ^ 64
  outs : t.vout.length < 2 ^ 64

/-- What is signed for the input at `i` of `t` with hash type `ty`, where the script is `code`. -/
def digest (H : HashFns) (code : List Tok) (t : CTransaction) (i : Nat) (ty : Nat) : Bytes :=
  if t.vin.length ≤ i ∨ SigSingle ty ∧ t.vout.length ≤ i then 0x01#8 :: List.replicate 31 0x00#8
  else match (sigView (codeOf code) t i ty).ser with
    | .ok b => H.sha256 (H.sha256 (b ++ little 4 ty))
    | .error _ => []

/-- A signature in a script is a signature of the key followed by the hash type. -/
def goodSig (C : Crypto) (t : CTransaction) (i : Nat) (code : List Tok) (sig key : Bytes) : Bool :=
  match sig.getLast? with
  | none => false
  | some ty => C.verify key (digest C.H code t i ty.toNat) sig.dropLast

/-- A script without the pushes of some signatures. -/
def without (sigs : List Bytes) (code : List Tok) : List Tok := code.filter fun t => ¬ ∃ d ∈ sigs, t = .push (shortest d) d

/-- All ways to leave out some members of a list. -/
def choices : List Bytes → List (List Bytes)
  | [] => [[]]
  | x :: l => choices l ++ (choices l).map (x :: ·)

/-- There are keys, in the order of the signatures, that the signatures belong to. -/
def matching (good : Bytes → Bytes → Bool) (sigs keys : List Bytes) : Bool :=
  (choices keys).any fun ks => ks.length == sigs.length && (sigs.zip ks).all fun p => good p.1 p.2

/-! ## Programs -/

/-- The state: the stack, the other stack, how many operations there were, and the operations after the last executed 0xab. -/
structure St where
  main : List Bytes
  alt : List Bytes
  count : Nat
  code : List Tok

/-- 0xae and 0xaf, which take: the number of keys, the keys, the number of signatures, the signatures, one more value. -/
def multisig (L : Lang) (t : CTransaction) (i : Nat) (verify : Bool) (st : St) : Option St :=
  match st.main with
  | nb :: s => do
    let n ← arg nb
    if n < 0 ∨ 20 < n ∨ 201 < st.count + n.toNat then none
    else match s.drop n.toNat with
      | mb :: s' => do
        let m ← arg mb
        if m < 0 ∨ n < m then none
        else match s'.drop m.toNat with
          | _ :: s'' =>
            let sigs := s'.take m.toNat
            let ok := matching (goodSig L.C t i (without sigs st.code)) sigs (s.take n.toNat)
            if verify then if ok then some { st with main := s'', count := st.count + n.toNat } else none
            else some { st with main := L.bool (ok = true) :: s'', count := st.count + n.toNat }
          | [] => none
      | [] => none
  | [] => none

/-- An operation that is executed; `after` are the operations after it. -/
def perform (L : Lang) (t : CTransaction) (i : Nat) (after : List Tok) (st : St) : Tok → Option St
  | .push _ d => some { st with main := d :: st.main }
  | .op o =>
    if o = 0xae#8 then multisig L t i false st
    else if o = 0xaf#8 then multisig L t i true st
    else if o = 0xac#8 then
      match st.main with
      | key :: sig :: s => some { st with main := L.bool (goodSig L.C t i (without [sig] st.code) sig key = true) :: s }
      | _ => none
    else if o = 0xad#8 then
      match st.main with
      | key :: sig :: s => if goodSig L.C t i (without [sig] st.code) sig key = true then some { st with main := s } else none
      | _ => none
    else if o = 0xab#8 then some { st with code := after }
    else if o = 0x6b#8 then
      match st.main with
      | a :: s => some { st with main := s, alt := a :: st.alt }
      | [] => none
    else if o = 0x6c#8 then
      match st.alt with
      | a :: s => some { st with main := a :: st.main, alt := s }
      | [] => none
    else (L.effect o.toNat st.main).map fun s => { st with main := s }

/-- Operations that make a script fail even where they are not executed: VERIF, VERNOTIF, CAT, SUBSTR, LEFT, RIGHT, INVERT, AND, OR, XOR, 2MUL, 2DIV,
MUL, DIV, MOD, LSHIFT, RSHIFT. -/
def Forbidden (o : Byte) : Prop :=
  (0x65 ≤ o.toNat ∧ o.toNat ≤ 0x66) ∨ (0x7e ≤ o.toNat ∧ o.toNat ≤ 0x81) ∨ (0x83 ≤ o.toNat ∧ o.toNat ≤ 0x86) ∨
  (0x8d ≤ o.toNat ∧ o.toNat ≤ 0x8e) ∨ (0x95 ≤ o.toNat ∧ o.toNat ≤ 0x99)

instance (o : Byte) : Decidable (Forbidden o) := by unfold Forbidden; infer_instance

/-- What is counted and checked at any operation, executed or not: at most 201 operations that are no pushes; pushes of at most 520 bytes. -/
def tick (st : St) : Tok → Option St
  | .push _ d => if d.length ≤ 520 then some st else none
  | .op o =>
    if Forbidden o then none
    else if o.toNat ≤ 0x60 then some st
    else if st.count < 201 then some { st with count := st.count + 1 } else none

/-- There are at most 1000 values. -/
def limit (st : St) : Option St := if st.main.length + st.alt.length ≤ 1000 then some st else none

/-- `limit`, but not after a push of the less strict language. -/
def limitAfter (L : Lang) (st : St) : Tok → Option St
  | .push _ _ => if L.strict then limit st else some st
  | .op _ => limit st

/-- Scripts as trees.  In the body of a conditional, `els` switches between the operations to be executed and those to be skipped;
it may occur more than once. -/
inductive Prog where
  | done
  | op (t : Tok) (rest : Prog)
  | els (rest : Prog)
  | cond (neg : Bool) (body rest : Prog)

namespace Prog

/-- `OP_IF`, `OP_NOTIF` -/
def ifTok (neg : Bool) : Tok := .op (if neg then 0x64#8 else 0x63#8)
/-- `OP_ELSE` -/
def elseTok : Tok := .op 0x67#8
/-- `OP_ENDIF` -/
def endTok : Tok := .op 0x68#8

/-- The operations of a tree. -/
def toks : Prog → List Tok
  | .done => []
  | .op t r => t :: r.toks
  | .els r => elseTok :: r.toks
  | .cond neg b r => ifTok neg :: (b.toks ++ endTok :: r.toks)

/-- `els` occurs in bodies of conditionals only (`inner` tells whether this is one), and the four operations of conditionals are not written
as `op`. -/
def WF (inner : Bool) : Prog → Prop
  | .done => True
  | .op t r => t.Ok ∧ t ≠ ifTok false ∧ t ≠ ifTok true ∧ t ≠ elseTok ∧ t ≠ endTok ∧ r.WF inner
  | .els r => inner = true ∧ r.WF inner
  | .cond _ b r => b.WF true ∧ r.WF inner

/-- What a script does, `k` being the operations after it; `go` tells whether the conditional around it is executed, `x` whether this part of it is chosen. -/
def run (L : Lang) (t : CTransaction) (i : Nat) : Prog → (k : List Tok) → (go x : Bool) → St → Option St
  | .done, _, _, _, st => some st
  | .op u r, k, go, x, st => do
    let st ← tick st u
    let st ← if go && x then (perform L t i (r.toks ++ k) st u).bind fun st => limitAfter L st u else limit st
    r.run L t i k go x st
  | .els r, k, go, x, st => do
    let st ← tick st elseTok
    let st ← limit st
    r.run L t i k go (!x) st
  | .cond neg b r, k, go, x, st => do
    let st ← tick st (ifTok neg)
    let (st, y) ← if go && x then (match st.main with
      | v :: s => some ({ st with main := s }, xor neg (decide (Truthy v)))
      | [] => none) else some (st, false)
    let st ← limit st
    let st ← b.run L t i (endTok :: (r.toks ++ k)) (go && x) y st
    let st ← tick st endTok
    let st ← limit st
    r.run L t i k go x st

/-- What a script leaves of a stack. -/
def eval (L : Lang) (t : CTransaction) (i : Nat) (p : Prog) (s : List Bytes) : Option (List Bytes) :=
  if (scriptOf p.toks).length ≤ 10000 then (p.run L t i [] true true ⟨s, [], 0, p.toks⟩).map St.main else none

end Prog

/-- The language of the Satoshi client: falsehood is the empty value. -/
def satoshi (C : Crypto) (num : Int → Bytes) (h : ∀ n, n.natAbs < 2 ^ 63 → ShortestNum n (num n)) : Lang := ⟨C, num, h, [], true⟩

/-- The language of this library: falsehood is a zero byte, and the number of values is not limited after pushes. -/
def here (C : Crypto) (num : Int → Bytes) (h : ∀ n, n.natAbs < 2 ^ 63 → ShortestNum n (num n)) : Lang := ⟨C, num, h, [0x00#8], false⟩

end Verif.Btc
