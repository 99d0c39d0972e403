import Verif.Model.Script
/-!
# The syntax of scripts

A script is a sequence of operations, each written as bytes: an opcode above 0x4e stands for itself; a push is its length, in
one of four encodings, and the bytes pushed.
-/
namespace Verif.Btc
open Verif

/-- The four ways to write the length of a push: the opcode itself, or after 0x4c, 0x4d, 0x4e in 1, 2, 4 bytes. -/
inductive PushEnc where
  | direct | one | two | four
deriving DecidableEq, Repr

/-- An operation. -/
inductive Tok where
  | op (o : Byte)
  | push (e : PushEnc) (d : Bytes)
deriving DecidableEq, Repr

def Tok.Ok : Tok → Prop
  | .op o => 0x4e < o.toNat
  | .push .direct d => d.length < 0x4c
  | .push .one d => d.length < 2 ^ 8
  | .push .two d => d.length < 2 ^ 16
  | .push .four d => d.length < 2 ^ 32

instance : ∀ t : Tok, Decidable t.Ok
  | .op _ => inferInstanceAs (Decidable (_ < _))
  | .push .direct _ => inferInstanceAs (Decidable (_ < _))
  | .push .one _ => inferInstanceAs (Decidable (_ < _))
  | .push .two _ => inferInstanceAs (Decidable (_ < _))
  | .push .four _ => inferInstanceAs (Decidable (_ < _))

/-- `n` in `k` bytes, least significant first. -/
def little (k n : Nat) : Bytes := (List.range k).map fun i => BitVec.ofNat 8 (n / 256 ^ i)

def Tok.bytes : Tok → Bytes
  | .op o => [o]
  | .push .direct d => little 1 d.length ++ d
  | .push .one d => 0x4c#8 :: (little 1 d.length ++ d)
  | .push .two d => 0x4d#8 :: (little 2 d.length ++ d)
  | .push .four d => 0x4e#8 :: (little 4 d.length ++ d)

/-- The bytes of a sequence of operations. -/
def scriptOf (ts : List Tok) : Bytes := ts.flatMap Tok.bytes

def Tok.opcode : Tok → Byte
  | .op o => o
  | .push .direct d => BitVec.ofNat 8 d.length
  | .push .one _ => 0x4c#8
  | .push .two _ => 0x4d#8
  | .push .four _ => 0x4e#8

def Tok.data : Tok → Option Bytes
  | .op _ => none
  | .push _ d => some d

/-- The operations with their positions in the script, the first being at `i`. -/
def located (i : Nat) : List Tok → List RawOp
  | [] => []
  | t :: ts => ⟨t.opcode, t.data, i⟩ :: located (i + t.bytes.length) ts

/-- The operations are well-formed. -/
def WFToks (ts : List Tok) : Prop := ∀ t ∈ ts, t.Ok

instance (ts : List Tok) : Decidable (WFToks ts) := inferInstanceAs (Decidable (∀ t ∈ ts, t.Ok))

/-- The shortest push. -/
def shortest (d : Bytes) : PushEnc :=
  if d.length < 0x4c then .direct else if d.length < 2 ^ 8 then .one else if d.length < 2 ^ 16 then .two else .four

/-- An operation that pushes data or, like 0x4f–0x60, stands for such a push. -/
def Tok.isPush : Tok → Bool
  | .op o => decide (o.toNat ≤ 0x60)
  | .push _ _ => true

/-- What an operation that pushes something pushes: 0x4f the number −1, 0x51–0x60 the numbers 1–16. -/
def Tok.pushes : Tok → Option Bytes
  | .push _ d => some d
  | .op o => if o = 0x4f#8 then some [0x81#8] else if 0x51 ≤ o.toNat ∧ o.toNat ≤ 0x60 then some [BitVec.ofNat 8 (o.toNat - 0x50)] else none

/-- `t` is one of the shortest ways to push what it pushes. -/
def Tok.Minimal (t : Tok) : Prop := ∀ u : Tok, u.Ok → u.pushes = t.pushes → t.bytes.length ≤ u.bytes.length

/-- The number a byte string stands for in scripts: little-endian magnitude, the highest bit of the last byte being the sign. -/
def numOf (b : Bytes) : Int :=
  let n := ((List.range b.length).map fun i => (b.getD i 0).toNat * 256 ^ i).sum
  let half := 128 * 256 ^ (b.length - 1)
  if n < half then n else (half : Int) - n

/-- `b` is the only shortest byte string for the number `n`. -/
def ShortestNum (n : Int) (b : Bytes) : Prop := numOf b = n ∧ ∀ b', numOf b' = n → b'.length ≤ b.length → b' = b

/-- What an operation is seen as, when a script is iterated: the data of a push, the number 1–16 of 0x51–0x60, else the opcode. -/
def Tok.item : Tok → Item
  | .op o => if 0x51 ≤ o.toNat ∧ o.toNat ≤ 0x60 then .int (o.toNat - 0x50) else .op o
  | .push _ d => .data d

/-- What an item given to `CScript([...])` is, when the script is iterated.  A number from −1 to 16 has an operation of its own,
of which 0 is also the empty push; `num` is the push of any other number. -/
def Item.seen (num : Int → Bytes) : Item → Item
  | .op o => if 0x51 ≤ o.toNat ∧ o.toNat ≤ 0x60 then .int (o.toNat - 0x50) else .op o
  | .data d => .data d
  | .int n => if n = 0 then .data [] else if n = -1 then .op 0x4f#8 else if 0 < n ∧ n ≤ 16 then .int n else .data (num n)

/-- Items for which `CScript([...])` works: opcodes that are not pushes; data and numbers of less than 2^32 bytes. -/
def Item.Fits (num : Int → Bytes) : Item → Prop
  | .op o => 0x4e < o.toNat
  | .data d => d.length < 2 ^ 32
  | .int n => (num n).length < 2 ^ 32 ∧ ShortestNum n (num n)

/-- Satoshi's `FindAndDelete` (script.h of Bitcoin 0.9) for non-empty `b`: at every operation, first erase as many copies of `b` as
follow, then go on after the operation; stop, and keep the rest, where there is no operation. -/
inductive Deleted (b : Bytes) : Bytes → Bytes → Prop where
  | erase {s r} : Deleted b s r → Deleted b (b ++ s) r
  | keep {t s r} : ¬ b <+: t.bytes ++ s → Tok.Ok t → Deleted b s r → Deleted b (t.bytes ++ s) (t.bytes ++ r)
  | stop {s} : ¬ b <+: s → (∀ t r, Tok.Ok t → s ≠ t.bytes ++ r) → Deleted b s s

/-- Satoshi's `FindAndDelete` of any `b`. -/
def SatoshiDelete (b s r : Bytes) : Prop := if b = [] then r = s else Deleted b s r

/-- How Satoshi's `GetSigOpCount` counts an operation, given the one before. -/
def sigOps (accurate : Bool) (before : Option Tok) (t : Tok) : Nat :=
  if t = .op 0xac#8 ∨ t = .op 0xad#8 then 1
  else if t = .op 0xae#8 ∨ t = .op 0xaf#8 then
    match before with
    | some (.op o) => if accurate = true ∧ 0x51 ≤ o.toNat ∧ o.toNat ≤ 0x60 then o.toNat - 0x50 else 20
    | _ => 20
  else 0

/-- The sum over a sequence of operations, the one before it being `before`. -/
def sigOpSum (accurate : Bool) (before : Option Tok) : List Tok → Nat
  | [] => 0
  | t :: ts => sigOps accurate before t + sigOpSum accurate (some t) ts

/-- Some 0xae or 0xaf, which checks several signatures, comes right after an operation 0x51–0x60 that tells how many keys there are. -/
def CountedMultisig (ts : List Tok) : Prop :=
  ∃ a b o m, ts = a ++ Tok.op o :: Tok.op m :: b ∧ 0x51 ≤ o.toNat ∧ o.toNat ≤ 0x60 ∧ (m = 0xae#8 ∨ m = 0xaf#8)

end Verif.Btc
