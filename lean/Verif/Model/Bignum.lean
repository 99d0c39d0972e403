import Verif.Model.BtcSer
/-!
# Model of lib/python-bitcoinlib/bitcoin/core/_bignum.py

`BN` abbreviates `lib/python-bitcoinlib/bitcoin/core/_bignum.py`.
-/
namespace Verif.Btc
open Verif

/-- `int.bit_length()` of CPython. -/
def bitLength (v : Int) : Nat := if v = 0 then 0 else v.natAbs.log2 + 1

/-- `bn_bytes`, BN:23-27. -/
def bnBytes (v : Int) (haveExt : Bool) : Nat := (bitLength v + 7) / 8 + (if haveExt then 1 else 0)

/-- The loop BN:32-34, for a non-negative `v`. -/
def bn2binLoop (v : Nat) : Nat → Bytes
  | 0 => []
  | i + 1 => BitVec.ofNat 8 ((v >>> (i * 8)) % 256) :: bn2binLoop v i

/-- `bn2bin`, BN:29-35, for a non-negative `v` (the only use, BN:57). -/
def bn2bin (v : Nat) : Bytes := bn2binLoop v (bnBytes v false)

/-- `bin2bn`, BN:37-41. -/
def bin2bn (s : Bytes) : Nat := s.foldl (fun l ch => (l <<< 8) ||| ch.toNat) 0

/-- `v_bin[0] |= 0x80`, BN:62. -/
def setSign : Bytes → Py Bytes
  | [] => .error .indexError
  | b :: bs => .ok ((b ||| 0x80#8) :: bs)

/-- `bn2mpi`, BN:43-63.  `struct.pack('>I', n)` is the reverse of `struct.pack('<I', n)`. -/
def bn2mpi (v : Int) : Py Bytes := do
  let haveExt := decide (0 < bitLength v) && decide (bitLength v &&& 7 = 0)
  let s ← packU 4 (bnBytes v.natAbs haveExt)
  let vBin := bn2bin v.natAbs
  if v < 0 then
    if haveExt then return s.reverse ++ [0x80#8] ++ vBin
    else do
      let vBin ← setSign vBin
      return s.reverse ++ vBin
  else return s.reverse ++ (if haveExt then [0x00#8] else []) ++ vBin

/-- `mpi2bn`, BN:65-87. -/
def mpi2bn (s : Bytes) : Option Int :=
  if s.length < 4 then none
  else if s.length ≠ leNat (s.take 4).reverse + 4 then none
  else match s.drop 4 with
    | [] => some 0
    | i :: bs =>
      if i &&& 0x80#8 ≠ 0#8 then some (-(bin2bn ((i &&& 0x7f#8) :: bs) : Nat))
      else some (bin2bn (i :: bs) : Nat)

/-- `mpi2vch`, BN:90-93. -/
def mpi2vch (s : Bytes) : Bytes := (s.drop 4).reverse

/-- `bn2vch`, BN:95-96. -/
def bn2vch (v : Int) : Py Bytes := do
  let m ← bn2mpi v
  return mpi2vch m

/-- `vch2mpi`, BN:98-101. -/
def vch2mpi (s : Bytes) : Py Bytes := do
  let r ← packU 4 s.length
  return r.reverse ++ s.reverse

/-- `vch2bn`, BN:103-104. -/
def vch2bn (s : Bytes) : Py (Option Int) := do
  let m ← vch2mpi s
  return mpi2bn m

end Verif.Btc
