import Verif.Py
/-!
# MurmurHash3 and Bloom filters

MurmurHash3 (x86, 32 bits) on 32-bit words, as published by its author.
-/
namespace Verif.Murmur
open Verif

abbrev Word := BitVec 32

/-- Four bytes, the first the lowest. -/
def word (a b c d : Byte) : Word := d ++ c ++ b ++ a

def mix (k : Word) : Word := (k * 0xcc9e2d51#32).rotateLeft 15 * 0x1b873593#32

def body (h k : Word) : Word := (h ^^^ mix k).rotateLeft 13 * 5#32 + 0xe6546b64#32

/-- Blocks of four bytes, then what is left, filled up with zeros. -/
def blocks (h : Word) : Bytes → Word
  | a :: b :: c :: d :: rest => blocks (body h (word a b c d)) rest
  | [a, b, c] => h ^^^ mix (word a b c 0#8)
  | [a, b] => h ^^^ mix (word a b 0#8 0#8)
  | [a] => h ^^^ mix (word a 0#8 0#8 0#8)
  | [] => h

def final (h : Word) : Word :=
  let h := (h ^^^ h >>> 16) * 0x85ebca6b#32
  let h := (h ^^^ h >>> 13) * 0xc2b2ae35#32
  h ^^^ h >>> 16

def hash (seed : Word) (data : Bytes) : Word := final (blocks seed data ^^^ BitVec.ofNat 32 data.length)

end Verif.Murmur

namespace Verif.Bloom
open Verif

/-- Bit `n` of a bit field. -/
def bit (v : Bytes) (n : Nat) : Bool := (v.getD (n / 8) 0#8).getLsbD (n % 8)

/-- The bits that stand for `data` in a filter of `size` bytes with `k` hash functions: function `i` has the seed
`i · 0xFBA4C795 + tweak`. -/
def bits (size k : Nat) (tweak : Int) (data : Bytes) : List Nat :=
  (List.range k).map fun i : Nat => (Murmur.hash (BitVec.ofInt 32 ((i : Int) * 0xFBA4C795 + tweak)) data).toNat % (8 * size)

end Verif.Bloom
