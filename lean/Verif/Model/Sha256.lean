import Verif.Model.Serialize
/-!
# SHA-256 (FIPS 180-4) and RIPEMD-160

The model and every theorem take the hash functions as parameters (`HashFns`).  This file gives the real ones, so that
concrete cases can be stated with the actual functions, and the digests written down in the repository and its tests
can be compared with what the model computes.  Not part of the repository: `hashlib`.
-/
namespace Verif

namespace Sha256

/-- FIPS 180-4 §4.2.2. -/
def K : List (BitVec 32) :=
  [0x428a2f98#32, 0x71374491#32, 0xb5c0fbcf#32, 0xe9b5dba5#32, 0x3956c25b#32, 0x59f111f1#32, 0x923f82a4#32, 0xab1c5ed5#32,
   0xd807aa98#32, 0x12835b01#32, 0x243185be#32, 0x550c7dc3#32, 0x72be5d74#32, 0x80deb1fe#32, 0x9bdc06a7#32, 0xc19bf174#32,
   0xe49b69c1#32, 0xefbe4786#32, 0x0fc19dc6#32, 0x240ca1cc#32, 0x2de92c6f#32, 0x4a7484aa#32, 0x5cb0a9dc#32, 0x76f988da#32,
   0x983e5152#32, 0xa831c66d#32, 0xb00327c8#32, 0xbf597fc7#32, 0xc6e00bf3#32, 0xd5a79147#32, 0x06ca6351#32, 0x14292967#32,
   0x27b70a85#32, 0x2e1b2138#32, 0x4d2c6dfc#32, 0x53380d13#32, 0x650a7354#32, 0x766a0abb#32, 0x81c2c92e#32, 0x92722c85#32,
   0xa2bfe8a1#32, 0xa81a664b#32, 0xc24b8b70#32, 0xc76c51a3#32, 0xd192e819#32, 0xd6990624#32, 0xf40e3585#32, 0x106aa070#32,
   0x19a4c116#32, 0x1e376c08#32, 0x2748774c#32, 0x34b0bcb5#32, 0x391c0cb3#32, 0x4ed8aa4a#32, 0x5b9cca4f#32, 0x682e6ff3#32,
   0x748f82ee#32, 0x78a5636f#32, 0x84c87814#32, 0x8cc70208#32, 0x90befffa#32, 0xa4506ceb#32, 0xbef9a3f7#32, 0xc67178f2#32]

/-- FIPS 180-4 §5.3.3. -/
def H0 : List (BitVec 32) := [0x6a09e667#32, 0xbb67ae85#32, 0x3c6ef372#32, 0xa54ff53a#32, 0x510e527f#32, 0x9b05688c#32, 0x1f83d9ab#32, 0x5be0cd19#32]

/-- Four bytes, big endian. -/
def word (a b c d : Byte) : BitVec 32 := BitVec.ofNat 32 (((a.toNat * 256 + b.toNat) * 256 + c.toNat) * 256 + d.toNat)

def words : Bytes → List (BitVec 32)
  | a :: b :: c :: d :: rest => word a b c d :: words rest
  | _ => []

def wordBytes (w : BitVec 32) : Bytes :=
  [BitVec.ofNat 8 (w.toNat / 16777216), BitVec.ofNat 8 (w.toNat / 65536), BitVec.ofNat 8 (w.toNat / 256),
   BitVec.ofNat 8 w.toNat]

def rotr (x : BitVec 32) (n : Nat) : BitVec 32 := (x >>> n) ||| (x <<< (32 - n))

/-- One step of the message schedule (§6.2.2, 1), on the last sixteen words, newest last. -/
def nextW : List (BitVec 32) → BitVec 32
  | [w16, w15, _, _, _, _, _, _, _, w7, _, _, _, _, w2, _] =>
    let s0 := rotr w15 7 ^^^ rotr w15 18 ^^^ (w15 >>> 3)
    let s1 := rotr w2 17 ^^^ rotr w2 19 ^^^ (w2 >>> 10)
    w16 + s0 + w7 + s1
  | _ => 0

/-- The rounds (§6.2.2, 3): constants left, sixteen words of schedule, working variables. -/
def rounds : List (BitVec 32) → List (BitVec 32) → List (BitVec 32) → List (BitVec 32)
  | k :: ks, w :: ws, [a, b, c, d, e, f, g, h] =>
    let t1 := h + (rotr e 6 ^^^ rotr e 11 ^^^ rotr e 25) + ((e &&& f) ^^^ (~~~e &&& g)) + k + w
    let t2 := (rotr a 2 ^^^ rotr a 13 ^^^ rotr a 22) + ((a &&& b) ^^^ (a &&& c) ^^^ (b &&& c))
    rounds ks (ws ++ [nextW (w :: ws)]) [t1 + t2, a, b, c, d + t1, e, f, g]
  | _, _, v => v

def compress (h : List (BitVec 32)) (block : Bytes) : List (BitVec 32) :=
  List.zipWith (· + ·) h (rounds K (words block) h)

/-- §5.1.1: a one bit, zeros, and the bit length as 64 bits. -/
def pad (m : Bytes) : Bytes :=
  let n := m.length
  let l := 8 * n
  m ++ [0x80#8] ++ List.replicate ((119 - n % 64) % 64) 0#8 ++
    [BitVec.ofNat 8 (l >>> 56), BitVec.ofNat 8 (l >>> 48), BitVec.ofNat 8 (l >>> 40), BitVec.ofNat 8 (l >>> 32),
     BitVec.ofNat 8 (l >>> 24), BitVec.ofNat 8 (l >>> 16), BitVec.ofNat 8 (l >>> 8), BitVec.ofNat 8 l]

/-- Process `n` 64-byte blocks. -/
def blocks (f : List (BitVec 32) → Bytes → List (BitVec 32)) : Nat → List (BitVec 32) → Bytes → List (BitVec 32)
  | 0, h, _ => h
  | n + 1, h, m => blocks f n (f h (m.take 64)) (m.drop 64)

def hash (m : Bytes) : Bytes :=
  let p := pad m
  (blocks compress (p.length / 64) H0 p).flatMap wordBytes

theorem rounds_length : ∀ (ks ws v : List (BitVec 32)), v.length = 8 → (rounds ks ws v).length = 8
  | [], _, v, h => by unfold rounds; exact h
  | _ :: _, [], v, h => by unfold rounds; exact h
  | k :: ks, w :: ws, [a, b, c, d, e, f, g, h'], _ => by
    unfold rounds
    exact rounds_length ks _ _ rfl

theorem compress_length {h : List (BitVec 32)} (hh : h.length = 8) (m : Bytes) : (compress h m).length = 8 := by
  unfold compress
  rw [List.length_zipWith, rounds_length _ _ _ hh, hh]; rfl

theorem blocks_length {f : List (BitVec 32) → Bytes → List (BitVec 32)} {k : Nat}
    (hf : ∀ h m, h.length = k → (f h m).length = k) :
    ∀ (n : Nat) (h : List (BitVec 32)) (m : Bytes), h.length = k → (blocks f n h m).length = k
  | 0, _, _, hh => hh
  | n + 1, h, _, hh => blocks_length hf n _ _ (hf h _ hh)

theorem flatMap_length {g : BitVec 32 → Bytes} (hg : ∀ w, (g w).length = 4) (l : List (BitVec 32)) :
    (l.flatMap g).length = 4 * l.length := by
  induction l with
  | nil => rfl
  | cons w l ih => rw [List.flatMap_cons, List.length_append, hg, ih, List.length_cons]; omega

theorem hash_length (m : Bytes) : (hash m).length = 32 := by
  unfold hash
  rw [flatMap_length (fun _ => rfl), blocks_length (fun h m hh => compress_length hh m) _ _ _ rfl]

end Sha256

namespace Ripemd160
open Sha256 (blocks)

/-- (message word, rotation) of the 80 steps of the left and of the right line. -/
def left : List (Nat × Nat) :=
  [(0, 11), (1, 14), (2, 15), (3, 12), (4, 5), (5, 8), (6, 7), (7, 9), (8, 11), (9, 13),
   (10, 14), (11, 15), (12, 6), (13, 7), (14, 9), (15, 8), (7, 7), (4, 6), (13, 8), (1, 13),
   (10, 11), (6, 9), (15, 7), (3, 15), (12, 7), (0, 12), (9, 15), (5, 9), (2, 11), (14, 7),
   (11, 13), (8, 12), (3, 11), (10, 13), (14, 6), (4, 7), (9, 14), (15, 9), (8, 13), (1, 15),
   (2, 14), (7, 8), (0, 13), (6, 6), (13, 5), (11, 12), (5, 7), (12, 5), (1, 11), (9, 12),
   (11, 14), (10, 15), (0, 14), (8, 15), (12, 9), (4, 8), (13, 9), (3, 14), (7, 5), (15, 6),
   (14, 8), (5, 6), (6, 5), (2, 12), (4, 9), (0, 15), (5, 5), (9, 11), (7, 6), (12, 8),
   (2, 13), (10, 12), (14, 5), (1, 12), (3, 13), (8, 14), (11, 11), (6, 8), (15, 5), (13, 6)]
def right : List (Nat × Nat) :=
  [(5, 8), (14, 9), (7, 9), (0, 11), (9, 13), (2, 15), (11, 15), (4, 5), (13, 7), (6, 7),
   (15, 8), (8, 11), (1, 14), (10, 14), (3, 12), (12, 6), (6, 9), (11, 13), (3, 15), (7, 7),
   (0, 12), (13, 8), (5, 9), (10, 11), (14, 7), (15, 7), (8, 12), (12, 7), (4, 6), (9, 15),
   (1, 13), (2, 11), (15, 9), (5, 7), (1, 15), (3, 11), (7, 8), (14, 6), (6, 6), (9, 14),
   (11, 12), (8, 13), (12, 5), (2, 14), (10, 13), (0, 13), (4, 7), (13, 5), (8, 15), (6, 5),
   (4, 8), (1, 11), (3, 14), (11, 14), (15, 6), (0, 14), (5, 6), (12, 9), (2, 12), (13, 9),
   (9, 12), (7, 5), (10, 15), (14, 8), (12, 8), (15, 5), (10, 12), (4, 9), (1, 12), (5, 5),
   (8, 14), (7, 6), (6, 8), (2, 13), (13, 6), (14, 5), (0, 15), (3, 13), (9, 11), (11, 11)]

def leWords : Bytes → List (BitVec 32)
  | a :: b :: c :: d :: rest => Sha256.word d c b a :: leWords rest
  | _ => []

def leWordBytes (w : BitVec 32) : Bytes := (Sha256.wordBytes w).reverse

def rol (x : BitVec 32) (n : Nat) : BitVec 32 := (x <<< n) ||| (x >>> (32 - n))

/-- The five boolean functions. -/
def f : Nat → BitVec 32 → BitVec 32 → BitVec 32 → BitVec 32
  | 0, x, y, z => x ^^^ y ^^^ z
  | 1, x, y, z => (x &&& y) ||| (~~~x &&& z)
  | 2, x, y, z => (x ||| ~~~y) ^^^ z
  | 3, x, y, z => (x &&& z) ||| (y &&& ~~~z)
  | _, x, y, z => x ^^^ (y ||| ~~~z)

/-- One line: step number, steps left, function of the round, constant of the round. -/
def line (X : List (BitVec 32)) (fn : Nat → Nat) (kk : Nat → BitVec 32) :
    Nat → List (Nat × Nat) → List (BitVec 32) → List (BitVec 32)
  | j, (r, s) :: steps, [a, b, c, d, e] =>
    let t := rol (a + f (fn (j / 16)) b c d + X.getD r 0 + kk (j / 16)) s + e
    line X fn kk (j + 1) steps [e, t, b, rol c 10, d]
  | _, _, v => v

def kLeft (r : Nat) : BitVec 32 := [0x00000000#32, 0x5a827999#32, 0x6ed9eba1#32, 0x8f1bbcdc#32, 0xa953fd4e#32].getD r 0
def kRight (r : Nat) : BitVec 32 := [0x50a28be6#32, 0x5c4dd124#32, 0x6d703ef3#32, 0x7a6d76e9#32, 0x00000000#32].getD r 0

def compress (h : List (BitVec 32)) (block : Bytes) : List (BitVec 32) :=
  let X := leWords block
  match h, line X id kLeft 0 left h, line X (4 - ·) kRight 0 right h with
  | [h0, h1, h2, h3, h4], [a, b, c, d, e], [a', b', c', d', e'] =>
    [h1 + c + d', h2 + d + e', h3 + e + a', h4 + a + b', h0 + b + c']
  | _, _, _ => h

def pad (m : Bytes) : Bytes :=
  let n := m.length
  let l := 8 * n
  m ++ [0x80#8] ++ List.replicate ((119 - n % 64) % 64) 0#8 ++
    [BitVec.ofNat 8 l, BitVec.ofNat 8 (l >>> 8), BitVec.ofNat 8 (l >>> 16), BitVec.ofNat 8 (l >>> 24),
     BitVec.ofNat 8 (l >>> 32), BitVec.ofNat 8 (l >>> 40), BitVec.ofNat 8 (l >>> 48), BitVec.ofNat 8 (l >>> 56)]

def hash (m : Bytes) : Bytes :=
  let p := pad m
  (blocks compress (p.length / 64) [0x67452301#32, 0xefcdab89#32, 0x98badcfe#32, 0x10325476#32, 0xc3d2e1f0#32] p).flatMap
    leWordBytes

theorem compress_length {h : List (BitVec 32)} (hh : h.length = 5) (m : Bytes) : (compress h m).length = 5 := by
  unfold compress
  simp only
  split
  · rfl
  · exact hh

theorem hash_length (m : Bytes) : (hash m).length = 20 := by
  unfold hash
  rw [Sha256.flatMap_length (fun _ => rfl), Sha256.blocks_length (fun h m hh => compress_length hh m) _ _ _ rfl]

end Ripemd160

/-- The hash functions of `hashlib`. -/
def realHash : HashFns where
  sha256 := Sha256.hash
  sha256_len := Sha256.hash_length
  ripemd160 := Ripemd160.hash
  ripemd160_len := Ripemd160.hash_length

/-- Reading hexadecimal constants in examples. -/
def hexDigit (c : Char) : Nat :=
  if '0' ≤ c ∧ c ≤ '9' then c.toNat - '0'.toNat
  else if 'a' ≤ c ∧ c ≤ 'f' then c.toNat - 'a'.toNat + 10
  else 0
def hexBytes : List Char → Bytes
  | a :: b :: rest => BitVec.ofNat 8 (hexDigit a * 16 + hexDigit b) :: hexBytes rest
  | _ => []
def hex (s : String) : Bytes := hexBytes s.toList

-- FIPS 180-4 test vectors: "", "abc", and the two-block message.
example : Sha256.hash [] = hex "e3b0c44298fc1c149afbf4c8996fb92427ae41e4649b934ca495991b7852b855" := by decide +kernel
example : Sha256.hash [0x61, 0x62, 0x63] = hex "ba7816bf8f01cfea414140de5dae2223b00361a396177a9cb410ff61f20015ad" := by
  decide +kernel
example : Sha256.hash ("abcdbcdecdefdefgefghfghighijhijkijkljklmklmnlmnomnopnopq".toList.map fun c => BitVec.ofNat 8 c.toNat) =
    hex "248d6a61d20638b8e5c026930c3e6039a33ce45964ff2167f6ecedd419db06c1" := by decide +kernel
-- RIPEMD-160: "" and "abc".
example : Ripemd160.hash [] = hex "9c1185a5c5e9fc54612808977ee8f548b2258d31" := by decide +kernel
example : Ripemd160.hash [0x61, 0x62, 0x63] = hex "8eb208f7e05d987a9b044a8e98c6b087f15a0bfc" := by decide +kernel

end Verif
