import Verif.Model.ScriptEval
import Verif.Model.Sha256
import Verif.Model.Block
import Verif.Model.Base58
import Verif.Model.Bloom
import Verif.Model.BtcSer
open Verif Verif.Btc
-- SHA-1
def rol (x : BitVec 32) (n : Nat) : BitVec 32 := (x <<< n) ||| (x >>> (32 - n))
def sha1 (m : Bytes) : Bytes := Id.run do
  let l := m.length
  let z := (119 - l % 64) % 64
  let p := m ++ [0x80#8] ++ List.replicate z 0#8 ++ (List.range 8).map fun i => BitVec.ofNat 8 ((l * 8) >>> (8 * (7 - i)))
  let a := p.toArray
  let mut h : BitVec 32 × BitVec 32 × BitVec 32 × BitVec 32 × BitVec 32 := (0x67452301, 0xEFCDAB89, 0x98BADCFE, 0x10325476, 0xC3D2E1F0)
  for b in [0 : a.size / 64] do
    let mut w : Array (BitVec 32) := #[]
    for t in [0:80] do
      if t < 16 then
        let g (i : Nat) := (a[b * 64 + t * 4 + i]!).setWidth 32
        w := w.push ((g 0 <<< 24) ||| (g 1 <<< 16) ||| (g 2 <<< 8) ||| g 3)
      else w := w.push (rol (w[t-3]! ^^^ w[t-8]! ^^^ w[t-14]! ^^^ w[t-16]!) 1)
    let mut (a0, b0, c0, d0, e0) := h
    for t in [0:80] do
      let (f, k) : BitVec 32 × BitVec 32 := if t < 20 then ((b0 &&& c0) ||| (~~~b0 &&& d0), 0x5A827999)
        else if t < 40 then (b0 ^^^ c0 ^^^ d0, 0x6ED9EBA1) else if t < 60 then ((b0 &&& c0) ||| (b0 &&& d0) ||| (c0 &&& d0), 0x8F1BBCDC) else (b0 ^^^ c0 ^^^ d0, 0xCA62C1D6)
      let x := rol a0 5 + f + e0 + k + w[t]!
      e0 := d0; d0 := c0; c0 := rol b0 30; b0 := a0; a0 := x
    let (h0, h1, h2, h3, h4) := h
    h := (h0 + a0, h1 + b0, h2 + c0, h3 + d0, h4 + e0)
  let (h0, h1, h2, h3, h4) := h
  return ([h0, h1, h2, h3, h4].map Sha256.wordBytes).flatten
-- secp256k1
def fp : Nat := 2^256 - 2^32 - 977
def fn : Nat := 0xFFFFFFFFFFFFFFFFFFFFFFFFFFFFFFFEBAAEDCE6AF48A03BBFD25E8CD0364141
partial def powm (b e m : Nat) : Nat := if e = 0 then 1 else let h := powm (b * b % m) (e / 2) m; if e % 2 = 1 then h * b % m else h
partial def egcd (a m : Int) : Int × Int := Id.run do
  let mut (r0, r1, s0, s1) := (a, m, (1:Int), (0:Int))
  while r1 != 0 do
    let q := r0 / r1
    (r0, r1, s0, s1) := (r1, r0 - q * r1, s1, s0 - q * s1)
  return (r0, s0)
def inv (a m : Nat) : Nat := ((egcd (a % m) m).2 % m).toNat
abbrev Pt := Option (Nat × Nat)
def add (p q : Pt) : Pt := match p, q with
  | none, q => q
  | p, none => p
  | some (x1, y1), some (x2, y2) =>
    if x1 = x2 ∧ (y1 + y2) % fp = 0 then none
    else
      let l := if x1 = x2 then 3 * x1 * x1 * inv (2 * y1) fp % fp else ((y2 + fp - y1) * inv (x2 + fp - x1) fp) % fp
      let x3 := (l * l + 2 * fp - x1 - x2) % fp
      some (x3, (l * (x1 + fp - x3) + fp - y1) % fp)
partial def mul (k : Nat) (p : Pt) : Pt := if k = 0 then none else let h := mul (k / 2) (add p p); if k % 2 = 1 then add h p else h
def G : Pt := some (0x79BE667EF9DCBBAC55A06295CE870B07029BFCDB2DCE28D959F2815B16F81798, 0x483ADA7726A3C4655DA4FBFC0E1108A8FD17B448A68554199C47D08FFB10D4B8)
def beN (b : Bytes) : Nat := b.foldl (fun n x => 256 * n + x.toNat) 0
def point (b : Bytes) : Pt := match b with
  | [] => none
  | t :: r =>
    if (t = 2#8 ∨ t = 3#8) ∧ r.length = 32 then
      let x := beN r
      let y2 := (x * x * x + 7) % fp
      let y := powm y2 ((fp + 1) / 4) fp
      if y * y % fp ≠ y2 then none else some (x, if y % 2 = t.toNat % 2 then y else fp - y)
    else if (t = 4#8 ∨ t = 6#8 ∨ t = 7#8) ∧ r.length = 64 then
      let x := beN (r.take 32); let y := beN (r.drop 32)
      if y * y % fp = (x * x * x + 7) % fp then some (x, y) else none
    else none
def der (s : Bytes) : Option (Nat × Nat) := do
  let rd (s : Bytes) : Option (Nat × Bytes) := match s with
    | 2#8 :: l :: r => some (beN (r.take l.toNat), r.drop l.toNat)
    | _ => none
  match s with
  | 0x30#8 :: _ :: r => do
    let (a, r) ← rd r
    let (b, _) ← rd r
    return (a, b)
  | _ => none
def ecverify (pk h sig : Bytes) : Bool :=
  match point pk, der sig with
  | some p, some (r, s) =>
    if r = 0 ∨ r ≥ fn ∨ s = 0 ∨ s ≥ fn then false else
    let w := inv s fn
    match add (mul (beN h * w % fn) G) (mul (r * w % fn) (some p)) with
    | some (x, _) => x % fn == r
    | none => false
  | _, _ => false
def cr : Crypto := { H := realHash, sha1 := fun m => (sha1 m ++ List.replicate 20 0).take 20, sha1_len := fun m => by simp, verify := ecverify }
def emptyTx : CTransaction := { vin := [], vout := [], nLockTime := 0, nVersion := 1 }
def hx (s : String) : Bytes := hex (s.drop 1).toString
def ok {α} (x : Py α) : Bool := match x with | .ok _ => true | _ => false
def rejects (x : Py Unit) : Bool := match x with | .error .validation | .error .evalScript => true | _ => false
def isRaise (x : Py Unit) : String := match x with | .ok _ => "ok" | .error e => reprStr e
partial def prevs : List String → List (Bytes × Int × Bytes)
  | h :: n :: s :: r => (hx h, n.toInt!, hx s) :: prevs r
  | _ => []
def be32 (n : Nat) : Bytes := (List.range 32).map fun i => BitVec.ofNat 8 (n >>> (8 * (31 - i)))
def pub (k : CKeyArgs) : Bytes := match mul (beN k.secret) G with
  | none => []
  | some (x, y) => if k.compressed then (if y % 2 = 0 then 2#8 else 3#8) :: be32 x else 4#8 :: (be32 x ++ be32 y)
def y (s : String) : List Char := (s.drop 1).toString.toList
def strIs (r : Py B58Data) (s : List Char) : Bool := match r with | .ok d => (match strB58 realHash d with | .ok t => t == s | _ => false) | _ => false
def isB58Err {α} (r : Py α) : Bool := match r with | .error .base58 => true | _ => false
def vpk (b : Bytes) : Bool := (point b).isSome
def is [BEq α] (r : Py α) (a : α) : Bool := match r with | .ok b => a == b | _ => false
def bl (s : String) : Bool := s == "True"
def check2 (l : String) : Option Bool :=
  let H := realHash; let p := mainPrefixes
  match (l.splitOn " ") with
  | ["M", b, r] => some <| is (do let c ← deserializeAll (CBlock.deser H) (hx b); c.calcMerkleRoot H) (hx r)
  | ["A", s, b, v] => some <| match newB58 H p .address (y s) with
    | .ok d => d.bytes == hx b && d.nVersion == v.toInt! && d.cls == (if v = "0" then .p2pkh else .p2sh)
    | _ => false
  | ["FS", b, s] => some <| strIs (addrFromScript H p vpk (hx b)) (y s)
  | ["FN", b] => some <| isB58Err (addrFromScript H p vpk (hx b))
  | ["TS", s, b] => some <| is (do let d ← newB58 H p .address (y s); toScriptPubKey p d) (hx b)
  | ["NC", b, s] => some <| strIs (p2pkhFromScript H p vpk (hx b) true true) (y s) && isB58Err (p2pkhFromScript H p vpk (hx b) false true)
  | ["BC", b, s] => some <| strIs (p2pkhFromScript H p vpk (hx b) true true) (y s) && isB58Err (p2pkhFromScript H p vpk (hx b) true false)
  | ["PK", b, s] => some <| strIs (p2pkhFromPubkey H p vpk (hx b) true) (y s) && (strIs (p2pkhFromPubkey H p vpk (hx b) false) (y s) || (isB58Err (p2pkhFromPubkey H p vpk (hx b) false) && !vpk (hx b)))
  | ["SK", s, b, c] => some <| match newSecret H p (y s) with
    | .ok (_, k) => pub k == hx b && k.compressed == bl c
    | _ => false
  | ["MU", e, sd, b] => some <| is (murmurHash3 sd.toNat! (hx b)) e.toNat!
  | ["P2", b, r] => some <| isP2sh (hx b) == bl r
  | ["PO", b, r] => some <| isPushOnly (hx b) == bl r
  | ["HC", b, r] => some <| hasCanonicalPushes (hx b) == bl r
  | ["UN", b, r] => some <| isUnspendable (hx b) == bl r
  | ["VA", b, r] => some <| is (isValidScript (hx b)) (bl r)
  | ["PD", b, r] => some <| is (encodePushdata (hx b)) (hx r)
  | ["VI", n, r] => some <| is (serVarInt n.toInt!) (hx r) && is (deserializeAll deserVarInt (hx r)) n.toNat!
  | ["VD", r, n] => some <| is (deserializeAll deserVarInt (hx r)) n.toNat!
  | ["VT", r] => some <| match deserializeAll deserVarInt (hx r) with | .error .btcTrunc => true | _ => false
  | _ => none
def check (l : String) : Bool × String :=
  match (l.splitOn " ") with
  | ["S", e, a, b] =>
    let r := verifyScript cr (hx a) (hx b) emptyTx 0 [.p2sh, .other 0]
    (if e = "1" then ok r else rejects r, isRaise r)
  | ["B", e, fh, pow, t, b] =>
    let lim := (2^256-1) >>> 32
    let r : Py Unit := if fh = "1" then (do let h ← deserializeAll CBlockHeader.deser (hx b); checkBlockHeader realHash lim h (pow = "1") t.toInt!)
      else (do let h ← deserializeAll (CBlock.deser realHash) (hx b); checkBlock realHash lim h (pow = "1") true t.toInt!)
    (if e = "1" then ok r else rejects r, isRaise r)
  | "T" :: e :: x :: p2 :: ps =>
    let ps := prevs ps
    let r : Py Unit := do
      let t ← deserializeAll CTransaction.deser (hx x)
      checkTransaction t
      let _ ← t.vin.zipIdx.mapM fun (i, k) => do
        match ps.find? (fun q => q.1 == i.prevout.hash && q.2.1 == i.prevout.n) with
        | none => .error .keyError
        | some q => verifyScript cr i.scriptSig q.2.2 t k (if p2 = "1" then [.p2sh] else [])
      return ()
    (if e = "1" then ok r else rejects r, isRaise r)
  | ["E", h, s] => (String.ofList (b58encode (hx h)) == (s.drop 1).toString && (match b58decode (s.drop 1).toString.toList with | .ok b => b == hx h | _ => false), "")
  | _ => match check2 l with | some r => (r, "") | none => (l = "", "parse")
def main : IO Unit := do
  IO.println (String.ofList (Verif.Sus.b2x (sha1 (ascii3 "abc"))))
  let f := (← IO.FS.readFile "../conformance/vec.txt") ++ (← IO.FS.readFile "../conformance/vec2.txt")
  let mut n := 0
  let mut bad := 0
  for l in f.splitOn "\n" do
    let (r, m) := check l
    n := n + 1
    if !r then
      bad := bad + 1
      IO.println s!"{n} {m} {l.take 300}"
  IO.println s!"lines {n} bad {bad}"
where ascii3 (s : String) : Bytes := s.toList.map fun c => BitVec.ofNat 8 c.toNat
