import Verif.Model.MbProof
import Verif.Model.GuMap
import Verif.Model.Seal
import Verif.Model.Bits
import Verif.Model.Classes
-- The unit tests of proofmarshal and proofchains, translated line by line.
open Verif Verif.Btc
def H := realHash
def mmrTag := hex "738b5a85d6f148739c21300a01166f1d"
def mbTag := hex "2bb60984048641abaad6bd5b1586bd14"
def u64 : PrimTy := .uint 0xffffffffffffffff
def digest2bits : PVal → Py (List Bool)
  | .bytes b => do let x ← Bits.fromBytes b none; x.iter
  | _ => .error .typeError
def T : Table := ((testClasses H).withMmr H 20 mmrTag (.prim u64)).withMb H 30 mbTag (.fixed 32) (.prim u64)
def G : Table := classes H intGuMap
def i (n : Int) : HVal := .prim (.int n)
def run (x : HM Bool) : Bool := match x {} with | (.ok b, _) => b | _ => false
/-- Does it raise exactly this? -/
def raises {α} (e : PyErr) (x : HM α) : HM Bool := fun s => match x s with
  | (.error e', s') => (.ok (e == e'), s')
  | (.ok _, s') => (.ok false, s')
def att (r k : Nat) : HM Nat := do match ← Prf.getAttr T r k with | .ref c => return c | _ => HM.fail .other
def isv (r k : Nat) (n : Int) : HM Bool := do return (← Prf.getAttr T r k) == i n
def foo (n : Int) : HM Nat := Prf.new T 0 [i n]
def bar (l r n : Int) : HM Nat := do
  let a ← foo l
  let b ← foo r
  Prf.new T 1 [.ref a, .ref b, i n]
def serIs (r : Nat) (b : Bytes) : HM Bool := do return (← Prf.serialize T H r) == b
def fl (r : Nat) : HM (Bool × Bool) := do let o ← HM.obj r; return (o.isPruned, o.isFullyPruned)
def rep (n : Nat) (b : Byte) : Bytes := List.replicate n b
def all (l : List (HM Bool)) : HM Bool := l.foldlM (fun a x => do let b ← x; return a && b) true
def proofTests : List (String × HM Bool) := [
  ("hash", do let a ← foo 1; let b ← foo 1; let c ← foo 2; return (← Prf.eq T H a b) && !(← Prf.eq T H a c)),
  ("pruning", do
    let b ← bar 1 2 3
    let l ← att b 0; let r ← att b 1
    let x ← isv l 0 1; let y ← isv r 0 2; let z ← isv b 2 3
    let p ← Prf.prune T b
    let f ← fl p
    let _ ← Prf.hash T H p
    let g ← fl p
    let _ ← att p 1; let _ ← att p 1
    let h ← fl p
    return x && y && z && f == (true, true) && g == (true, true) && h == (true, false)),
  ("unpruned_serialization", do serIs (← foo 0xf) (hex "000f")),
  ("unpruned_deserialization", do let r ← Prf.deserialize T 0 (hex "000f"); return (← isv r 0 0xf) && (← fl r) == (false, false)),
  ("fully_pruned_serialization", do
    let p ← Prf.prune T (← foo 0xf)
    let b ← Prf.serialize T H p
    return b == 0xff#8 :: (← Prf.dataHash T H p)),
  ("fully_pruned_deserialization", do
    let r ← Prf.deserialize T 0 (0xff#8 :: rep 32 0)
    return (← fl r) == (true, true) && (← Prf.dataHash T H r) == rep 32 0),
  ("pruned_serialization", do
    let f1 ← foo 1; let f2 ← foo 2
    let b0 ← Prf.new T 1 [.ref f1, .ref f2, i 3]
    let b ← Prf.prune T b0
    let a ← fl b
    let x ← isv b 2 3
    let d1 ← Prf.dataHash T H f1; let d2 ← Prf.dataHash T H f2
    let e1 := [0x00#8, 0xff#8] ++ d1 ++ [0xff#8] ++ d2 ++ [0x03#8]
    let y ← serIs b e1
    let z := (← Prf.hash T H (← att b 0)) == (← Prf.hash T H f1)
    let w ← serIs b e1
    let n ← isv (← att b 0) 0 1
    let v ← serIs b ([0x00#8, 0x00#8, 0x01#8, 0xff#8] ++ d2 ++ [0x03#8])
    return a == (true, true) && x && y && z && w && n && v),
  ("pruned_deserialization", do
    let b ← Prf.deserialize T 1 ([0x00#8, 0xff#8] ++ rep 32 0x11 ++ [0xff#8] ++ rep 32 0x22 ++ [0x03#8])
    let x := (← fl b) == (true, false) && (← fl (← att b 0)) == (true, true) && (← fl (← att b 1)) == (true, true) && (← isv b 2 3)
    let b ← Prf.deserialize T 1 ([0x00#8, 0x00#8, 0x01#8, 0xff#8] ++ rep 32 0x22 ++ [0x03#8])
    let y := (← fl b) == (true, false) && (← fl (← att b 0)) == (false, false) && (← isv (← att b 0) 0 1) && (← fl (← att b 1)) == (true, true) && (← isv b 2 3)
    return x && y),
  ("PrunedError", do
    let b ← Prf.deserialize T 1 (← Prf.serialize T H (← Prf.prune T (← bar 1 2 3)))
    raises .pruned (att b 0)),
  ("VarProof checkinstance", do
    let e ← Prf.new T 3 []; let l ← Prf.new T 4 [i 0]; let n ← Prf.new T 5 [.ref e, .ref e]
    let _ ← Prf.checkVal T (.proof 2) (.ref e); let _ ← Prf.checkVal T (.proof 2) (.ref l); let _ ← Prf.checkVal T (.proof 2) (.ref n)
    raises .serType (Prf.checkVal T (.proof 2) (.prim .other))),
  ("VarProof serialization", do
    let e ← Prf.new T 3 []; let l ← Prf.new T 4 [i 0xf]; let n ← Prf.new T 5 [.ref e, .ref l]
    all [serIs e (hex "0000"), serIs l (hex "00010f"), serIs n (hex "0002000000010f")]),
  ("VarProof deserialization", do
    let e ← Prf.new T 3 []; let l ← Prf.new T 4 [i 0xf]; let n ← Prf.new T 5 [.ref e, .ref l]
    all ([(e, 3), (l, 4), (n, 5)].map fun (x, c) => do Prf.eq T H x (← Prf.deserialize T c (← Prf.serialize T H x)))),
  ("VarProof hashing", do
    let h (c : Nat) (m : Bytes) : Bytes := sha ((T c).hashtag.getD [] ++ sha m)
    let e ← Prf.new T 3 []; let l ← Prf.new T 4 [i 0xf]; let n ← Prf.new T 5 [.ref e, .ref l]
    let he := h 3 []; let hl := h 4 [0x0f]
    return (← Prf.hash T H e) == he && (← Prf.hash T H l) == hl && (← Prf.hash T H n) == h 5 (he ++ hl)),
  ("hmac_derivation", do return (T 7).hashtag == some (hex "498430c54ed18dd53f0997e0725c3407") && (T 7).hashtag != (T 2).hashtag),
  ("Union", do
    let f ← foo 1; let b ← bar 1 2 3
    let x ← Prf.new T 6 [.ref f]; let y ← Prf.new T 6 [.ref b]
    let z ← Prf.new T 6 [.ref (← Prf.prune T b)]
    let w ← raises .serType (Prf.new T 6 [.prim .other])
    let d ← Prf.dataHash T H b
    let u ← Prf.deserialize T 6 (hex "00000001"); let v ← Prf.deserialize T 6 (hex "0001000001000203"); let p ← Prf.deserialize T 6 ([0x00#8, 0x01#8, 0xff#8] ++ d)
    all [pure w, serIs x (hex "00000001"), serIs y (hex "0001000001000203"), serIs z ([0x00#8, 0x01#8, 0xff#8] ++ d),
      do Prf.eq T H f (← att u 0), do return !(← fl (← att u 0)).1, do Prf.eq T H b (← att v 0), do return !(← fl (← att v 0)).1,
      do Prf.eq T H b (← att p 0), do return (← fl (← att p 0)).2])]
where sha (b : Bytes) := realHash.sha256 b
def im (n : Nat) : HM Nat := Mmr.ofIterable 20 T H ((List.range n).map fun (k : Nat) => i k)
def mlen (r : Nat) : HM Nat := fun s => (Mmr.len 20).runM T H r s
def sl (a b : Option Int) : PySlice := ⟨a, b, none⟩
def mmrTests : List (String × HM Bool) := [
  ("empty", do
    let m ← im 0
    all ([do return (← mlen m) == 0, do return (← Mmr.toList 20 T H m) == []] ++ [0, 1, -1].map (fun k => raises .indexError (Mmr.getItem 20 T H m k))
      ++ [sl none none, sl (some 0) (some 1000), sl (some 100) (some 1000)].map fun s => do return (← Mmr.getSlice 20 T H m s) == m)),
  ("leaf", do
    let m ← im 1
    all [do return (← HM.obj m).cls == 22, do return (← mlen m) == 1, do return (← Mmr.getItem 20 T H m 0) == i 0, do return (← Mmr.getItem 20 T H m (-1)) == i 0,
      raises .indexError (Mmr.getItem 20 T H m 1), raises .indexError (Mmr.getItem 20 T H m (-2)), do return (← Mmr.getSlice 20 T H m (sl none none)) == m,
      do return (← HM.obj (← Mmr.getSlice 20 T H m (sl (some 1) none))).cls == 21, do return (← Mmr.toList 20 T H m) == [i 0]]),
  ("is_perfect_tree", all ([false, true, true, false, true, false, false, false, true, false].zipIdx.map fun (e, n) => do
    return (← (Mmr.isPerfectTree 20).runM T H (← im n)) == e)),
  ("len, iter, getitem", all ((List.range 33).map fun n => do
    let m ← im n
    let a ← mlen m
    let b ← Mmr.toList 20 T H m
    let c ← (List.range n).mapM fun (k : Nat) => Mmr.getItem 20 T H m k
    let e := (List.range n).map fun (k : Nat) => i k
    return a == n && b == e && c == e)),
  ("serialize", do
    let a ← im 0; let b ← Mmr.ofIterable 20 T H [i 0xf]; let c ← Mmr.ofIterable 20 T H [i 0xe, i 0xf]
    all [serIs a (hex "0000"), serIs b (hex "00010f"), serIs c (hex "000200010e00010f02"),
      do Prf.eq T H a (← Prf.deserialize T 20 (hex "0000")), do Prf.eq T H b (← Prf.deserialize T 20 (hex "00010f")),
      do Prf.eq T H c (← Prf.deserialize T 20 (hex "000200010e00010f02"))])]
def key (n : Nat) : PVal := .bytes (rep 32 (BitVec.ofNat 8 n))
def put (r n : Nat) : HM Nat := Merb.put 30 digest2bits T H r (key n) (i n)
def rem (r n : Nat) : HM Nat := Merb.remove 30 digest2bits T H r (key n)
def get (r : Nat) (k : PVal) : HM HVal := Merb.getItem 30 digest2bits T H r k
def plen (r : Nat) : HM Nat := do return (← (Merb.pfx 30 digest2bits).runM T H r).length
def cls (r c : Nat) : HM Bool := do return (← HM.obj r).cls == c
def keyB : PVal → Bytes
  | .bytes b => b
  | _ => []
def C : MBClass PVal Int where
  checkKey := fun _ => .ok ()
  checkValue := fun _ => .ok ()
  keyDigest := keyB
  valueDigest := fun n => writeVaruint n.toNat
  key2prefix := fun k => match digest2bits k with | .ok b => b | _ => []
  veq := (· == ·)
def mbTests : List (String × HM Bool) := [
  ("empty", do
    let m ← Prf.new T 31 []
    all [do return (← Merb.length 30 T H m) == 0, do return (← plen m) == 0, raises .keyError (get m (key 0)), raises .keyError (get m (key 0xff)),
      do return (← Merb.toList 30 T H 0 m) == [], raises .typeError (get m .other)]),
  ("put", do
    let m0 ← Prf.new T 31 []
    let m1 ← put m0 0
    let m2 ← put m1 0x0f
    let m3 ← put m2 0x2f
    let m4 ← put m3 0x3f
    all [cls m1 32, do return (← plen m1) == 256, do return (← Prf.getAttr T m1 0) == .prim (key 0), isv m1 1 0, cls m2 33, do return (← plen m2) == 4,
      do return (← Prf.getAttr T (← att m2 2) 0) == .prim (key 0x0f), do isv (← att m2 2) 1 0x0f, do return (← att m2 1) == m1,
      do return (← plen m3) == 2, do isv (← att m3 2) 1 0x2f, do return (← att m3 1) == m2, do return (← plen m4) == 2,
      do return (← att m4 1) == (← att m3 1), do return (← att (← att m4 2) 1) == (← att m3 2), do isv (← att (← att m4 2) 2) 1 0x3f]),
  ("getitem", do
    let m0 ← Prf.new T 31 []
    let (_, b) ← (List.range 32).foldlM (fun (m, ok) n => do
      let a ← (List.range n).mapM fun k => get m (key k)
      let miss ← ((List.range n).map (fun k => PVal.bytes (rep 30 (BitVec.ofNat 8 k) ++ rep 2 0xff)) ++ [key 0xff]).mapM fun k => raises .keyError (get m k)
      let m ← put m n
      return (m, ok && a == (List.range n).map (fun (k : Nat) => i k) && miss.all id)) (m0, true)
    return b),
  ("remove", do
    let m0 ← Prf.new T 31 []
    let m1 ← put m0 0
    let m2 ← put m1 0x0f
    let m3 ← put m2 0x2f
    all [raises .keyError (rem m0 0), do cls (← rem m1 0) 31, raises .keyError (rem m0 0xff), do return (← rem m2 0) == (← att m2 2),
      do return (← rem m2 0x0f) == (← att m2 1), raises .keyError (rem m2 0xff), do return (← rem m3 0x2f) == (← att m3 1),
      do return (← att (← rem m3 0) 1) == (← att (← att m3 1) 2), do return (← att (← rem m3 0) 2) == (← att m3 2),
      do return (← att (← rem m3 0x0f) 1) == (← att (← att m3 1) 1), do return (← att (← rem m3 0x0f) 2) == (← att m3 2)]),
  ("len", do
    let m0 ← Prf.new T 31 []
    let (_, b) ← (List.range 256).foldlM (fun (m, ok) n => do
      let l ← Merb.length 30 T H m
      let m ← put m n
      return (m, ok && l == n)) (m0, true)
    return b),
  ("issubset", do
    let subsets := (List.range 5).foldl (fun ls n => ls.flatMap fun l => [l, l ++ [n + 1]]) [([] : List Nat)]
    let trees ← HM.lift (subsets.mapM fun l => do return (l, ← MB.ofPairs C .empty (l.map fun n => (key n, (n : Int)))))
    return trees.all fun (l, t) => trees.all fun (l', t') => match MB.issubset C H mbTag t t' with
      | .ok b => b == l.all l'.contains
      | _ => false)]
def seal' (n : Nat) : HM Nat := Prf.new G Cls.btcSeal [.prim (.outpoint ⟨rep 32 (BitVec.ofNat 8 n), 0⟩), .prim (.bytes (rep 16 0))]
def mkWit (sv : HVal) (h : Bytes) : HM HVal := do
  match sv with
  | .ref r => do
    match ← Prf.getAttr G r 0 with
    | .prim (.outpoint o) => do
      let tx ← HM.lift (CTransaction.new [⟨o, [], 0xffffffff⟩] [⟨0, OP_RETURN :: 0x20#8 :: h⟩] 0 1)
      let tp ← Prf.new G Cls.txProof [.prim (.tx tx)]
      let a ← Prf.new G Cls.txInProof [i 0, .ref tp]
      let b ← Prf.new G Cls.txOutProof [i 0, .ref tp]
      return .ref (← Prf.new G Cls.btcWitness [.ref r, .ref a, .ref b])
    | _ => HM.fail .other
  | _ => HM.fail .other
def unused (p : List Bool) (n : Nat) : HM Nat := do Prf.new G Cls.unusedPrefix [.prim (.bits p), .ref (← seal' n)]
def verifyG (r : Nat) : HM Unit := (GuMap.verify H intGuMap).runM G H r
def sealTests : List (String × HM Bool) := [
  ("fake seal", do
    let f ← Prf.new G Cls.fakeSeal [.prim (.bytes (rep 32 0))]
    let w ← Prf.new G Cls.fakeWitness [.ref f]
    (Seal.fakeVerifyHash (rep 32 0) []).runM G H w
    raises .assertion ((Seal.fakeVerifyHash (rep 32 1) []).runM G H w)),
  ("valid witness", do
    let o : COutPoint := ⟨(hex "14180092832c9e49f36e37c2cfa6695a6670cc66dcba42266245e11c8f9de4cf").reverse, 0⟩
    let sl ← Prf.new G Cls.btcSeal [.prim (.outpoint o), .prim (.bytes (rep 16 0))]
    match ← mkWit (.ref sl) (rep 32 0) with
    | .ref w => do
      (Seal.witnessVerifyHash H (rep 32 0) []).runM G H w
      return true
    | _ => return false),
  ("LeafPrefix.from_unused_prefix", do
    let u ← unused [] 1
    let l ← GuMap.leafFromUnused G H intGuMap u (i 0) (i 0) mkWit
    verifyG l
    return true),
  ("InnerPrefix.from_unused_prefix", do
    let l ← unused [false] 1; let r ← unused [false] 2; let u ← unused [] 3
    let n ← GuMap.innerFromUnused G H intGuMap GuMap.intKey2prefix u l r mkWit
    verifyG n
    return true),
  ("fakeseal_trick", do
    let u0 ← unused [false] 1; let u1 ← unused [true] 2
    let ip0 ← GuMap.fromChildren G H intGuMap GuMap.intKey2prefix u0 u1
    verifyG ip0
    let leaf0 ← GuMap.leafFromUnused G H intGuMap u0 (i 0) (i 0) mkWit
    let ip1 ← Prf.new G Cls.innerPrefix [← Prf.getAttr G ip0 0, ← Prf.getAttr G ip0 1, .ref leaf0, ← Prf.getAttr G ip0 3]
    verifyG ip1
    match ← GuMap.getSeal G ip0, ← GuMap.getSeal G ip1 with
    | .ref a, .ref b => return (← Prf.eq G H a b) && !(← Prf.eq G H ip0 ip1)
    | _, _ => return false)]
def B (l : List Nat) : Bits := Bits.ofIter (l.map (· == 1))
def R (n v : Nat) : List Nat := List.replicate n v
def is [BEq α] (x : Py α) (a : α) : Bool := match x with | .ok b => b == a | _ => false
def eqB (a : Py Bits) (b : Bits) : Bool := match a with | .ok a => is (a.eq b) true && is (b.eq a) true | _ => false
def bitsTests : List (String × Bool) := [
  ("len", [0, 1, 2, 8, 16, 17].all fun n => (B (R n 0)).length == n),
  ("iter", [[], [0], [1], [0,0], [1,1], [1,0], [0,1,1,0,1,0,0,1], [0,1,1,0,1,0,0,1,1], [0,1,1,0,1,0,0,1,1,0,1,0,1,0,1], [0,1,1,0,1,0,0,1,1,0,1,0,1,0,1,0]].all
    fun l => is (B l).iter (l.map (· == 1))),
  ("getitem", [([0], 0, false), ([1], 0, true), ([0], -1, false), ([1], -1, true), ([0,1], -2, false), ([1,0], -2, true), ([1,1,1,1,1,1,1,0], 7, false),
    ([1,1,1,1,1,1,1,0], -1, false), ([1,1,1,1,1,1,1,1,0], 8, false), ([1,1,1,1,1,1,1,1,0], -1, false), (R 255 1 ++ [0], 255, false), (R 255 1 ++ [0], -1, false),
    ([0] ++ R 255 1, 0, false), ([0] ++ R 255 1, -256, false)].all fun (l, k, e) => is ((B l).getItem k) e),
  ("getitem out of range", [(0, 0), (0, -1), (0, 1), (0, -2), (0, 8), (0, -8), (1, 1), (1, -2), (8, 8), (8, -9), (256, 256), (256, -257)].all
    fun (n, k) => match (B (R n 0)).getItem k with | .error .indexError => true | _ => false),
  ("equality", [[], [0], [1], [0,1], R 8 0, [0,1,1,0,1,0,0,1], [0,1,1,0,1,0,0,1,0,1,1,0,1,0,0,1], [0,1,1,0,1,0,0,1,0,1,1,0,1,0,0,1,0]].all fun l => eqB (.ok (B l)) (B l)),
  ("inequality", [([0], []), ([0], [1]), ([1,1], [0,0]), ([0,1], [1,0]), ([0,1,1,0,1,0,0,1], [0,1,1,0,1,0,0,0]), ([0,1,1,0,1,0,0,1], [0,1,1,0,1,0,0,1,0])].all
    fun (a, b) => is ((B a).eq (B b)) false && is ((B b).eq (B a)) false),
  ("add", (List.range 23).all fun n => (List.range 23).all fun m => eqB ((B (R n 0 ++ [1])).add (B ([0] ++ R m 1))) (B (R n 0 ++ [1] ++ [0] ++ R m 1))),
  ("invert", let a := [1,0,1,0,1,0,1,0, 0,1,0,1,0,1,0,1, 1,1,0,0,1,1,0,0]; (List.range 25).all fun l => eqB (B (a.take l)).invert (B ((a.take l).map (1 - ·)))),
  ("startswith nothing", [[], [0], R 8 0, R 9 0].all (fun l => is ((B l).startswith (B [])) true) && [[0], R 2 0, R 8 0, R 9 0, [1], R 2 1, R 8 1, R 9 1].all fun l => is ((B []).startswith (B l)) false),
  ("startswith", (List.range 23).all fun n => (List.range (23 - n)).all fun m =>
    let l := R n 0 ++ [1] ++ R m 0
    (List.range (l.length + 1)).all (fun k => match (B l).getSlice (sl (some 0) (some k)) with | .ok p => is ((B l).startswith p) true | _ => false)
    && is ((B l).startswith (B (l ++ [0]))) false
    && (List.range (l.length - 1)).all fun k =>
      let q := l.take (k + 1)
      is ((B l).startswith (B ((1 - q.headD 0) :: q.tail))) false && is ((B l).startswith (B (q.dropLast ++ [1 - q.getLastD 0]))) false),
  ("common_prefix", eqB ((B [0]).commonPrefix (B [1])) (B []) && (List.range 25).all fun l => (List.range 17).all fun n => (List.range 17).all fun m =>
    let a := R l 0 ++ R n 0; let b := R l 0 ++ [1] ++ R (m - 1) 0
    let f := List.map (1 - ·)
    eqB ((B a).commonPrefix (B b)) (B (R l 0)) && eqB ((B b).commonPrefix (B a)) (B (R l 0)) && eqB ((B (f a)).commonPrefix (B (f b))) (B (R l 1)) && eqB ((B (f b)).commonPrefix (B (f a))) (B (R l 1)))]
def main : IO Unit := do
  let mut bad := 0
  let ts := (proofTests.map fun (n, x) => ("proof " ++ n, run x)) ++ (mmrTests.map fun (n, x) => ("mmr " ++ n, run x)) ++ (mbTests.map fun (n, x) => ("merbinner " ++ n, run x))
    ++ (sealTests.map fun (n, x) => ("seal " ++ n, run x)) ++ bitsTests.map fun (n, x) => ("bits " ++ n, x)
  for (n, b) in ts do
    if !b then
      bad := bad + 1
      IO.println s!"DIFFERS {n}"
  IO.println s!"tests {ts.length} bad {bad}"
