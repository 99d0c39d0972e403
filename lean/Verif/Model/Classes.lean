import Verif.Model.Proof
import Verif.Model.Sha256
/-!
# The proof classes of the repository

`PB` is `proofchains/core/bitcoin.py`, `SU` is `proofchains/core/uniquebits/singleuseseal.py`, `GM` is
`proofchains/core/uniquebits/gumap.py`, `TP` is `lib/python-proofmarshal/proofmarshal/test/test_proof.py`.
-/
namespace Verif

namespace Cls
/-- `TxProof`, PB:62. -/
def txProof : Nat := 0
/-- `OutPointProof`, PB:91. -/
def outPointProof : Nat := 1
/-- `TxInProof`, PB:99. -/
def txInProof : Nat := 2
/-- `TxOutProof`, PB:113. -/
def txOutProof : Nat := 3
/-- `SingleUseSeal`, SU:30. -/
def singleUseSeal : Nat := 4
/-- `SealWitness`, SU:36. -/
def sealWitness : Nat := 5
/-- `FakeSingleUseSeal`, SU:43. -/
def fakeSeal : Nat := 6
/-- `FakeSealWitness`, SU:50. -/
def fakeWitness : Nat := 7
/-- `BitcoinSingleUseSeal`, SU:66. -/
def btcSeal : Nat := 8
/-- `BitcoinSealWitness`, SU:81. -/
def btcWitness : Nat := 9
/-- A subclass of `GuMap` (GM:18) given to `make_GuMap_subclass` (GM:35). -/
def guMap : Nat := 10
/-- `UnusedPrefix`, GM:36-46. -/
def unusedPrefix : Nat := 11
/-- `LeafPrefix`, GM:51-102. -/
def leafPrefix : Nat := 12
/-- `InnerPrefix`, GM:107-154. -/
def innerPrefix : Nat := 13
end Cls

/-- What a `GuMap` subclass declares (GM:22-32): `HASHTAG`, `KEY_SERIALIZER`, `VALUE_SERIALIZER`.  Only the case
`SEAL_CLASS = BitcoinSingleUseSeal`, `WITNESS_CLASS = BitcoinSealWitness` is modelled, the only real seals there are. -/
structure GuMapDecl where
  hashtag : Bytes
  key : Kind
  value : Kind

open Cls in
/-- The classes, with the attributes and tags they declare (lines as above).  Variants get their tag derived from that of
the class they are a variant of (`declare_variant`, proof.py:251-267). -/
def classes (H : HashFns) (g : GuMapDecl) : Table
  | 0 => { hashtag := none, attrs := [.prim .tx], isTx := true }
  | 1 => { hashtag := some (hex "557eb53363be497db1637d1875de9681"), attrs := [.proof txProof, .prim (.uint 0xffffffff)] }
  | 2 => { hashtag := some (hex "65d34d83329148139119bd7e29b9dea3"), attrs := [.prim (.uint 0xffffffff), .proof txProof] }
  | 3 => { hashtag := some (hex "ed6246637a204dd689809870003dfbe7"), attrs := [.prim (.uint 0xffffffff), .proof txProof] }
  | 4 => { hashtag := none, attrs := [] }
  | 5 => { hashtag := none, attrs := [] }
  | 6 => { hashtag := some (hex "e5690d7316e34f8fbd4f148c32d37baf"), attrs := [.prim (.fixed 32)], bases := [singleUseSeal] }
  | 7 => { hashtag := some (hex "a5092f563a31476aac811b00211140eb"), attrs := [.proof fakeSeal], bases := [sealWitness] }
  | 8 => { hashtag := some (hex "b59093bf527f4d2a9a513c2e3d2f0c25"), attrs := [.prim .outpoint, .prim (.fixed 16)], bases := [singleUseSeal] }
  | 9 => { hashtag := some (hex "2ca464a01b8c4aa58e725d3aaa804cbd"), attrs := [.proof btcSeal, .proof txInProof, .proof txOutProof],
           bases := [singleUseSeal] }
  | 10 => { hashtag := some g.hashtag, attrs := [], variants := some [unusedPrefix, leafPrefix, innerPrefix] }
  | 11 => { hashtag := some (H.derive (hex "dae47befd9a34971a6a41c67c5f02c11") g.hashtag), attrs := [.prim .bits, .union [fakeSeal, btcSeal]],
            variants := some [unusedPrefix, leafPrefix, innerPrefix], bases := [guMap] }
  | 12 => { hashtag := some (H.derive (hex "0c60f34491094930aec1432c5750fcba") g.hashtag),
            attrs := [.union [fakeWitness, btcWitness], g.key, g.value],
            variants := some [unusedPrefix, leafPrefix, innerPrefix], bases := [guMap] }
  | 13 => { hashtag := some (H.derive (hex "6893cac7e83449cd8e9577707b0499b5") g.hashtag),
            attrs := [.prim .bits, .union [fakeWitness, btcWitness], .proof guMap, .proof guMap],
            variants := some [unusedPrefix, leafPrefix, innerPrefix], bases := [guMap] }
  | _ => { hashtag := none, attrs := [] }

/-- `IntGuMap`, proofchains/test/core/uniquebits/test_gumap.py:25-37. -/
def intGuMap : GuMapDecl :=
  { hashtag := hex "7377738488f040cca836443cc6db3589", key := .prim (.uint 0xffffffffffffffff), value := .prim (.uint 0xffffffffffffffff) }

/-- The classes of the tests of proofmarshal, TP:19-31 and TP:191-213 (used in examples): `FooProof` 0, `BarProof` 1, `FooVarProof` 2 with
variants `EmptyFooVarProof` 3, `LeafFooVarProof` 4, `InnerFooVarProof` 5, `DerivedHmacFooVarProof` 7; and 6, a class with an attribute of `ProofUnion(FooProof, BarProof)`. -/
def testClasses (H : HashFns) : Table
  | 0 => { hashtag := some (hex "19e5278a76cc479c8713e7648636979c"), attrs := [.prim (.uint 0xff)] }
  | 1 => { hashtag := some (hex "4c3cce550a90404ebaf3a6720205e8ab"), attrs := [.proof 0, .proof 0, .prim (.uint 0xff)] }
  | 2 => { hashtag := some (hex "0790a99e0a124677b4c657054039b9cf"), attrs := [], variants := some [3, 4, 5, 7] }
  | 3 => { hashtag := some (H.derive (hex "a5516ff099a74a00b9188d30ea6f25b1") (hex "0790a99e0a124677b4c657054039b9cf")), attrs := [],
           variants := some [3, 4, 5, 7], bases := [2] }
  | 4 => { hashtag := some (H.derive (hex "69cd3faab1e748e4be6ed73f6644829b") (hex "0790a99e0a124677b4c657054039b9cf")), attrs := [.prim (.uint 0xff)],
           variants := some [3, 4, 5, 7], bases := [2] }
  | 5 => { hashtag := some (H.derive (hex "e540376ab7b44b068d25b7b00cf7e081") (hex "0790a99e0a124677b4c657054039b9cf")), attrs := [.proof 2, .proof 2],
           variants := some [3, 4, 5, 7], bases := [2] }
  | 6 => { hashtag := some (hex "00000000000000000000000000000006"), attrs := [.union [0, 1]] }
  | 7 => { hashtag := some (H.derive (hex "6d0ef95266214a858f4c23ae0427c937") (hex "0790a99e0a124677b4c657054039b9cf")), attrs := [],
           variants := some [3, 4, 5, 7], bases := [2] }
  | _ => { hashtag := none, attrs := [] }

end Verif
