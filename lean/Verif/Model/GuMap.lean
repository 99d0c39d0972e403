import Verif.Model.Seal
import Verif.Model.Merbinner
/-!
# Globally unique maps

`GM` is `proofchains/core/uniquebits/gumap.py`.  Methods that only inspect a node are computations on the proof
(`Prog`); methods that make nodes are operations on the heap.  Attribute positions: `UnusedPrefix` [prefix, seal],
`LeafPrefix` [witness, key, value], `InnerPrefix` [prefix, witness, left, right].
-/
namespace Verif

/-- The computation, done on the sub-proof at path `ρ`. -/
def Prog.at {α} (ρ : List Nat) : Prog α → Prog α
  | .ret a => .ret a
  | .read π k => .read (ρ ++ π) fun v => (k v).at ρ
  | .cls π k => .cls (ρ ++ π) fun c => (k c).at ρ
  | .hash π k => .hash (ρ ++ π) fun h => (k h).at ρ
  | .dataHash π k => .dataHash (ρ ++ π) fun h => (k h).at ρ

/-- Run a computation as part of a program. -/
def Prog.runM (T : Table) (H : HashFns) {α} (p : Prog α) (r : Nat) : HM α := do
  let x ← p.run T H r
  HM.lift x

namespace GuMap
open Seal

/-- `LeafPrefix.CONTENTS_HASHTAG`, GM:94.  (Set on first use, GM:91-94, always to the same value.) -/
def leafTag (H : HashFns) (g : GuMapDecl) : Bytes :=
  H.derive (hex "59c17f377e264aea8a5b7c0db66af35b") (H.derive (hex "0c60f34491094930aec1432c5750fcba") g.hashtag)

/-- `InnerPrefix.CONTENTS_HASHTAG`, GM:146. -/
def innerTag (H : HashFns) (g : GuMapDecl) : Bytes :=
  H.derive (hex "b925044d320e4c1f9ef820614d260676") (H.derive (hex "6893cac7e83449cd8e9577707b0499b5") g.hashtag)

/-- The hash of a key or value if its serializer has `get_hash`, otherwise its serialization, GM:81-89; for the attribute at `π`.
(That `get_hash` itself raises `AttributeError`, so that the fallback is taken for a proof, is not modelled.) -/
def digestAt (k : Kind) (π : List Nat) : Prog Bytes :=
  match k with
  | .prim τ => .read π fun
    | some v => .ret (τ.ser v)
    | none => .ret (τ.ser .other)
  | _ => .hash π fun h => .ret (.ok h)

/-- Where the seal of a node of class `c` is: GM:41, GM:73-74, GM:136-137. -/
def sealPath (c : Nat) : Option (List Nat) :=
  if c = Cls.unusedPrefix then some [1]
  else if c = Cls.leafPrefix then some [0, 0]
  else if c = Cls.innerPrefix then some [1, 0]
  else none

/-- `node.seal.hash`. -/
def sealHash : Prog Bytes := .cls [] fun c =>
  match sealPath c with
  | some π => .hash π fun h => .ret (.ok h)
  | none => .ret (.error .attributeError)

/-- `witness.verify_hash(h)`, for either class of witnesses. -/
def verifyHash (H : HashFns) (h : Bytes) : Prog Unit := .cls [] fun c =>
  if c = Cls.fakeWitness then fakeVerifyHash h []
  else if c = Cls.btcWitness then witnessVerifyHash H h []
  else .ret (.error .attributeError)

/-- `self.__calc_sealed_hash(self.key, self.value)`, GM:76-97. -/
def leafHash (H : HashFns) (g : GuMapDecl) : Prog Bytes := do
  let k ← digestAt g.key [1]
  let v ← digestAt g.value [2]
  return H.tagged (leafTag H g) (k ++ v)

/-- `self.__calc_sealed_hash(self.left, self.right)`, GM:139-149. -/
def innerHash (H : HashFns) (g : GuMapDecl) : Prog Bytes := do
  let a ← sealHash.at [2]
  let b ← sealHash.at [3]
  return H.tagged (innerTag H g) (a ++ b)

/-- `node.verify()`: GM:45-46, GM:99-100, GM:151-152. -/
def verify (H : HashFns) (g : GuMapDecl) : Prog Unit := .cls [] fun c =>
  if c = Cls.unusedPrefix then .ret (.ok ())
  else if c = Cls.leafPrefix then .cls [0] fun _ => do
    let h ← leafHash H g
    (verifyHash H h).at [0]
  else if c = Cls.innerPrefix then .cls [1] fun _ => do
    let h ← innerHash H g
    (verifyHash H h).at [1]
  else .ret (.error .attributeError)

section
variable (T : Table) (H : HashFns) (g : GuMapDecl)

/-- `node.seal`. -/
def getSeal (r : Nat) : HM HVal := do
  let o ← HM.obj r
  match sealPath o.cls with
  | some π => Prog.walk T (.ref r) π
  | none => HM.fail .attributeError

/-- `node.prefix`: GM:40, GM:69-70, GM:112.  `key2prefix` is a function of plain keys; keys that are proofs are not modelled here. -/
def getPrefix (k2p : PVal → Py (List Bool)) (r : Nat) : HM (List Bool) := do
  let o ← HM.obj r
  if o.cls = Cls.unusedPrefix ∨ o.cls = Cls.innerPrefix then do
    let v ← Prf.getAttr T r 0
    match v with
    | .prim (.bits b) => return b
    | _ => HM.fail .other
  else if o.cls = Cls.leafPrefix then do
    let v ← Prf.getAttr T r 1
    match v with
    | .prim k => HM.lift (k2p k)
    | _ => HM.fail .other
  else HM.fail .attributeError

/-- The hash (or serialization) of a key or value given as argument, GM:81-89. -/
def digestVal (k : Kind) (v : HVal) : HM Bytes :=
  match k, v with
  | .prim τ, .prim w => HM.lift (τ.ser w)
  | .prim τ, .ref _ => HM.lift (τ.ser .other)
  | _, .ref r => Prf.hash T H r
  | _, .prim _ => HM.fail .attributeError

/-- `LeafPrefix.from_unused_prefix`, GM:60-65. -/
def leafFromUnused (unused : Nat) (key value : HVal) (mk : HVal → Bytes → HM HVal) : HM Nat := do
  let sl ← getSeal T unused
  let k ← digestVal T H g.key key
  let v ← digestVal T H g.value value
  let w ← mk sl (H.tagged (leafTag H g) (k ++ v))
  Prf.new T Cls.leafPrefix [w, key, value]

/-- `InnerPrefix.from_unused_prefix`, GM:116-123. -/
def innerFromUnused (k2p : PVal → Py (List Bool)) (unused left right : Nat) (mk : HVal → Bytes → HM HVal) : HM Nat := do
  let sl ← getSeal T unused
  let a ← sealHash.runM T H left
  let b ← sealHash.runM T H right
  let w ← mk sl (H.tagged (innerTag H g) (a ++ b))
  let p ← getPrefix T k2p unused
  Prf.new T Cls.innerPrefix [.prim (.bits p), w, .ref left, .ref right]

/-- `InnerPrefix.from_children`, GM:124-134.  (`Bits.common_prefix` gives the longest common prefix: C15.) -/
def fromChildren (k2p : PVal → Py (List Bool)) (left right : Nat) : HM Nat := do
  let p ← getPrefix T k2p left
  let q ← getPrefix T k2p right
  let a ← sealHash.runM T H left
  let b ← sealHash.runM T H right
  let w ← fromHash T (H.tagged (innerTag H g) (a ++ b))
  Prf.new T Cls.innerPrefix [.prim (.bits (commonPrefix p q)), .ref w, .ref left, .ref right]
end

/-- `IntGuMap.key2prefix`, proofchains/test/core/uniquebits/test_gumap.py:35-37; `key.to_bytes(4, 'big')` raises `OverflowError` if the key does
not fit. -/
def intKey2prefix : PVal → Py (List Bool)
  | .int k =>
    if 0 ≤ k ∧ k < 2 ^ 32 then do
      let n := k.toNat
      let b ← Bits.fromBytes [BitVec.ofNat 8 (n / 2 ^ 24), BitVec.ofNat 8 (n / 2 ^ 16), BitVec.ofNat 8 (n / 2 ^ 8), BitVec.ofNat 8 n] none
      b.iter
    else .error .overflow
  | _ => .error .attributeError

end GuMap
end Verif
