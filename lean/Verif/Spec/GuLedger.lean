import Verif.Spec.GuMap
/-!
# Two views of one map

Someone who holds a map and someone else who holds a map with the same root seal see two states of the same map: prefixes that are unused for one may be
closed for the other.
-/
namespace Verif.GuMap
open Verif Seal Btc

/-- Transactions that spend the same outpoint have the same id. -/
def SpentOnce (H : HashFns) (chain : CTransaction → Prop) : Prop :=
  ∀ x y, chain x → chain y → (∃ i ∈ x.vin, ∃ j ∈ y.vin, i.prevout = j.prevout) → ∃ id, HasTxid H x id ∧ HasTxid H y id

/-- The Bitcoin witnesses in the map show transactions of the chain, and of these the first output. -/
def Witnessed (chain : CTransaction → Prop) (t : PTree) : Prop :=
  ∀ π n o c i x j x', nodeAt t π = some n → witnessOf n = some (fullWitnessT o c i x j x') → chain x ∧ j = 0

/-- What is hashed for the id of a transaction that a witness of the map shows. -/
def TxHashed (H : HashFns) (t : PTree) (z : Bytes) : Prop :=
  ∃ π n o c i x j x' b, nodeAt t π = some n ∧ witnessOf n = some (fullWitnessT o c i x j x') ∧ x'.ser = .ok b ∧ (z = b ∨ z = H.sha256 b)

/-- The hash that closes the seal of some node. -/
def ClosedOver (T : Table) (H : HashFns) (g : GuMapDecl) (t : PTree) (h : Bytes) : Prop := ∃ π n m, nodeAt t π = some n ∧ Sealed T H g n m ∧ h = H.sha256 m

/-- Objects `r` and `r'`, perhaps of different programs, stand for the maps `t` and `t'`; all nodes verify; the root seals have the same hash; the Bitcoin
witnesses are on the chain; and no hash function collides on what was hashed for the two. -/
structure Views (T : Table) (H : HashFns) (g : GuMapDecl) (chain : CTransaction → Prop) (s s' : PState) (r r' : Nat) (t t' : PTree) : Prop where
  reach : Reachable T H s
  reach' : Reachable T H s'
  rep : Represents s r t
  rep' : Represents s' r' t'
  ver : AllVerify T H g s r t
  ver' : AllVerify T H g s' r' t'
  root : ∃ k, (sealHash.run T H r s).1 = .ok (.ok k) ∧ (sealHash.run T H r' s').1 = .ok (.ok k)
  wit : Witnessed chain t
  wit' : Witnessed chain t'
  tags : CollisionFree (fun m => (H.sha256 m).take 16)
    [derivationTag ++ (hex "59c17f377e264aea8a5b7c0db66af35b" ++ H.derive (hex "0c60f34491094930aec1432c5750fcba") g.hashtag),
     derivationTag ++ (hex "b925044d320e4c1f9ef820614d260676" ++ H.derive (hex "6893cac7e83449cd8e9577707b0499b5") g.hashtag)]
  free : ∀ x y, (HashedIn T H g t x ∨ HashedIn T H g t' x) → (HashedIn T H g t y ∨ HashedIn T H g t' y) → H.sha256 x = H.sha256 y → x = y
  txFree : ∀ x y, (TxHashed H t x ∨ TxHashed H t' x) → (TxHashed H t y ∨ TxHashed H t' y) → H.sha256 x = H.sha256 y → x = y
  digFree : ∀ h h', ClosedOver T H g t h → ClosedOver T H g t' h' → h160 H h = h160 H h' → h = h'

/-- What somebody checks who is given the object `r`, perhaps with everything pruned that is not needed here, as a proof that the map with the root seal `k` has `v` for
`key`: on the way to the leaf all nodes verify, and the Bitcoin witnesses are the first outputs of transactions of the chain; the prefix of the key begins with `root`, the
prefix of the whole map, followed by the way to the leaf.  (The last is up to the user: `verify` does not look at prefixes.) -/
structure KeyProof (T : Table) (H : HashFns) (g : GuMapDecl) (k2p : PVal → Py (List Bool)) (chain : CTransaction → Prop) (root : List Bool) (k : Bytes) (key : PVal)
    (v : TVal) (s : PState) (r : Nat) (t : PTree) (π : List Bool) : Prop where
  reach : Reachable T H s
  rep : Represents s r t
  ver : VerifiedTo T H g s r t π
  rootSeal : (sealHash.run T H r s).1 = .ok (.ok k)
  wit : ∀ ρ n o c i x j x', ρ <+: π → nodeAt t ρ = some n → witnessOf n = some (fullWitnessT o c i x j x') → chain x ∧ j = 0
  leaf : ∃ n q, nodeAt t π = some n ∧ n.cls = Cls.leafPrefix ∧ n.get? 1 = some (.prim key) ∧ n.get? 2 = some v ∧ k2p key = .ok q ∧ root ++ π <+: q

/-- What is hashed for the ids of the transactions on the way. -/
def TxHashedTo (H : HashFns) (t : PTree) (π : List Bool) (z : Bytes) : Prop :=
  ∃ ρ n o c i x j x' b, ρ <+: π ∧ nodeAt t ρ = some n ∧ witnessOf n = some (fullWitnessT o c i x j x') ∧ x'.ser = .ok b ∧ (z = b ∨ z = H.sha256 b)

/-- The hashes that close the seals on the way. -/
def ClosedTo (T : Table) (H : HashFns) (g : GuMapDecl) (t : PTree) (π : List Bool) (h : Bytes) : Prop :=
  ∃ ρ n m, ρ <+: π ∧ nodeAt t ρ = some n ∧ Sealed T H g n m ∧ h = H.sha256 m

/-- No hash function collides on what is hashed for the two ways. -/
structure NoCollision (T : Table) (H : HashFns) (g : GuMapDecl) (t : PTree) (π : List Bool) (t' : PTree) (π' : List Bool) : Prop where
  tags : CollisionFree (fun m => (H.sha256 m).take 16)
    [derivationTag ++ (hex "59c17f377e264aea8a5b7c0db66af35b" ++ H.derive (hex "0c60f34491094930aec1432c5750fcba") g.hashtag),
     derivationTag ++ (hex "b925044d320e4c1f9ef820614d260676" ++ H.derive (hex "6893cac7e83449cd8e9577707b0499b5") g.hashtag)]
  free : ∀ x y, (HashedTo T H g t π x ∨ HashedTo T H g t' π' x) → (HashedTo T H g t π y ∨ HashedTo T H g t' π' y) → H.sha256 x = H.sha256 y → x = y
  txFree : ∀ x y, (TxHashedTo H t π x ∨ TxHashedTo H t' π' x) → (TxHashedTo H t π y ∨ TxHashedTo H t' π' y) → H.sha256 x = H.sha256 y → x = y
  digFree : ∀ h h', ClosedTo T H g t π h → ClosedTo T H g t' π' h' → h160 H h = h160 H h' → h = h'

/-- Where both have an inner node, these have the same prefix. -/
def SamePrefixes (k2p : PVal → Py (List Bool)) (t t' : PTree) : Prop :=
  ∀ π n n', nodeAt t π = some n → nodeAt t' π = some n' → n.cls = Cls.innerPrefix → n'.cls = Cls.innerPrefix → prefixT k2p n = prefixT k2p n'

/-- Every inner node other than the root has exactly one bit more than the node it is under. -/
def Stepwise (k2p : PVal → Py (List Bool)) (t : PTree) : Prop :=
  ∀ π b n q, nodeAt t π = some n → nodeAt t (π ++ [b]) = some q → q.cls = Cls.innerPrefix → ∃ p, prefixT k2p n = some p ∧ prefixT k2p q = some (p ++ [b])

end Verif.GuMap
