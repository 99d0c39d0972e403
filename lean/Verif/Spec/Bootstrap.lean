import Verif.Spec.Rpc
import Verif.Spec.Chain
/-! # Files of blocks, and nodes that have a chain -/
namespace Verif.Boot
open Verif Rpc Btc

/-- A file of records: the first bytes of the messages of a network, the length in four bytes, the data. -/
inductive Records (start : Bytes) : List Bytes → Bytes → Prop where
  | nil : Records start [] []
  | cons {raw l rest} : raw.length < 2 ^ 31 → Records start l rest → Records start (raw :: l) (start ++ (leBytes 4 raw.length ++ (raw ++ rest)))

/-- From the state `s` on the node has these blocks, by their heights and by their hashes. -/
def Serves (H : HashFns) {σ : Type} (S : Server σ) (s : σ) (chain : List Bytes) : Prop :=
  ∀ p : PSt σ, Later S s p.node → ∀ (i : Nat) raw, chain[i]? = some raw →
    (∃ t, Answers S p "getblockhash" [.int (i : Int)] (.str (shownHash (H.hash256 (raw.take 80)))) t) ∧
    ∃ t, Answers S p "getblock" [.str (shownHash (H.hash256 (raw.take 80))), .bool false] (.str (hexText raw)) t

end Verif.Boot
