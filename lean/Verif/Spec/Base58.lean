import Verif.Model.Base58
/-!
# Base 58
-/
namespace Verif.Btc
open Verif
open Verif.Sus (Str)

/-- The letters and digits that cannot be mistaken for each other, in the order of their codes. -/
def alphabet : List Char := ((List.range 128).map Char.ofNat).filter fun c => c.isAlphanum ∧ c ∉ ['0', 'O', 'I', 'l']

/-- The number written with these digits, the first being the most significant. -/
def positional (base : Nat) (ds : List Nat) : Nat := ds.foldl (fun n d => base * n + d) 0

/-- `s` is the base 58 text of `b`: a 1 for every leading zero byte, and then the number that the other bytes stand for, written without leading zeros with 58 digits. -/
def Base58 (b : Bytes) (s : Str) : Prop := ∃ (k : Nat) (b' : Bytes) (ds : List Nat),
  b = List.replicate k 0#8 ++ b' ∧ b'.head? ≠ some 0#8 ∧ (∀ d ∈ ds, d < 58) ∧ ds.head? ≠ some 0 ∧
  positional 256 (b'.map (·.toNat)) = positional 58 ds ∧ s = List.replicate k '1' ++ ds.map fun d => alphabet.getD d '?'

/-- Version, data and the checksum of both. -/
def checked (H : HashFns) (v : Byte) (data : Bytes) : Bytes := v :: data ++ (H.sha256 (H.sha256 (v :: data))).take 4

end Verif.Btc
