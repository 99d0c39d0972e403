import Verif.Model.Conf
import Verif.Spec.SusText
/-! # Settings in bitcoin.conf -/
namespace Verif.Rpc
open Verif Sus

/-- The characters that are white space. -/
def blanks : List Char := [' ', '\t', '\n', Char.ofNat 11, Char.ofNat 12, '\r', Char.ofNat 28, Char.ofNat 29, Char.ofNat 30, Char.ofNat 31]

/-- White space. -/
def Blank (s : Str) : Prop := ∀ c ∈ s, c ∈ blanks

/-- No white space at either end. -/
def Trimmed (s : Str) : Prop := (∀ c t, s = c :: t → c ∉ blanks) ∧ ∀ c t, s = t ++ [c] → c ∉ blanks

/-- The line is `k = v`, with white space around key and value, and perhaps a comment. -/
structure Assigns (line k v : Str) : Prop where
  parts : ∃ a b c d e, line = a ++ (k ++ (b ++ '=' :: (c ++ (v ++ (d ++ e))))) ∧ Blank a ∧ Blank b ∧ Blank c ∧ Blank d ∧ (e = [] ∨ e.head? = some '#')
  key : '=' ∉ k ∧ '#' ∉ k
  value : '#' ∉ v
  trimmed : Trimmed k ∧ Trimmed v

/-- The last line about `k` assigns `v`. -/
def Setting (lines : List Str) (k : String) (v : Str) : Prop :=
  ∃ l1 line l2, lines = l1 ++ line :: l2 ∧ Assigns line k.toList v ∧ ∀ l ∈ l2, ∀ v', ¬ Assigns l k.toList v'

/-- No line is about `k`. -/
def Unset (lines : List Str) (k : String) : Prop := ∀ l ∈ lines, ∀ v, ¬ Assigns l k.toList v

/-- The port: as set, or the default. -/
inductive PortIs (lines : List Str) (port : Int) : Int → Prop where
  | unset : Unset lines "rpcport" → PortIs lines port port
  | set {s p} : Setting lines "rpcport" s → IntText s p → PortIs lines port p

/-- Whether `https` is used; letters may be of either case. -/
inductive SslIs (lines : List Str) : Bool → Prop where
  | unset : Unset lines "rpcssl" → SslIs lines false
  | off {s} : Setting lines "rpcssl" s → s.map Char.toLower ∈ ["0".toList, "false".toList] → SslIs lines false
  | on {s} : Setting lines "rpcssl" s → s.map Char.toLower ∈ ["1".toList, "true".toList] → SslIs lines true

/-- No character of the texts has a meaning in the host part of a URL. -/
def UrlSafe (s : Str) : Prop := '/' ∉ s ∧ '?' ∉ s ∧ ('[' ∈ s ↔ ']' ∈ s)

end Verif.Rpc
