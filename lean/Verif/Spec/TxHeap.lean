import Verif.Model.TxHeap
import Batteries.Data.List.Basic
/-!
# What is seen through references to objects, and what edits do to values

No function of the library is mentioned here, only what objects there are.
-/
namespace Verif.Btc.Objs
open Verif

/-- The object at `a` is an outpoint with this content. -/
def ShowsPrev (h : Heap) (a : Addr) (x : COutPoint) : Prop := ∃ m, h[a]? = some (.outpoint m x.hash x.n)

/-- The object at `a` is an input with this content. -/
def ShowsIn (h : Heap) (a : Addr) (x : CTxIn) : Prop := ∃ m p, h[a]? = some (.txin m p x.scriptSig x.nSequence) ∧ ShowsPrev h p x.prevout

/-- The object at `a` is an output with this content. -/
def ShowsOut (h : Heap) (a : Addr) (x : CTxOut) : Prop := ∃ m, h[a]? = some (.txout m x.nValue x.scriptPubKey)

/-- The object at `a` is a list or tuple of objects with these contents. -/
def ShowsSeq {α : Type} (h : Heap) (R : Addr → α → Prop) (a : Addr) (xs : List α) : Prop := ∃ b is, h[a]? = some (.seq b is) ∧ List.Forall₂ R is xs

/-- The object at `a` is a transaction, mutable or not, with this content.  Parts of it may be shared. -/
def Shows (h : Heap) (a : Addr) (t : CTransaction) : Prop :=
  ∃ m i o c, h[a]? = some (.tx m t.nVersion i o t.nLockTime c) ∧ ShowsSeq h (ShowsIn h) i t.vin ∧ ShowsSeq h (ShowsOut h) o t.vout

/-- Every object of `h` is as it was. -/
def Kept (h h' : Heap) : Prop := ∀ (a : Addr) (c : Cell), h[a]? = some c → h'[a]? = some c

/-- Element `i` of a list of `n`, from the end if negative. -/
def place (n : Nat) (i : Int) : Option Nat := if 0 ≤ i ∧ i < n then some i.toNat else if -n ≤ i ∧ i < 0 then some (i + n).toNat else none

/-- Change element `i`. -/
def changeAt {α} (xs : List α) (i : Int) (f : α → α) : Py (List α) :=
  match place xs.length i with
  | some j => .ok (xs.modify j f)
  | none => .error .indexError

/-- What it does to the content. -/
def Edit.apply (t : CTransaction) : Edit → Py CTransaction
  | .version v => .ok { t with nVersion := v }
  | .lockTime v => .ok { t with nLockTime := v }
  | .scriptSig i v => (changeAt t.vin i fun x => { x with scriptSig := v }).map fun xs => { t with vin := xs }
  | .sequence i v => (changeAt t.vin i fun x => { x with nSequence := v }).map fun xs => { t with vin := xs }
  | .prevHash i v => (changeAt t.vin i fun x => { x with prevout := { x.prevout with hash := v } }).map fun xs => { t with vin := xs }
  | .prevN i v => (changeAt t.vin i fun x => { x with prevout := { x.prevout with n := v } }).map fun xs => { t with vin := xs }
  | .value i v => (changeAt t.vout i fun x => { x with nValue := v }).map fun xs => { t with vout := xs }
  | .scriptPubKey i v => (changeAt t.vout i fun x => { x with scriptPubKey := v }).map fun xs => { t with vout := xs }
  | .clearIns => .ok { t with vin := [] }
  | .clearOuts => .ok { t with vout := [] }
  | .addIn p s q =>
    if p.hash.length = 32 ∧ (0 ≤ p.n ∧ p.n ≤ 0xffffffff) ∧ (0 ≤ q ∧ q ≤ 0xffffffff) then .ok { t with vin := t.vin ++ [⟨p, s, q⟩] } else .error .valueError
  | .addOut v s => .ok { t with vout := t.vout ++ [⟨v, s⟩] }

/-- One after the other; the first error ends it. -/
def applyAll (t : CTransaction) : List Edit → Py CTransaction
  | [] => .ok t
  | e :: es => e.apply t >>= fun t' => applyAll t' es

/-- Nothing that can be reached from the transaction is mutable. -/
def Frozen (h : Heap) (a : Addr) : Prop :=
  ∃ v i o l c, h[a]? = some (.tx false v i o l c) ∧
    (∃ xs, h[i]? = some (.seq false xs) ∧ ∀ x ∈ xs, ∃ p s q, h[x]? = some (.txin false p s q) ∧ ∃ y n, h[p]? = some (.outpoint false y n)) ∧
    ∃ xs, h[o]? = some (.seq false xs) ∧ ∀ x ∈ xs, ∃ v s, h[x]? = some (.txout false v s)

end Verif.Btc.Objs
