import Verif.Props.RpcExamples
import Verif.Props.SusFlow
/-!
# C122: the tool and the node

`mkwitness --txid` asks the node for the closing transaction.
-/
namespace Verif.Rpc
open Verif Btc Sus Seal

section
variable {σ : Type} {S : Server σ} {H : HashFns} {g : GuMapDecl}
local notation "C" => classes H g

/-- `getrawtransaction` is the deserialization of these bytes. -/
theorem rawBytes_tx (st : PSt σ) (id : Bytes) : ∀ x, (∃ st', getrawtransaction S id st = (.ok x, st')) ↔
    ∃ b, rawBytes S st id = .ok b ∧ deserializeAll CTransaction.deser b = .ok x := by
  intro x
  unfold rawBytes getrawtransaction
  generalize indexed (call S (T "getrawtransaction") [.str (b2lx id), .int 0]) = c
  cases hc : c st with
  | mk r s1 =>
    cases r with
    | error e =>
      rw [RM.bind_error hc]
      cases e with
      | py e =>
        constructor
        · rintro ⟨_, h⟩; cases h
        · rintro ⟨_, h, _⟩; cases h
      | rpc e =>
        constructor
        · rintro ⟨_, h⟩; cases h
        · rintro ⟨_, h, _⟩; cases h
    | ok r =>
      rw [RM.bind_ok hc]
      simp only
      constructor
      · rintro ⟨st', h⟩
        obtain ⟨h1, _⟩ := lift_inv h
        obtain ⟨b, h2, h3⟩ := Except.bind_eq_ok h1
        exact ⟨b, h2, h3⟩
      · rintro ⟨b, h2, h3⟩
        exact ⟨s1, RM.lift_ok (by rw [h2, Except.bind_ok]; exact h3)⟩

/-- C122: a transaction that the node took is what `mkwitness` is given by the id that `sendrawtransaction` returned, at any later time. -/
theorem C122_given {x : CTransaction} {id : Bytes} {fees : Bool} {st st1 st2 : PSt σ} (hN : Node H S) (hf : x.ScriptsFit)
    (h : sendrawtransaction S x fees st = (.ok id, st1)) (hl : Later S st1.node st2.node) :
    ∀ y, Given (rawBytes S st2) (.txid (shownHash id)) y ↔ y = x := by
  obtain ⟨_, st3, h2⟩ := C119_tx hN hf h hl
  have g1 : Given (rawBytes S st2) (.txid (shownHash id)) x := by
    obtain ⟨b, h3, h4⟩ := (rawBytes_tx st2 id x).mp ⟨_, h2⟩
    exact ⟨id, b, lx_shown id, h3, h4⟩
  exact fun y => ⟨fun hy => given_unique hy g1, fun hy => hy ▸ g1⟩

/-- C122: closing seals with a node.  `mkclosetx` printed a template; a transaction that spends the same outpoints, and whose first output has the script of
the output of the template, was sent; whenever `mkwitness` is called with its id, it makes a witness file for each seal, which
`verifywitness` accepts for the digest, and for no other. -/
theorem C122_workflow (w w' : World) (hw : Reachable C H w.heap) {arg : Str} {files : List Str} {m : Meth} (h : mkclosetx C H arg files m w = (.ok (), w'))
    (hN : Node H S) :
    ∃ (x : CTransaction) (b d : Bytes), x.ser = .ok b ∧ w'.out = w.out ++ [hexText b] ∧ strToDigest arg = .ok d ∧
      ∀ (x' : CTransaction) (fees : Bool) (id : Bytes) (st st1 st2 : PSt σ), x'.ScriptsFit → x'.vin.length ≤ 2 ^ 32 →
        (∀ i ∈ x.vin, ∃ i' ∈ x'.vin, i'.prevout = i.prevout) → x'.vout.head?.map (·.scriptPubKey) = x.vout.head?.map (·.scriptPubKey) →
        sendrawtransaction S x' fees st = (.ok id, st1) → Later S st1.node st2.node →
        ∀ w1 : World, Reachable C H w1.heap → (∀ sn ∈ files, w1.files sn = w.files sn ∧ w1.files (witnessName sn) = none) →
        ∃ w2, mkwitness C H (rawBytes S st2) files (.txid (shownHash id)) w1 = (.ok (), w2) ∧
          ∀ sn ∈ files, ∃ wb, w2.files (witnessName sn) = some wb ∧ WitnessFor C H w1.files sn x' wb ∧
          ∀ (w3 : World) (f arg' : Str), Reachable C H w3.heap → w3.files f = some wb →
            (∀ d', strToDigest arg' = .ok d' → CollisionFree (h160 H) [d, d'] → ((verifywitness C H f (some arg') none none w3).1 = .ok () ↔ d' = d)) ∧
            (verifywitness C H f (some arg) none none w3).1 = .ok () := by
  obtain ⟨x, b, d, h1, h2, h3, h4⟩ := C112_workflow w w' hw h
  refine ⟨x, b, d, h1, by rw [← b2x_eq]; exact h2, h3, ?_⟩
  intro x' fees id st st1 st2 hf hlen hin hout hs hl w1 hw1 hfiles
  exact h4 (rawBytes S st2) (.txid (shownHash id)) x' ((C122_given hN hf hs hl x').mpr rfl) hlen hin hout w1 hw1 hfiles

/-- C122: if the node does not know the transaction, `mkwitness` reports it and creates nothing. -/
theorem C122_unknown {st : PSt σ} {id : Bytes} {err : Json} {t : σ} (hr : Refuses S st "getrawtransaction" [.str (shownHash id), .int 0] err t)
    (w : World) {files : List Str} (hfiles : ∀ sn ∈ files, ∃ b, w.files sn = some b) :
    mkwitness C H (rawBytes S st) files (.txid (shownHash id)) w = (.error .indexError, w) := by
  have h1 : TM.lift (TxArg.txid (shownHash id)).parse w = (.ok id, w) := TM.lift_ok (by
    show exitOn (lx (shownHash id)) = _
    rw [lx_shown]; rfl) w
  have h2 : openAll files w = (.ok (), w) := by
    rcases openAll_spec files w with ⟨h, _⟩ | ⟨_, f, hf, hn⟩
    · exact h
    · obtain ⟨b, hb⟩ := hfiles f hf
      rw [hn] at hb; cases hb
  have h3 : rawBytes S st id = .error .indexError := by
    have hr' := hr
    obtain ⟨l, k, n, _, _, rfl, _, hn⟩ := hr'
    unfold rawBytes
    rw [b2lx_eq, indexed_refuses hn (call_refuses hr)]
  unfold mkwitness
  rw [TM.bind_of_eq h1, TM.bind_of_eq h2]
  exact TM.bind_of_error (by show TM.lift (rawBytes S st id) w = _; rw [h3]; rfl)

example := C122_unknown (g := g) (H := realHash) (Ex.refuser_refuses ⟨0, ()⟩ "getrawtransaction" [.str (shownHash (List.replicate 32 7#8)), .int 0]) Sus.Ex.world (files := ["a.seal".toList])
  (fun sn h => by rw [List.mem_singleton.mp h]; exact ⟨_, rfl⟩)

/-- The conditions of `C122_workflow` are met: a node, to which the transaction of the example was sent (see also the example for C112). -/
example : Node realHash (Ex.memory realHash) ∧ sendrawtransaction (Ex.memory realHash) Seal.Ex.tx false Ex.start =
    (.ok (realHash.hash256 Seal.Ex.txBytes), ⟨1, ([(shownHash (realHash.hash256 Seal.Ex.txBytes), hexText Seal.Ex.txBytes)], [])⟩) ∧ Seal.Ex.tx.ScriptsFit :=
  ⟨Ex.memory_node _, Ex.memory_takes (by decide +kernel), by decide +kernel⟩
end

end Verif.Rpc
