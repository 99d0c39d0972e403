import Verif.Props.Spend
import Verif.Props.Seal
/-! # C116: closing seals with a signed transaction -/
namespace Verif.Seal
open Verif Btc

section
variable {g : GuMapDecl} {K : Crypto}
local notation "T" => classes K.H g

/-- Seals are closed over a digest in a transaction that can be published: the template for the outpoints of the seals is signed with the keys of
these outpoints, in any order; then `VerifyScript` accepts every input, whatever the flags, and for each of the seals the tool's procedure makes a
witness on which `verify()` and `verify_hash(digest)` succeed, at any later time. -/
theorem C116_close {digest : Bytes} (hd : digest.length = 32) {os : List COutPoint} (hnd : os.Nodup) (hos : ∀ o ∈ os, o.Valid) (hlen : os.length ≤ 2 ^ 32) {m : Meth}
    (hm : m ≠ .unknown) {dust : Int} (hdust : 0 ≤ dust ∧ dust < 2 ^ 63) (keys : Nat → Signer) (forms : Nat → Form) (tys : Nat → Int)
    (hk : ∀ i < os.length, (keys i).Works K) (hty : ∀ i < os.length, 0 ≤ tys i ∧ tys i < 256 ∧ (SigSingle (tys i) → i = 0)) {order : List Nat} (hord : ∀ i, i ∈ order ↔ i < os.length) :
    ∃ tmpl x, makeCloseTx K.H digest os m dust = .ok tmpl ∧ signInputs K.H keys forms tys tmpl order = .ok x ∧
      x.vin.map (·.prevout) = os ∧ x.vout = tmpl.vout ∧
      (∀ i < os.length, ∃ inp spk, x.vin[i]? = some inp ∧ outputScript K.H (keys i) (forms i) = .ok spk ∧ ∀ flags, verifyScript K inp.scriptSig spk x i flags = .ok ()) ∧
      ∀ {s : PState}, Reachable T K.H s → ∀ {tp sl : Nat} {o : COutPoint} {n : Bytes}, Whole s tp (txT x) → Whole s sl (sealT o n) → o ∈ os →
        ∃ w s', makeWitness T tp sl s = (.ok (some w), s') ∧
          ∀ s1, Steps T K.H s' s1 → ((witnessVerify []).run T K.H w s1).1 = .ok (.ok ()) ∧ ((witnessVerifyHash K.H digest []).run T K.H w s1).1 = .ok (.ok ()) := by
  obtain ⟨o, ho, hcm, _⟩ := C46_scripts (H := K.H) hd hm dust
  have h20 : (h160 K.H digest).length = 20 := K.H.ripemd160_len _
  have hval : 0 ≤ o.nValue ∧ o.nValue < 2 ^ 63 := by
    rcases closeTxOut_eq hd ho with ⟨rfl, rfl⟩ | ⟨rfl, rfl⟩ | ⟨rfl, rfl⟩
    · exact ⟨Int.le_refl _, by show (0 : Int) < 2 ^ 63; omega⟩
    · exact hdust
    · exact hdust
  have hspk : o.scriptPubKey.length ≤ 34 := by
    rcases hcm with h | h | h <;> rw [h] <;> simp [opReturnScript, p2shScript, p2pkhScript, hd, h20]
  have ht : makeCloseTx K.H digest os m dust = .ok ⟨1, os.map fun p => ⟨p, [], 0xffffffff⟩, [o], 0⟩ := by
    unfold makeCloseTx
    rw [ho]
    rfl
  have hfits : TxFits ⟨1, os.map fun p => ⟨p, [], 0xffffffff⟩, [o], 0⟩ := by
    refine ⟨⟨fun x hx => ?_, show (0 : Int) ≤ 0 by decide, show (0 : Int) ≤ 0xffffffff by decide⟩, show -(2 ^ 31) ≤ (1 : Int) ∧ (1 : Int) < 2 ^ 31 by decide, fun u hu => ?_, fun u hu => ?_, ?_, ?_⟩
    · obtain ⟨p, hp, rfl⟩ := List.mem_map.mp hx
      exact ⟨hos p hp, by show (0 : Int) ≤ 0xffffffff; decide, by show (0xffffffff : Int) ≤ 0xffffffff; decide⟩
    · obtain rfl := List.mem_singleton.mp hu
      constructor <;> omega
    · obtain rfl := List.mem_singleton.mp hu
      unfold MAX_SIZE
      omega
    · simp only [List.length_map]
      omega
    · simp
  have hn : (os.map fun p => CTxIn.mk p [] 0xffffffff).length = os.length := List.length_map _
  obtain ⟨x, g1, g2, _, g4⟩ := C114_signs (C := K) keys forms tys hfits order (fun i hi => hk i ((hord i).mp hi))
    (fun i hi => ⟨(hty i ((hord i).mp hi)).1, (hty i ((hord i).mp hi)).2.1⟩) (fun i hi => by rw [hn]; exact (hord i).mp hi)
    (fun i hi hs => by rw [(hty i ((hord i).mp hi)).2.2 hs]; simp)
  have hin : x.vin.map (·.prevout) = os := by
    have := congrArg (List.map Prod.fst) g2.ins
    simpa [List.map_map, Function.comp_def] using this
  have hxl : x.vin.length = os.length := by rw [g2.length, hn]
  have hxf := g2.fits hfits
  have hsf : x.ScriptsFit := by
    refine ⟨fun y hy => ?_, hxf.scripts⟩
    obtain ⟨i, hi, rfl⟩ := List.mem_iff_getElem.mp hy
    obtain ⟨y, _, h1, h2, _⟩ := g4 i ((hord i).mpr (by omega))
    rw [List.getElem?_eq_getElem hi] at h1
    rw [Option.some.inj h1]
    unfold MAX_SIZE
    omega
  refine ⟨_, x, ht, g1, hin, g2.outs, fun i hi => ?_, fun {s} hs {tp sl o' n} htp hsl ho' => ?_⟩
  · obtain ⟨y, spk, h1, _, h2, h3⟩ := g4 i ((hord i).mpr hi)
    exact ⟨y, spk, h1, h2, h3⟩
  · obtain ⟨w, s', h1, h2, _⟩ := C48_honest_closing (H := K.H) (g := g) hd hm hnd ht (x := x) ⟨by rw [hin]; simp [List.map_map, Function.comp_def], [], by rw [g2.outs, List.append_nil]⟩
      (CTransaction.ser_total hxf.valid hsf hxf.version hxf.values hxf.ins hxf.outs) hsf (by omega) hs htp hsl ho'
    exact ⟨w, s', h1, h2⟩

-- two outpoints, three signatures
example := C116_close (g := g) (K := Btc.Ex.cr) (digest := Ex.digest) (by decide) (os := [Ex.op, ⟨List.replicate 32 0x08#8, 1⟩]) (by decide) (by decide) (by decide) (m := .p2pkh)
  (by decide) (dust := 546) (by decide) (fun _ => Btc.Ex.signer) (fun i => if i = 0 then .keyHash else .scriptHash) (fun _ => 1) (fun _ _ => Btc.Ex.signer_works)
  (fun _ _ => ⟨by decide, by decide, fun h => by cases h⟩) (order := [1, 0, 1]) (fun i => by simp; omega)

end

end Verif.Seal
