import Verif.Lemmas.ScriptMore
import Verif.Lemmas.BtcInj
import Verif.Model.SigHash
import Verif.Spec.SigHash
/-! # Lemmas about copies and signature hashes -/
namespace Verif.Btc
open Verif

theorem mapM_self {α} {f : α → Py α} : ∀ {l : List α}, (∀ x ∈ l, f x = .ok x) → l.mapM f = .ok l
  | [], _ => rfl
  | x :: l, h => by
    rw [List.mapM_cons, h x (by simp), Except.bind_ok, mapM_self (fun y hy => h y (by simp [hy])), Except.bind_ok]
    rfl

theorem mapM_inv {α} {f : α → Py α} {P : α → Prop} (hf : ∀ x y, f x = .ok y → y = x ∧ P x) : ∀ {l l' : List α}, l.mapM f = .ok l' → l' = l ∧ ∀ x ∈ l, P x
  | [], l', h => by cases h; simp
  | x :: l, l', h => by
    rw [List.mapM_cons] at h
    obtain ⟨y, h1, h⟩ := Except.bind_eq_ok h
    obtain ⟨ys, h2, h⟩ := Except.bind_eq_ok h
    cases h
    obtain ⟨rfl, hx⟩ := hf x y h1
    obtain ⟨rfl, hl⟩ := mapM_inv hf h2
    exact ⟨rfl, by intro z hz; rcases List.mem_cons.mp hz with rfl | hz; exact hx; exact hl z hz⟩

theorem mutOutPoint_ok {o : COutPoint} (h : o.Valid) : mutOutPoint o = .ok o := by
  obtain ⟨h1, h2, h3⟩ := h
  rw [mutOutPoint, COutPoint.new, if_neg (by simpa using h1), if_neg (by simpa using ⟨h2, h3⟩)]

theorem mutTxIn_ok {i : CTxIn} (h : i.Valid) : mutTxIn i = .ok i := by
  obtain ⟨h1, h2, h3⟩ := h
  rw [mutTxIn, mutOutPoint_ok h1, Except.bind_ok, CTxIn.new, if_neg (by simpa using ⟨h2, h3⟩)]

theorem mutTxIn_inv {i j : CTxIn} (h : mutTxIn i = .ok j) : j = i ∧ i.Valid := by
  unfold mutTxIn mutOutPoint COutPoint.new CTxIn.new at h
  obtain ⟨o, h1, h⟩ := Except.bind_eq_ok h
  split at h1
  · cases h1
  · next g1 =>
    split at h1
    · cases h1
    · next g2 =>
      cases h1
      split at h
      · cases h
      · next g3 =>
        cases h
        exact ⟨rfl, ⟨Decidable.not_not.mp g1, (Decidable.not_not.mp g2)⟩, Decidable.not_not.mp g3⟩

theorem mutTx_ok {t : CTransaction} (h : t.Valid) : mutTx t = .ok t := by
  obtain ⟨h1, h2, h3⟩ := h
  rw [mutTx, mapM_self (fun x hx => mutTxIn_ok (h1 x hx)), Except.bind_ok, mapM_self (f := mutTxOut) (fun x _ => rfl), Except.bind_ok,
    CTransaction.new, if_neg (by simpa using ⟨h2, h3⟩)]

theorem mutTx_inv {t u : CTransaction} (h : mutTx t = .ok u) : u = t ∧ t.Valid := by
  unfold mutTx at h
  obtain ⟨vin, h1, h⟩ := Except.bind_eq_ok h
  obtain ⟨vout, h2, h⟩ := Except.bind_eq_ok h
  obtain ⟨rfl, hv⟩ := mapM_inv (P := CTxIn.Valid) (fun _ _ => mutTxIn_inv) h1
  obtain ⟨rfl, -⟩ := mapM_inv (P := fun _ => True) (f := mutTxOut) (fun x y h => by cases h; exact ⟨rfl, trivial⟩) h2
  unfold CTransaction.new at h
  split at h
  · cases h
  · next g => cases h; exact ⟨rfl, hv, Decidable.not_not.mp g⟩

theorem pyGetItem_nat {α} (xs : List α) (i : Nat) : pyGetItem xs (i : Int) = match xs[i]? with | some a => .ok a | none => .error .indexError := by
  unfold pyGetItem
  simp only
  rw [if_neg (by omega), if_neg (by omega), Int.toNat_natCast]
  rfl

theorem pySetItem_nat {α} {xs : List α} {i : Nat} (f : α → α) (h : i < xs.length) : pySetItem xs (i : Int) f = .ok (xs.modify i f) := by
  unfold pySetItem
  rw [pyGetItem_nat, List.getElem?_eq_getElem h, Except.bind_ok, if_neg (by omega), Int.toNat_natCast]
  rfl

theorem sepScript : mkScript [.op OP_CODESEPARATOR] = .ok (Tok.op 0xab#8).bytes := rfl

theorem findAndDelete_sep {ts : List Tok} (h : WFToks ts) : findAndDelete (scriptOf ts) (Tok.op 0xab#8).bytes = .ok (codeOf ts) := by
  obtain ⟨ts', bad, g1, g2, g3, g4⟩ := findAndDelete_any (scriptOf ts) (Tok.op 0xab#8).bytes
  have hb := (valid_iff g2 g1 g3).mp ⟨ts, h, rfl⟩
  subst hb
  rw [List.append_nil] at g2
  have := scriptOf_inj h g1 g2
  subst this
  rw [g4, if_pos rfl, keepOps_tok (show Tok.Ok (.op 0xab#8) by decide) h, codeOf]

theorem inputs_all (code : Bytes) (vin : List CTxIn) (i : Nat) (ht : Int) :
    (if ht % 32 = 2 ∨ ht % 32 = 3 then zeroSequences ((vin.map fun i => { i with scriptSig := [] }).modify i fun i => { i with scriptSig := code }) i
      else (vin.map fun i => { i with scriptSig := [] }).modify i fun i => { i with scriptSig := code }) =
    vin.mapIdx fun j x => CTxIn.mk x.prevout (if j = i then code else []) (if j ≠ i ∧ (SigNone ht ∨ SigSingle ht) then 0 else x.nSequence) := by
  apply List.ext_getElem?
  intro j
  simp only [zeroSequences, SigNone, SigSingle]
  by_cases hm : ht % 32 = 2 ∨ ht % 32 = 3
  · simp only [if_pos hm, List.getElem?_mapIdx, List.getElem?_modify, List.getElem?_map, hm, and_true, ne_eq]
    rcases hx : vin[j]? with _ | x
    · simp [hx, List.getElem?_eq_none_iff.mp hx]
    · by_cases hj : j = i
      · subst hj; simp [hx]
      · have : i ≠ j := fun h => hj h.symm
        have h' : (j : Int) ≠ (i : Int) := by omega
        simp [hj, this, hx, h']
  · simp only [if_neg hm, List.getElem?_mapIdx, List.getElem?_modify, List.getElem?_map, hm, and_false, if_false]
    rcases hx : vin[j]? with _ | x
    · simp [hx]
    · by_cases hj : j = i
      · subst hj; simp [hx]
      · have : i ≠ j := fun h => hj h.symm
        simp [hj, this, hx]

/-- What `RawSignatureHash` computes, when nothing is out of range. -/
theorem rawSignatureHash_eq (H : HashFns) {ts : List Tok} (hts : WFToks ts) {t : CTransaction} (ht : t.Valid) {i : Nat} (hi : i < t.vin.length) (ty : Int) :
    rawSignatureHash H (scriptOf ts) t i ty = if SigSingle ty ∧ t.vout.length ≤ i then .ok (HASH_ONE, true) else do
      let s ← (sigView (codeOf ts) t i ty).ser
      let b ← packU 4 ty
      return (H.hash256 (s ++ b), false) := by
  unfold rawSignatureHash
  rw [if_neg (by omega), mutTx_ok ht, Except.bind_ok, sepScript, Except.bind_ok, findAndDelete_sep hts, Except.bind_ok,
    pySetItem_nat _ (by rw [List.length_map]; exact hi), Except.bind_ok]
  by_cases h1 : SigSingle ty ∧ t.vout.length ≤ i
  · rw [if_pos h1, if_pos ⟨h1.1, by omega⟩]; rfl
  · rw [if_neg h1, if_neg (fun h => h1 ⟨h.1, by omega⟩)]
    have hout : (if ty % 32 = 2 then (pure [] : Py (List CTxOut)) else if ty % 32 = 3 then (do
          let tmp ← pyGetItem t.vout (i : Int)
          return List.replicate (i : Int).toNat ⟨-1, []⟩ ++ [tmp]) else pure t.vout) = .ok (sigOutputs t.vout i ty) := by
      unfold sigOutputs
      by_cases h2 : ty % 32 = 2
      · rw [if_pos h2, if_pos (show SigNone ty from h2)]; rfl
      · rw [if_neg h2, if_neg (show ¬ SigNone ty from h2)]
        by_cases h3 : ty % 32 = 3
        · rw [if_pos h3, if_pos (show SigSingle ty from h3), pyGetItem_nat]
          have : i < t.vout.length := by
            rcases Nat.lt_or_ge i t.vout.length with h | h
            · exact h
            · exact absurd ⟨h3, h⟩ h1
          rw [List.getElem?_eq_getElem this]
          simp [Except.bind_ok, pure, Except.pure]
        · rw [if_neg h3, if_neg (show ¬ SigSingle ty from h3)]; rfl
    have hin : (if ty / 128 % 2 ≠ 0 then (do
          let tmp ← pyGetItem (t.vin.mapIdx fun j x => CTxIn.mk x.prevout (if j = i then codeOf ts else []) (if j ≠ i ∧ (SigNone ty ∨ SigSingle ty) then 0 else x.nSequence)) (i : Int)
          return [tmp]) else (pure (t.vin.mapIdx fun j x => CTxIn.mk x.prevout (if j = i then codeOf ts else []) (if j ≠ i ∧ (SigNone ty ∨ SigSingle ty) then 0 else x.nSequence)) : Py (List CTxIn))) =
        .ok (sigInputs (codeOf ts) t.vin i ty) := by
      unfold sigInputs
      simp only
      by_cases h2 : ty / 128 % 2 = 1
      · rw [if_pos (by omega), if_pos (show SigAnyone ty from h2), pyGetItem_nat]
        rw [List.getElem?_eq_getElem (by rw [List.length_mapIdx]; exact hi)]
        simp [Except.bind_ok, pure, Except.pure]
      · rw [if_neg (by omega), if_neg (show ¬ SigAnyone ty from h2)]; rfl
    simp only [inputs_all]
    rw [hout, Except.bind_ok, hin, Except.bind_ok]
    rfl

theorem packU4_little {ty : Int} {b : Bytes} (h : packU 4 ty = .ok b) : b = little 4 ty.toNat ∧ 0 ≤ ty ∧ ty < 2 ^ 32 := by
  unfold packU at h
  split at h
  · next hr => cases h; exact ⟨(little_eq _ _).symm, hr.1, by omega⟩
  · cases h

/-- When `SignatureHash` returns a value. -/
theorem signatureHash_inv {H : HashFns} {s : Bytes} {t : CTransaction} {i : Nat} {ty : Int} {d : Bytes} (h : signatureHash H s t i ty = .ok d) :
    t.Valid ∧ i < t.vin.length ∧ 0 ≤ ty ∧ ty < 2 ^ 32 ∧ (SigSingle ty → i < t.vout.length) ∧ ∃ m, SigMessage s t i ty m ∧ d = H.hash256 m := by
  unfold signatureHash at h
  obtain ⟨⟨x, e⟩, h1, h⟩ := Except.bind_eq_ok h
  have he : e = false := by
    cases e
    · rfl
    · simp only [if_true] at h; cases h
  subst he
  simp only [Bool.false_eq_true, if_false] at h
  cases h
  have hi : i < t.vin.length := by
    rcases Nat.lt_or_ge i t.vin.length with h | h
    · exact h
    · unfold rawSignatureHash at h1
      rw [if_pos (by omega)] at h1
      cases h1
  have hv : t.Valid ∧ ∃ ts, WFToks ts ∧ s = scriptOf ts := by
    unfold rawSignatureHash at h1
    rw [if_neg (by omega)] at h1
    obtain ⟨u, h2, h5⟩ := Except.bind_eq_ok h1
    obtain ⟨sep, h3, h6⟩ := Except.bind_eq_ok h5
    obtain ⟨code, h4, h7⟩ := Except.bind_eq_ok h6
    have hv := (mutTx_inv h2).2
    refine ⟨hv, ?_⟩
    obtain ⟨ts, bad, g1, g2, g3, g4⟩ := findAndDelete_any s sep
    rw [g4] at h4
    by_cases hb : bad = []
    · subst hb; exact ⟨ts, g1, by simpa using g2⟩
    · rw [if_neg hb] at h4; cases h4
  obtain ⟨hv, ts, hts, rfl⟩ := hv
  rw [rawSignatureHash_eq H hts hv hi] at h1
  split at h1
  · cases h1
  · next hs =>
    obtain ⟨b, h2, h1⟩ := Except.bind_eq_ok h1
    obtain ⟨c, h3, h1⟩ := Except.bind_eq_ok h1
    obtain ⟨rfl, h4, h5⟩ := packU4_little h3
    cases h1
    refine ⟨hv, hi, h4, h5, ?_, _, ⟨ts, b, hts, rfl, h2, rfl⟩, rfl⟩
    intro hs'
    rcases Nat.lt_or_ge i t.vout.length with h | h
    · exact h
    · exact absurd ⟨hs', h⟩ hs

end Verif.Btc
