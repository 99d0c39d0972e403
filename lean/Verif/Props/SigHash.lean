import Verif.Lemmas.SigHash
import Verif.Spec.Hash
import Verif.Model.Sha256
/-!
# Properties of copies of transactions and of signature hashes (C75–C78)
-/
namespace Verif.Btc
open Verif

/-! ## C75: copies -/

/-- Copies of a valid transaction, mutable or immutable, succeed and have the same content. -/
def C75_statement : Prop := ∀ t : TxObj, t.content.Valid →
  (∃ u, mutTxObj t = .ok u ∧ u.isMutable = true ∧ u.content = t.content) ∧ (∃ u, immTx t = .ok u ∧ u.isMutable = false ∧ u.content = t.content)

/-- A transaction all of whose parts are mutable, as `CMutableTransaction.from_tx` makes them. -/
def exMutable : TxObj := ⟨true, 1, [⟨true, ⟨⟨List.replicate 32 0x07#8, 1⟩, [], 0xffffffff⟩⟩], [⟨true, ⟨5000, [0x6a#8]⟩⟩], 0⟩

/-- False: an immutable copy of a mutable transaction with an input cannot be made. -/
theorem C75_refuted : ¬ C75_statement := by
  intro h
  obtain ⟨-, u, hu, -⟩ := h exMutable (by decide)
  have : immTx exMutable = .error .attributeError := by decide
  rw [this] at hu
  cases hu

/-- Mutable copies of valid transactions work, and all of their parts are mutable. -/
theorem C75_mutable_partial {t : TxObj} (h : t.content.Valid) :
    ∃ u, mutTxObj t = .ok u ∧ u.isMutable = true ∧ (∀ i ∈ u.vin, i.isMutable = true) ∧ (∀ o ∈ u.vout, o.isMutable = true) ∧ u.content = t.content := by
  refine ⟨_, by rw [mutTxObj, mutTx_ok h, Except.bind_ok]; rfl, rfl, ?_, ?_, ?_⟩
  · intro i hi; obtain ⟨x, -, rfl⟩ := List.mem_map.mp hi; rfl
  · intro i hi; obtain ⟨x, -, rfl⟩ := List.mem_map.mp hi; rfl
  · simp [TxObj.content]

theorem mapM_immTxOut : ∀ (l : List (Obj CTxOut)), ∃ l', l.mapM immTxOut = .ok l' ∧ l'.map Obj.val = l.map Obj.val
  | [] => ⟨[], rfl, rfl⟩
  | x :: l => by
    obtain ⟨l', h1, h2⟩ := mapM_immTxOut l
    have hx : ∃ y, immTxOut x = .ok y ∧ y.val = x.val := by
      unfold immTxOut
      split
      · exact ⟨_, rfl, rfl⟩
      · exact ⟨x, rfl, rfl⟩
    obtain ⟨y, h3, h4⟩ := hx
    refine ⟨y :: l', by rw [List.mapM_cons, h3, Except.bind_ok, h1, Except.bind_ok]; rfl, by simp [h2, h4]⟩

theorem mapM_immTxIn_error : ∀ {l : List (Obj CTxIn)}, (∃ i ∈ l, i.isMutable = true) → l.mapM immTxIn = .error .attributeError
  | [], h => by obtain ⟨_, h, _⟩ := h; cases h
  | x :: l, h => by
    rw [List.mapM_cons]
    cases hx : x.isMutable
    · have : ∃ i ∈ l, i.isMutable = true := by
        obtain ⟨i, hi, hm⟩ := h
        rcases List.mem_cons.mp hi with rfl | hi
        · rw [hx] at hm; cases hm
        · exact ⟨i, hi, hm⟩
      rw [immTxIn, hx]
      simp only [Bool.false_eq_true, if_false]
      rw [Except.bind_ok, mapM_immTxIn_error this, Except.bind_error]
    · rw [immTxIn, hx]
      rfl

/-- Exactly what immutable copies do: an immutable transaction is returned as it is; a copy of a mutable one works if no input is
mutable, and fails with AttributeError if one is. -/
theorem C75_immutable_partial {t : TxObj} (h : t.content.Valid) :
    (t.isMutable = false → immTx t = .ok t) ∧
    (t.isMutable = true → (∀ i ∈ t.vin, i.isMutable = false) → ∃ u, immTx t = .ok u ∧ u.isMutable = false ∧ u.content = t.content) ∧
    (t.isMutable = true → (∃ i ∈ t.vin, i.isMutable = true) → immTx t = .error .attributeError) := by
  have hl : ¬ ¬ (0 ≤ t.nLockTime ∧ t.nLockTime ≤ 0xffffffff) := not_not_intro h.2
  refine ⟨fun hm => by rw [immTx, hm]; rfl, fun hm hi => ?_, fun hm hi => ?_⟩
  · obtain ⟨l', h1, h2⟩ := mapM_immTxOut t.vout
    refine ⟨⟨false, t.nVersion, t.vin, l', t.nLockTime⟩, ?_, rfl, by simp [TxObj.content, h2]⟩
    rw [immTx, hm, if_pos rfl, immNew, if_neg hl, mapM_self (fun x hx => by rw [immTxIn, hi x hx]; rfl), Except.bind_ok, h1, Except.bind_ok]
    rfl
  · rw [immTx, hm, if_pos rfl, immNew, if_neg hl, mapM_immTxIn_error hi, Except.bind_error]

/-- `COutPoint.from_outpoint` never works. -/
theorem C75_outpoint_partial (o : Obj COutPoint) : immOutPoint o = .error .nameError := rfl

example : exMutable.content.Valid ∧ mutTxObj exMutable = .ok exMutable := by decide

/-! ## C76: the message -/

/-- When nothing is out of range, the signature hash of a valid script and transaction is the double hash of the transaction as it is
signed, followed by the hash type. -/
theorem C76_message (H : HashFns) {s : Bytes} {ts : List Tok} (hts : WFToks ts) (hs : s = scriptOf ts) {t : CTransaction} (ht : t.Valid) {i : Nat}
    (hi : i < t.vin.length) {ty : Int} (hty : 0 ≤ ty ∧ ty < 2 ^ 32) (ho : SigSingle ty → i < t.vout.length) {b : Bytes}
    (hb : (sigView (codeOf ts) t i ty).ser = .ok b) :
    signatureHash H s t i ty = .ok (H.sha256 (H.sha256 (b ++ little 4 ty.toNat))) ∧
    rawSignatureHash H s t i ty = .ok (H.sha256 (H.sha256 (b ++ little 4 ty.toNat)), false) := by
  have hr : rawSignatureHash H s t i ty = .ok (H.sha256 (H.sha256 (b ++ little 4 ty.toNat)), false) := by
    have hp : packU 4 ty = .ok (little 4 ty.toNat) := by
      unfold packU
      rw [if_pos (by constructor <;> omega), little_eq]
    rw [hs, rawSignatureHash_eq H hts ht hi, if_neg (fun h => by have := ho h.1; omega), hb, Except.bind_ok, hp, Except.bind_ok]
    rfl
  exact ⟨by rw [signatureHash, hr, Except.bind_ok]; rfl, hr⟩

/-- The transaction as it is signed can be serialized, if its numbers are in range and its scripts are not too long. -/
theorem C76_serializes {ts : List Tok} {t : CTransaction} (ht : t.Valid) {i : Nat} {ty : Int} (hc : (codeOf ts).length ≤ MAX_SIZE)
    (hv : -(2 ^ 31) ≤ t.nVersion ∧ t.nVersion < 2 ^ 31) (hov : ∀ o ∈ t.vout, -(2 ^ 63) ≤ o.nValue ∧ o.nValue < 2 ^ 63)
    (hos : ∀ o ∈ t.vout, o.scriptPubKey.length ≤ MAX_SIZE) (hi : t.vin.length < 2 ^ 64) (ho : t.vout.length < 2 ^ 64) (hil : i < t.vin.length) :
    ∃ b, (sigView (codeOf ts) t i ty).ser = .ok b := by
  obtain ⟨h1, h2, h3⟩ := ht
  have hall : ∀ x ∈ sigInputs (codeOf ts) t.vin i ty, x.Valid ∧ x.scriptSig.length ≤ MAX_SIZE := by
    intro x hx
    have hx' : x ∈ t.vin.mapIdx fun j x => CTxIn.mk x.prevout (if j = i then codeOf ts else []) (if j ≠ i ∧ (SigNone ty ∨ SigSingle ty) then 0 else x.nSequence) := by
      unfold sigInputs at hx
      simp only at hx
      split at hx
      · rw [Option.mem_toList] at hx
        exact List.mem_of_getElem? hx
      · exact hx
    obtain ⟨j, hj, rfl⟩ := List.mem_mapIdx.mp hx'
    obtain ⟨g1, g2, g3⟩ := h1 _ (List.getElem_mem hj)
    refine ⟨⟨g1, ?_⟩, ?_⟩
    · simp only
      split
      · omega
      · exact ⟨g2, g3⟩
    · simp only
      split
      · exact hc
      · exact Nat.zero_le _
  have hlen : (sigInputs (codeOf ts) t.vin i ty).length ≤ t.vin.length := by
    unfold sigInputs
    simp only
    split
    · rw [Option.length_toList]; split <;> omega
    · simp
  have hout : ∀ o ∈ sigOutputs t.vout i ty, (-(2 ^ 63) ≤ o.nValue ∧ o.nValue < 2 ^ 63) ∧ o.scriptPubKey.length ≤ MAX_SIZE := by
    intro o hx
    unfold sigOutputs at hx
    split at hx
    · cases hx
    · split at hx
      · rcases List.mem_append.mp hx with hx | hx
        · obtain ⟨-, rfl⟩ := List.mem_replicate.mp hx
          exact ⟨by constructor <;> simp, Nat.zero_le _⟩
        · rw [Option.mem_toList] at hx
          have := List.mem_of_getElem? hx
          exact ⟨hov o this, hos o this⟩
      · exact ⟨hov o hx, hos o hx⟩
  have holen : (sigOutputs t.vout i ty).length < 2 ^ 64 := by
    unfold sigOutputs
    split
    · simp
    · split
      · rw [List.length_append, List.length_replicate]
        rcases hx : t.vout[i]? with _ | x
        · simp; omega
        · have := (List.getElem?_eq_some_iff.mp hx).1
          simp; omega
      · omega
  exact CTransaction.ser_total (t := sigView (codeOf ts) t i ty) ⟨fun x hx => (hall x hx).1, h2, h3⟩ ⟨fun x hx => (hall x hx).2, fun o ho => (hout o ho).2⟩ hv
    (fun o ho => (hout o ho).1) (Nat.lt_of_le_of_lt hlen hi) holen

/-- Out of range: `RawSignatureHash` returns 1 and a message, `SignatureHash` raises ValueError, exactly if there is no such input or,
for hash types about a single output, no such output. -/
theorem C76_out_of_range (H : HashFns) {ts : List Tok} (hts : WFToks ts) {t : CTransaction} (ht : t.Valid) {i : Nat} {ty : Int} :
    (t.vin.length ≤ i ∨ SigSingle ty ∧ t.vout.length ≤ i →
      rawSignatureHash H (scriptOf ts) t i ty = .ok (0x01#8 :: List.replicate 31 0x00#8, true) ∧ signatureHash H (scriptOf ts) t i ty = .error .valueError) ∧
    (¬ (t.vin.length ≤ i ∨ SigSingle ty ∧ t.vout.length ≤ i) →
      ∀ d, rawSignatureHash H (scriptOf ts) t i ty ≠ .ok (d, true)) := by
  constructor
  · intro h
    have hr : rawSignatureHash H (scriptOf ts) t i ty = .ok (HASH_ONE, true) := by
      by_cases hi : t.vin.length ≤ i
      · rw [rawSignatureHash, if_pos (by omega)]
      · rw [rawSignatureHash_eq H hts ht (by omega), if_pos (h.resolve_left hi)]
    exact ⟨hr, by rw [signatureHash, hr, Except.bind_ok]; rfl⟩
  · intro h d hd
    rw [rawSignatureHash_eq H hts ht (by omega), if_neg (fun h' => h (.inr h'))] at hd
    obtain ⟨b, h2, hd⟩ := Except.bind_eq_ok hd
    obtain ⟨c, h3, hd⟩ := Except.bind_eq_ok hd
    cases hd

/-- A script that is not valid has no signature hash. -/
theorem C76_invalid_script (H : HashFns) {s : Bytes} (h : ¬ ∃ ts, WFToks ts ∧ s = scriptOf ts) {t : CTransaction} (ht : t.Valid) {i : Nat}
    (hi : i < t.vin.length) (ty : Int) : rawSignatureHash H s t i ty = .error .scriptInvalid := by
  unfold rawSignatureHash
  rw [if_neg (by omega), mutTx_ok ht, Except.bind_ok, sepScript, Except.bind_ok]
  obtain ⟨ts, bad, g1, g2, g3, g4⟩ := findAndDelete_any s (Tok.op 0xab#8).bytes
  rw [g4, if_neg (fun hb => h ((valid_iff g2 g1 g3).mpr hb)), Except.bind_error]

/-! ## C77: what a signature hash commits to -/

/-- A signature hash is the double hash of a message. -/
theorem C77_hash {H : HashFns} {s : Bytes} {t : CTransaction} {i : Nat} {ty : Int} {d : Bytes} (h : signatureHash H s t i ty = .ok d) :
    ∃ m, SigMessage s t i ty m ∧ d = H.sha256 (H.sha256 m) := by
  obtain ⟨-, -, -, -, -, m, h1, h2⟩ := signatureHash_inv h
  exact ⟨m, h1, h2⟩

theorem append_inj4 {a b : Bytes} {m n : Nat} (hm : m < 2 ^ 32) (hn : n < 2 ^ 32) (h : a ++ little 4 m = b ++ little 4 n) : a = b ∧ m = n := by
  rw [little_eq, little_eq] at h
  obtain ⟨h1, h2⟩ := List.append_inj' h (by rw [leBytes_length, leBytes_length])
  refine ⟨h1, ?_⟩
  have := congrArg leNat h2
  rwa [leNat_leBytes _ _ (by omega), leNat_leBytes _ _ (by omega)] at this

/-- Suppose that two calls of `SignatureHash` return the same, and that the messages do not collide.  Then the hash types are the same,
and so are version, lock time and the script without code separators.  Outputs: unless the type is about none or a single one, they
are all the same; if it is about a single one, then the inputs are at the same place and the outputs at this place are the same.  Inputs:
unless the type says otherwise, the outputs spent are the same; if moreover the type is about all outputs, so are the sequence numbers.
Own input: unless the script without code separators is empty, output spent and sequence number are the same, and, if the type is about
all inputs, the place.  -/
theorem C77_committed {H : HashFns} {s s' : Bytes} {t t' : CTransaction} {i i' : Nat} {ty ty' : Int} {d : Bytes}
    (h : signatureHash H s t i ty = .ok d) (h' : signatureHash H s' t' i' ty' = .ok d)
    (hc : ∀ m m', SigMessage s t i ty m → SigMessage s' t' i' ty' m' → CollisionFree (fun x => H.sha256 (H.sha256 x)) [m, m']) :
    ∃ ts ts', WFToks ts ∧ WFToks ts' ∧ s = scriptOf ts ∧ s' = scriptOf ts' ∧ codeOf ts = codeOf ts' ∧
    ty = ty' ∧ t.nVersion = t'.nVersion ∧ t.nLockTime = t'.nLockTime ∧
    (¬ SigNone ty → ¬ SigSingle ty → t.vout = t'.vout) ∧
    (SigSingle ty → i = i' ∧ t.vout[i]? = t'.vout[i]?) ∧
    (¬ SigAnyone ty → t.vin.map CTxIn.prevout = t'.vin.map CTxIn.prevout) ∧
    (¬ SigAnyone ty → ¬ SigNone ty → ¬ SigSingle ty → t.vin.map CTxIn.nSequence = t'.vin.map CTxIn.nSequence) ∧
    (¬ SigAnyone ty → codeOf ts ≠ [] → i = i') ∧
    (SigAnyone ty ∨ codeOf ts ≠ [] → t.vin[i]?.map CTxIn.prevout = t'.vin[i']?.map CTxIn.prevout ∧ t.vin[i]?.map CTxIn.nSequence = t'.vin[i']?.map CTxIn.nSequence) := by
  obtain ⟨-, hi, h0, h1, ho, m, hm, hd⟩ := signatureHash_inv h
  obtain ⟨-, hi', h0', h1', ho', m', hm', hd'⟩ := signatureHash_inv h'
  have hmm : m = m' := hc m m' hm hm' m (by simp) m' (by simp) (hd.symm.trans hd')
  obtain ⟨ts, b, hts, rfl, hb, rfl⟩ := hm
  obtain ⟨ts', b', hts', rfl, hb', hm'⟩ := hm'
  rw [hm'] at hmm
  obtain ⟨rfl, hty⟩ := append_inj4 (by omega) (by omega) hmm
  have hty : ty = ty' := by omega
  subst hty
  have hv := PF.tx.inj hb hb'
  simp only [sigView, CTransaction.mk.injEq] at hv
  obtain ⟨hv1, hv2, hv3, hv4⟩ := hv
  -- the input signed for
  have hat : ∀ (code : Bytes) (vin : List CTxIn) (k j : Nat), (vin.mapIdx fun j x => CTxIn.mk x.prevout (if j = k then code else []) (if j ≠ k ∧ (SigNone ty ∨ SigSingle ty) then 0 else x.nSequence))[j]? =
      vin[j]?.map fun x => CTxIn.mk x.prevout (if j = k then code else []) (if j ≠ k ∧ (SigNone ty ∨ SigSingle ty) then 0 else x.nSequence) := by
    intro code vin k j; rw [List.getElem?_mapIdx]
  have hi1 := List.getElem?_eq_getElem hi
  have hi2 := List.getElem?_eq_getElem hi'
  -- everything about the inputs
  have key : codeOf ts = codeOf ts' ∧ (¬ SigAnyone ty → t.vin.map CTxIn.prevout = t'.vin.map CTxIn.prevout) ∧
      (¬ SigAnyone ty → ¬ SigNone ty → ¬ SigSingle ty → t.vin.map CTxIn.nSequence = t'.vin.map CTxIn.nSequence) ∧
      (¬ SigAnyone ty → codeOf ts ≠ [] → i = i') ∧
      (SigAnyone ty ∨ codeOf ts ≠ [] → t.vin[i]?.map CTxIn.prevout = t'.vin[i']?.map CTxIn.prevout ∧ t.vin[i]?.map CTxIn.nSequence = t'.vin[i']?.map CTxIn.nSequence) := by
    unfold sigInputs at hv2
    simp only at hv2
    by_cases ha : SigAnyone ty
    · rw [if_pos ha, if_pos ha, hat, hat, hi1, hi2] at hv2
      simp only [Option.map_some, Option.toList_some, List.cons.injEq, CTxIn.mk.injEq, if_true, and_true, ne_eq, not_true, false_and, if_false] at hv2
      refine ⟨hv2.2.1, fun h => absurd ha h, fun h => absurd ha h, fun h => absurd ha h, fun _ => ?_⟩
      rw [hi1, hi2]
      simp [hv2.1, hv2.2.2]
    · rw [if_neg ha, if_neg ha] at hv2
      have hj : ∀ j, t.vin[j]?.map (fun x => CTxIn.mk x.prevout (if j = i then codeOf ts else []) (if j ≠ i ∧ (SigNone ty ∨ SigSingle ty) then 0 else x.nSequence)) =
          t'.vin[j]?.map (fun x => CTxIn.mk x.prevout (if j = i' then codeOf ts' else []) (if j ≠ i' ∧ (SigNone ty ∨ SigSingle ty) then 0 else x.nSequence)) := by
        intro j
        rw [← hat, ← hat, hv2]
      have hcode : (codeOf ts = codeOf ts' ∧ (codeOf ts ≠ [] → i = i')) := by
        by_cases hii : i = i'
        · subst hii
          have := hj i
          rw [hi1, hi2] at this
          simp at this
          exact ⟨this.2.1, fun _ => rfl⟩
        · have h1 := hj i
          have h2 := hj i'
          have hii' : i' ≠ i := fun h => hii h.symm
          rw [hi1] at h1
          rw [hi2] at h2
          rcases hx : t'.vin[i]? with _ | x
          · rw [hx] at h1; cases h1
          · rcases hy : t.vin[i']? with _ | y
            · rw [hy] at h2; cases h2
            · rw [hx] at h1
              rw [hy] at h2
              simp [hii] at h1
              simp [hii'] at h2
              exact ⟨by rw [h1.2.1, h2.2.1], fun h => absurd h1.2.1 h⟩
      have hprev : t.vin.map CTxIn.prevout = t'.vin.map CTxIn.prevout := by
        apply List.ext_getElem?
        intro j
        have := congrArg (Option.map CTxIn.prevout) (hj j)
        simpa [Option.map_map, Function.comp_def] using this
      refine ⟨hcode.1, fun _ => hprev, fun _ hn hs => ?_, fun _ => hcode.2, fun hh => ?_⟩
      · apply List.ext_getElem?
        intro j
        have := congrArg (Option.map CTxIn.nSequence) (hj j)
        simpa [Option.map_map, Function.comp_def, hn, hs] using this
      · have hii := hcode.2 (hh.resolve_left ha)
        subst hii
        have := hj i
        rw [hi1, hi2] at this
        simp at this
        rw [hi1, hi2]
        simp [this.1, this.2.2]
  refine ⟨ts, ts', hts, hts', rfl, rfl, key.1, rfl, hv1, hv4, ?_, ?_, key.2⟩
  · intro hn hs
    simpa [sigOutputs, hn, hs] using hv3
  · intro hs
    have hn : ¬ SigNone ty := by intro hn; unfold SigNone at hn; unfold SigSingle at hs; omega
    simp only [sigOutputs, if_neg hn, if_pos hs, List.getElem?_eq_getElem (ho hs), List.getElem?_eq_getElem (ho' hs), Option.toList_some] at hv3
    have hl := congrArg List.length hv3
    simp at hl
    subst hl
    refine ⟨rfl, ?_⟩
    have := List.append_cancel_left hv3
    simp at this
    rw [List.getElem?_eq_getElem (ho hs), List.getElem?_eq_getElem (ho' hs), this]

/-! ## C78: what it does not commit to -/

/-- The converse of `C77_committed`: whatever is not named there does not matter.  Two calls for which the things named there are the
same return the same, or raise the same. -/
theorem C78_nothing_else (H : HashFns) {ts ts' : List Tok} (hts : WFToks ts) (hts' : WFToks ts') {t t' : CTransaction} (ht : t.Valid) (ht' : t'.Valid)
    {i i' : Nat} (hi : i < t.vin.length) (hi' : i' < t'.vin.length) {ty : Int} (hcode : codeOf ts = codeOf ts')
    (hv : t.nVersion = t'.nVersion) (hl : t.nLockTime = t'.nLockTime)
    (ho : ¬ SigNone ty → ¬ SigSingle ty → t.vout = t'.vout) (hs : SigSingle ty → i = i' ∧ t.vout[i]? = t'.vout[i]?)
    (hp : ¬ SigAnyone ty → i = i' ∧ t.vin.map CTxIn.prevout = t'.vin.map CTxIn.prevout)
    (hq : ¬ SigAnyone ty → ¬ SigNone ty → ¬ SigSingle ty → t.vin.map CTxIn.nSequence = t'.vin.map CTxIn.nSequence)
    (hown : t.vin[i].prevout = t'.vin[i'].prevout ∧ t.vin[i].nSequence = t'.vin[i'].nSequence) :
    rawSignatureHash H (scriptOf ts) t i ty = rawSignatureHash H (scriptOf ts') t' i' ty := by
  have hi1 := List.getElem?_eq_getElem hi
  have hi2 := List.getElem?_eq_getElem hi'
  have hin : sigInputs (codeOf ts) t.vin i ty = sigInputs (codeOf ts') t'.vin i' ty := by
    rw [← hcode]
    unfold sigInputs
    simp only
    by_cases ha : SigAnyone ty
    · rw [if_pos ha, if_pos ha, List.getElem?_mapIdx, List.getElem?_mapIdx, hi1, hi2]
      simp [hown.1, hown.2]
    · obtain ⟨rfl, hpp⟩ := hp ha
      rw [if_neg ha, if_neg ha]
      apply List.ext_getElem?
      intro j
      rw [List.getElem?_mapIdx, List.getElem?_mapIdx]
      have hj : t.vin[j]?.map CTxIn.prevout = t'.vin[j]?.map CTxIn.prevout := by rw [← List.getElem?_map, ← List.getElem?_map, hpp]
      rcases hx : t.vin[j]? with _ | x
      · rw [hx] at hj
        rcases hy : t'.vin[j]? with _ | y
        · rfl
        · rw [hy] at hj; cases hj
      · rw [hx] at hj
        rcases hy : t'.vin[j]? with _ | y
        · rw [hy] at hj; cases hj
        · rw [hy] at hj
          simp only [Option.map_some, Option.some.injEq] at hj
          by_cases hji : j = i
          · subst hji
            rw [hi1] at hx
            rw [hi2] at hy
            cases hx; cases hy
            simp [hown.1, hown.2]
          · by_cases hns : SigNone ty ∨ SigSingle ty
            · simp [hji, hns, hj]
            · have hq := hq ha (fun h => hns (.inl h)) (fun h => hns (.inr h))
              have hjq : t.vin[j]?.map CTxIn.nSequence = t'.vin[j]?.map CTxIn.nSequence := by rw [← List.getElem?_map, ← List.getElem?_map, hq]
              rw [hx, hy] at hjq
              simp only [Option.map_some, Option.some.injEq] at hjq
              simp [hji, hns, hj, hjq]
  have hout : sigOutputs t.vout i ty = sigOutputs t'.vout i' ty := by
    unfold sigOutputs
    split
    · rfl
    · rename_i hn
      split
      · rename_i hss
        obtain ⟨rfl, h⟩ := hs hss
        rw [h]
      · rename_i hss
        exact ho hn hss
  have hrange : (SigSingle ty ∧ t.vout.length ≤ i) ↔ (SigSingle ty ∧ t'.vout.length ≤ i') := by
    constructor
    · rintro ⟨h, h1⟩
      obtain ⟨rfl, h2⟩ := hs h
      refine ⟨h, ?_⟩
      rw [List.getElem?_eq_none h1] at h2
      exact List.getElem?_eq_none_iff.mp h2.symm
    · rintro ⟨h, h1⟩
      obtain ⟨rfl, h2⟩ := hs h
      refine ⟨h, ?_⟩
      rw [List.getElem?_eq_none h1] at h2
      exact List.getElem?_eq_none_iff.mp h2
  have hview : sigView (codeOf ts) t i ty = sigView (codeOf ts') t' i' ty := by
    unfold sigView
    rw [hv, hl, hin, hout]
  rw [rawSignatureHash_eq H hts ht hi, rawSignatureHash_eq H hts' ht' hi', hview]
  by_cases h : SigSingle ty ∧ t.vout.length ≤ i
  · rw [if_pos h, if_pos (hrange.mp h)]
  · rw [if_neg h, if_neg (fun h' => h (hrange.mpr h'))]

/-- In particular, signatures already present do not matter: replacing the scripts of the inputs changes nothing. -/
theorem C78_input_scripts (H : HashFns) {ts : List Tok} (hts : WFToks ts) {t : CTransaction} (ht : t.Valid) {i : Nat} (hi : i < t.vin.length) (ty : Int)
    (f : Nat → Bytes) :
    rawSignatureHash H (scriptOf ts) { t with vin := t.vin.mapIdx fun j x => { x with scriptSig := f j } } i ty = rawSignatureHash H (scriptOf ts) t i ty := by
  refine C78_nothing_else H hts hts ?_ ht (by simpa using hi) hi rfl rfl rfl (fun _ _ => rfl) (fun _ => ⟨rfl, rfl⟩) (fun _ => ⟨rfl, ?_⟩) (fun _ _ _ => ?_) ?_
  · refine ⟨fun x hx => ?_, ht.2⟩
    obtain ⟨j, hj, rfl⟩ := List.mem_mapIdx.mp hx
    exact (ht.1 t.vin[j] (List.getElem_mem hj) :)
  · apply List.ext_getElem? ; intro j; simp [List.getElem?_mapIdx, Function.comp_def]
  · apply List.ext_getElem? ; intro j; simp [List.getElem?_mapIdx, Function.comp_def]
  · simp

/-! ## A case -/

/-- Two inputs, two outputs, and the script of the output spent by the first input, with a code separator. -/
def exSigTx : CTransaction :=
  ⟨1, [⟨⟨List.replicate 32 0x07#8, 1⟩, [0x51#8], 0xffffffff⟩, ⟨⟨List.replicate 32 0x08#8, 0⟩, [], 5⟩], [⟨5000, [0x6a#8]⟩, ⟨7, []⟩], 0⟩

def exSigToks : List Tok := [.op 0x76#8, .op 0xab#8, .push .direct (List.replicate 20 0x01#8), .op 0xac#8]

example : WFToks exSigToks ∧ exSigTx.Valid ∧ codeOf exSigToks = [0x76#8, 0x14#8] ++ List.replicate 20 0x01#8 ++ [0xac#8] := by decide

example : (sigView (codeOf exSigToks) exSigTx 0 3).vin = [⟨⟨List.replicate 32 0x07#8, 1⟩, codeOf exSigToks, 0xffffffff⟩, ⟨⟨List.replicate 32 0x08#8, 0⟩, [], 0⟩] ∧
    (sigView (codeOf exSigToks) exSigTx 0 3).vout = [⟨5000, [0x6a#8]⟩] := by decide

example : SigAnyone 0x83 ∧ SigSingle 0x83 ∧ ¬ SigNone 0x83 ∧ ¬ SigAnyone 1 ∧ ¬ SigSingle 1 ∧ ¬ SigNone 1 := by decide

/-- The same with another script in the first input. -/
def exSigTx' : CTransaction := { exSigTx with vin := [⟨⟨List.replicate 32 0x07#8, 1⟩, [0x52#8, 0x53#8], 0xffffffff⟩, ⟨⟨List.replicate 32 0x08#8, 0⟩, [], 5⟩] }

/-- The hypotheses of `C77_committed` for these two: there is only one message. -/
example : (∃ d, signatureHash realHash (scriptOf exSigToks) exSigTx 0 1 = .ok d ∧ signatureHash realHash (scriptOf exSigToks) exSigTx' 0 1 = .ok d) ∧
    exSigTx ≠ exSigTx' ∧ ∀ m m', SigMessage (scriptOf exSigToks) exSigTx 0 1 m → SigMessage (scriptOf exSigToks) exSigTx' 0 1 m' →
      CollisionFree (fun x => realHash.sha256 (realHash.sha256 x)) [m, m'] := by
  refine ⟨?_, by decide, ?_⟩
  · have h1 : signatureHash realHash (scriptOf exSigToks) exSigTx 0 1 = signatureHash realHash (scriptOf exSigToks) exSigTx' 0 1 := by decide +kernel
    obtain ⟨b, hb⟩ := C76_serializes (ts := exSigToks) (t := exSigTx) (i := 0) (ty := 1) (by decide) (by decide) (by decide) (by decide) (by decide) (by decide) (by decide) (by decide)
    have h2 := (C76_message realHash (s := scriptOf exSigToks) (ts := exSigToks) (by decide) rfl (t := exSigTx) (i := 0) (by decide) (by decide) (ty := 1) (by decide) (by decide) hb).1
    exact ⟨_, h2, h1 ▸ h2⟩
  · rintro m m' ⟨ts, b, h1, h2, h3, rfl⟩ ⟨ts', b', h1', h2', h3', rfl⟩
    have e1 := scriptOf_inj (by decide) h1 h2
    have e2 := scriptOf_inj (by decide) h1' h2'
    subst e1
    subst e2
    have : sigView (codeOf exSigToks) exSigTx 0 1 = sigView (codeOf exSigToks) exSigTx' 0 1 := by decide
    rw [this, h3'] at h3
    cases h3
    intro x hx y hy _
    simp at hx hy
    rw [hx, hy]

/-- Another type, another hash: the messages are different, and so are the hashes. -/
example : signatureHash realHash (scriptOf exSigToks) exSigTx 0 1 ≠ signatureHash realHash (scriptOf exSigToks) exSigTx 0 2 := by decide +kernel

end Verif.Btc
