import Verif.Spec.Spend
import Verif.Props.ScriptEval
import Verif.Props.SigHash
/-! # C114: signed inputs spend what they are to spend -/
namespace Verif.Btc
open Verif

/-! ## The script with the key -/

/-- The key, CHECKSIG. -/
def ownKeyToks (k : Bytes) : List Tok := [.push (shortest k) k, .op 0xac#8]

theorem ownKeyToks_wf {k : Bytes} (h : k.length ≤ 520) : WFToks (ownKeyToks k) := by
  intro u hu
  simp only [ownKeyToks, List.mem_cons, List.not_mem_nil, or_false] at hu
  rcases hu with rfl | rfl
  · exact shortest_ok h
  · exact show 0x4e < 0xac by omega

theorem ownKeyToks_line {k : Bytes} : ∀ u ∈ ownKeyToks k, ¬ IsCond u := by
  intro u hu
  simp only [ownKeyToks, List.mem_cons, List.not_mem_nil, or_false] at hu
  rcases hu with rfl | rfl <;> unfold IsCond Prog.ifTok Prog.elseTok Prog.endTok <;> simp

theorem ownKeyToks_length {k : Bytes} (h : k.length ≤ 65) : (scriptOf (ownKeyToks k)).length ≤ 67 := by
  have hs : shortest k = .direct := by rw [shortest, if_pos (by omega)]
  simp [ownKeyToks, scriptOf, hs, Tok.bytes, little]
  omega

theorem evals_key {L : Lang} (hL : L.strict = false) {t : CTransaction} {i : Nat} {k sig : Bytes} (hk : k.length ≤ 65) {r : List Bytes} (hr : r.length ≤ 900) :
    Evals L t i (scriptOf (ownKeyToks k)) (sig :: r) (L.bool (goodSig L.C t i (without [sig] (ownKeyToks k)) sig k = true) :: r) := by
  have hlen := ownKeyToks_length hk
  rw [evals_line (ownKeyToks_wf (by omega)) ownKeyToks_line, line_eval (by omega)]
  generalize hcode : ownKeyToks k = code
  rw [show (line code) = line (ownKeyToks k) by rw [hcode], ownKeyToks, run_push hL (by omega), run_op (by decide) (by decide) (show 0 < 201 by omega)]
  rw [perform, if_neg (by decide), if_neg (by decide), if_pos rfl, Option.bind_some, limit_ok (by simp; omega)]
  rfl

/-! ## Transactions that differ in scriptSigs only -/

namespace SameButSigs
variable {t t' t'' : CTransaction}

theorem refl (t : CTransaction) : SameButSigs t t := ⟨rfl, rfl, rfl, rfl⟩

theorem trans (h : SameButSigs t t') (h' : SameButSigs t' t'') : SameButSigs t t'' :=
  ⟨h'.version.trans h.version, h'.ins.trans h.ins, h'.outs.trans h.outs, h'.lock.trans h.lock⟩

theorem length (h : SameButSigs t t') : t'.vin.length = t.vin.length := by simpa using congrArg List.length h.ins

theorem modify (t : CTransaction) (i : Nat) (ss : Bytes) : SameButSigs t { t with vin := t.vin.modify i fun x => { x with scriptSig := ss } } := by
  refine ⟨rfl, ?_, rfl, rfl⟩
  apply List.ext_getElem?
  intro j
  simp only [List.getElem?_map, List.getElem?_modify]
  rcases t.vin[j]? with _ | x
  · rfl
  · by_cases h : i = j <;> simp [h]

theorem fits (h : SameButSigs t t') (ht : TxFits t) : TxFits t' := by
  obtain ⟨⟨v1, v2⟩, a, b, c, d, e⟩ := ht
  refine ⟨⟨fun x hx => ?_, by rw [h.lock]; exact v2⟩, by rw [h.version]; exact a, by rw [h.outs]; exact b, by rw [h.outs]; exact c, by rw [h.length]; exact d, by rw [h.outs]; exact e⟩
  have h1 : (x.prevout, x.nSequence) ∈ t'.vin.map (fun x => (x.prevout, x.nSequence)) := List.mem_map_of_mem hx
  rw [h.ins] at h1
  obtain ⟨y, hy, e⟩ := List.mem_map.mp h1
  obtain ⟨e1, e2⟩ := Prod.mk.inj e
  have := v1 y hy
  unfold CTxIn.Valid at this ⊢
  rw [← e1, ← e2]
  exact this

theorem view (h : SameButSigs t t') (code : Bytes) (i : Nat) (ty : Int) : sigView code t' i ty = sigView code t i ty := by
  unfold sigView
  rw [h.version, h.outs, h.lock]
  have : ∀ (f : Nat → COutPoint × Int → CTxIn), t'.vin.mapIdx (fun j x => f j (x.prevout, x.nSequence)) = t.vin.mapIdx (fun j x => f j (x.prevout, x.nSequence)) := by
    intro f
    have e : ∀ l : List CTxIn, l.mapIdx (fun j x => f j (x.prevout, x.nSequence)) = (l.map fun x => (x.prevout, x.nSequence)).mapIdx f := by
      intro l
      apply List.ext_getElem?
      intro j
      simp only [List.getElem?_mapIdx, List.getElem?_map, Option.map_map]
      rfl
    rw [e, e, h.ins]
  unfold sigInputs
  rw [this fun j p => CTxIn.mk p.1 (if j = i then code else []) (if j ≠ i ∧ (SigNone ty ∨ SigSingle ty) then 0 else p.2)]

theorem digest (h : SameButSigs t t') (H : HashFns) (code : List Tok) (i ty : Nat) : digest H code t' i ty = Btc.digest H code t i ty := by
  unfold Btc.digest
  rw [h.view, h.length, h.outs]

end SameButSigs

/-! ## One input -/

/-- The script that is signed. -/
def Form.toks (H : HashFns) (k : Signer) : Form → List Tok
  | .keyHash => keyHashToks (H.hash160 k.pub)
  | .scriptHash => ownKeyToks k.pub

theorem signedScript_ok (H : HashFns) {k : Signer} (hk : k.pub.length ≤ 65) (f : Form) : signedScript H k f = .ok (scriptOf (f.toks H k)) ∧ WFToks (f.toks H k) ∧
    (scriptOf (f.toks H k)).length ≤ 67 ∧ codeOf (f.toks H k) = scriptOf (f.toks H k) := by
  have h20 : (H.hash160 k.pub).length = 20 := H.ripemd160_len _
  cases f with
  | keyHash =>
    refine ⟨?_, keyHash_wf h20, by rw [Form.toks, keyHash_length h20]; omega, rfl⟩
    have := (encodePushdata_ok (d := H.hash160 k.pub) (by omega)).1
    rw [shortest, if_pos (by omega)] at this
    simp only [signedScript, mkScript, coerceItem, this, Except.bind_ok, Form.toks, keyHashToks, scriptOf, List.flatMap_cons, List.flatMap_nil, Tok.bytes]
    rfl
  | scriptHash =>
    refine ⟨?_, ownKeyToks_wf (by omega), ownKeyToks_length hk, rfl⟩
    have := (encodePushdata_ok (d := k.pub) (by omega)).1
    simp only [signedScript, mkScript, coerceItem, this, Except.bind_ok, Form.toks, ownKeyToks, scriptOf, List.flatMap_cons, List.flatMap_nil]
    rfl

/-- The signature with its hash type. -/
def sigFor (H : HashFns) (k : Signer) (f : Form) (ty : Int) (t : CTransaction) (i : Nat) : Bytes :=
  k.sign (digest H (f.toks H k) t i ty.toNat) ++ [BitVec.ofInt 8 ty]

/-- What is pushed after the signature. -/
def Form.top (H : HashFns) (k : Signer) : Form → Bytes
  | .keyHash => k.pub
  | .scriptHash => scriptOf (ownKeyToks k.pub)

theorem top_le (H : HashFns) {k : Signer} (hk : k.pub.length ≤ 65) (f : Form) : (f.top H k).length ≤ 67 := by
  cases f with
  | keyHash => exact Nat.le_trans hk (by omega)
  | scriptHash => exact ownKeyToks_length hk

theorem top_eq (H : HashFns) (k : Signer) (f : Form) : pushedAfter k (scriptOf (f.toks H k)) f = f.top H k := by
  cases f <;> rfl

/-- The scriptSig. -/
def sigScript (H : HashFns) (k : Signer) (f : Form) (ty : Int) (t : CTransaction) (i : Nat) : Bytes :=
  scriptOf (pushToks [sigFor H k f ty t i, f.top H k])

variable {C : Crypto}

theorem signatureHash_digest (H : HashFns) {ts : List Tok} (hts : WFToks ts) (hc : (codeOf ts).length ≤ MAX_SIZE) {t : CTransaction} (ht : TxFits t) {i : Nat}
    (hi : i < t.vin.length) {ty : Int} (hty : 0 ≤ ty ∧ ty < 256) (ho : SigSingle ty → i < t.vout.length) :
    signatureHash H (scriptOf ts) t i ty = .ok (digest H ts t i ty.toNat) := by
  obtain ⟨b, hb⟩ := C76_serializes (ts := ts) (i := i) (ty := ty) ht.valid hc ht.version ht.values ht.scripts ht.ins ht.outs hi
  rw [(C76_message H hts rfl ht.valid hi (by omega) ho hb).1]
  have e : ((ty.toNat : Nat) : Int) = ty := Int.toNat_of_nonneg hty.1
  unfold digest
  rw [e, if_neg (by rintro (h | ⟨h1, h2⟩) <;> [omega; (have := ho h1; omega)]), hb]

theorem digest_length (H : HashFns) {ts : List Tok} (hc : (codeOf ts).length ≤ MAX_SIZE) {t : CTransaction} (ht : TxFits t) {i : Nat}
    (hi : i < t.vin.length) {ty : Int} (hty : 0 ≤ ty ∧ ty < 256) : (digest H ts t i ty.toNat).length = 32 := by
  have e : ((ty.toNat : Nat) : Int) = ty := Int.toNat_of_nonneg hty.1
  obtain ⟨b, hb⟩ := C76_serializes (ts := ts) (i := i) (ty := ty) ht.valid hc ht.version ht.values ht.scripts ht.ins ht.outs hi
  unfold digest
  split
  · rfl
  · rw [e, hb]
    exact H.sha256_len _

theorem form_length (H : HashFns) {k : Signer} (hk : k.pub.length ≤ 65) (f : Form) {t : CTransaction} (ht : TxFits t) {i : Nat}
    (hi : i < t.vin.length) {ty : Int} (hty : 0 ≤ ty ∧ ty < 256) : (digest H (f.toks H k) t i ty.toNat).length = 32 := by
  obtain ⟨_, _, h3, h4⟩ := signedScript_ok H hk f
  exact digest_length H (by rw [h4]; unfold MAX_SIZE; omega) ht hi hty

theorem signInput_ok {k : Signer} (hk : k.Works C) (f : Form) {ty : Int} (hty : 0 ≤ ty ∧ ty < 256) {t : CTransaction} (ht : TxFits t) {i : Nat}
    (hi : i < t.vin.length) (ho : SigSingle ty → i < t.vout.length) :
    signInput C.H k f ty t i = .ok { t with vin := t.vin.modify i fun x => { x with scriptSig := sigScript C.H k f ty t i } } := by
  obtain ⟨h1, h2, h3, h4⟩ := signedScript_ok C.H hk.key f
  have hlen := form_length C.H hk.key f ht hi hty
  have h5 : (sigFor C.H k f ty t i).length ≤ 520 := by
    have := hk.short (digest C.H (f.toks C.H k) t i ty.toNat) hlen
    simp only [sigFor, List.length_append, List.length_cons, List.length_nil]
    omega
  have h6 := top_le C.H hk.key f
  unfold signInput
  rw [h1, Except.bind_ok, signatureHash_digest C.H h2 (by rw [h4]; unfold MAX_SIZE; omega) ht hi hty ho, Except.bind_ok, bytesOf, if_pos hty, Except.bind_ok]
  have e1 := (encodePushdata_ok (d := sigFor C.H k f ty t i) (by omega)).1
  have e2 := (encodePushdata_ok (d := f.top C.H k) (by omega)).1
  rw [top_eq]
  have e4 : mkScript [.data (k.sign (digest C.H (f.toks C.H k) t i ty.toNat) ++ [BitVec.ofInt 8 ty]), .data (f.top C.H k)] = .ok (sigScript C.H k f ty t i) := by
    show mkScript [.data (sigFor C.H k f ty t i), .data (f.top C.H k)] = _
    simp only [mkScript, coerceItem, e1, e2, Except.bind_ok, sigScript, pushToks, List.map_cons, List.map_nil, scriptOf, List.flatMap_cons, List.flatMap_nil]
    rfl
  dsimp only
  rw [e4]
  rfl

theorem sigFor_without {k : Signer} (hk : k.Works C) {f : Form} {ty : Int} {t : CTransaction} {i : Nat} (hlen : (digest C.H (f.toks C.H k) t i ty.toNat).length = 32) :
    without [sigFor C.H k f ty t i] (f.toks C.H k) = f.toks C.H k := by
  have hl := hk.long (digest C.H (f.toks C.H k) t i ty.toNat) hlen
  have h20 : (C.H.hash160 k.pub).length = 20 := C.H.ripemd160_len _
  unfold without
  rw [List.filter_eq_self]
  intro u hu
  simp only [List.mem_singleton, exists_eq_left, decide_eq_true_eq]
  intro e
  subst e
  cases f with
  | keyHash =>
    simp only [Form.toks, keyHashToks, List.mem_cons, reduceCtorEq, Tok.push.injEq, List.not_mem_nil, or_false, false_or] at hu
    have := congrArg List.length hu.2
    simp only [sigFor, List.length_append, List.length_cons, List.length_nil, h20] at this
    omega
  | scriptHash =>
    simp only [Form.toks, ownKeyToks, List.mem_cons, reduceCtorEq, Tok.push.injEq, List.not_mem_nil, or_false] at hu
    exact hk.apart _ _ hlen hu.2

/-- The signature is good for any transaction that differs in scriptSigs only. -/
theorem sigFor_good {k : Signer} (hk : k.Works C) (f : Form) {ty : Int} (hty : 0 ≤ ty ∧ ty < 256) {t t' : CTransaction} (hs : SameButSigs t t') {i : Nat}
    (hlen : (digest C.H (f.toks C.H k) t i ty.toNat).length = 32) :
    goodSig C t' i (without [sigFor C.H k f ty t i] (f.toks C.H k)) (sigFor C.H k f ty t i) k.pub = true := by
  rw [sigFor_without hk hlen]
  unfold goodSig
  have hty' : (BitVec.ofInt 8 ty).toNat = ty.toNat := by
    rw [BitVec.toNat_ofInt]
    congr 1
    omega
  rw [sigFor, List.getLast?_concat]
  simp only
  rw [List.dropLast_concat, hty', hs.digest]
  exact hk.verifies _ hlen

theorem sigScript_spends {k : Signer} (hk : k.Works C) (f : Form) {ty : Int} (hty : 0 ≤ ty ∧ ty < 256) {t t' : CTransaction} (hs : SameButSigs t t') (ht : TxFits t') {i : Nat}
    (hlen : (digest C.H (f.toks C.H k) t i ty.toNat).length = 32) :
    ∃ spk, outputScript C.H k f = .ok spk ∧ ∀ flags, verifyScript C (sigScript C.H k f ty t i) spk t' i flags = .ok () := by
  obtain ⟨h1, h2, h3, h4⟩ := signedScript_ok C.H hk.key f
  have h5 : (sigFor C.H k f ty t i).length ≤ 520 := by
    have := hk.short (digest C.H (f.toks C.H k) t i ty.toNat) hlen
    simp only [sigFor, List.length_append, List.length_cons, List.length_nil]
    omega
  have h6 := top_le C.H hk.key f
  have hg := sigFor_good hk f hty hs hlen
  cases f with
  | keyHash =>
    refine ⟨_, h1, fun flags => ?_⟩
    exact (C94_pushes ht i (C.H.ripemd160_len _) h5 (by have := hk.key; omega) flags).mpr ⟨rfl, hg⟩
  | scriptHash =>
    have h7 := ((C74_to_p2sh C.H (scriptOf (ownKeyToks k.pub)) true).2 (by rintro ⟨_, h⟩; have : (scriptOf (ownKeyToks k.pub)).length ≤ 67 := h3; omega)).1
    have h20 : (C.H.ripemd160 (C.H.sha256 (scriptOf (ownKeyToks k.pub)))).length = 20 := C.H.ripemd160_len _
    rw [← scriptHash_bytes h20] at h7
    refine ⟨_, by rw [outputScript, h1, Except.bind_ok]; exact h7, fun flags => ?_⟩
    rw [(C92_verify (num := shortNum) (hn := shortNum_spec) ht i _ _ flags).1]
    have hle : ∀ d ∈ [sigFor C.H k .scriptHash ty t i, Form.top C.H k .scriptHash], d.length ≤ 520 := by
      intro d hd
      simp only [List.mem_cons, List.not_mem_nil, or_false] at hd
      rcases hd with rfl | rfl
      · exact h5
      · omega
    have e1 : Evals (here C shortNum shortNum_spec) t' i (sigScript C.H k .scriptHash ty t i) [] [scriptOf (ownKeyToks k.pub), sigFor C.H k .scriptHash ty t i] :=
      (evals_pushes rfl hle (by have := pushToks_length hle; simp only [List.length_cons, List.length_nil] at this; omega)).mpr rfl
    refine ⟨⟨_, _, e1, (evals_scriptHash rfl h20).mpr ⟨_, _, rfl, by simp, rfl⟩, _, _, rfl, (truthy_bool ff_false _).mpr rfl⟩, fun _ h _ _ => ⟨⟨_, pushToks_wf hle, rfl, ?_⟩, _, _, _, e1, evals_key rfl hk.key (by simp), _, _, rfl, (truthy_bool ff_false _).mpr hg⟩⟩
    · intro u hu
      obtain ⟨d, _, rfl⟩ := List.mem_map.mp hu
      rfl

theorem sigScript_length {k : Signer} (hk : k.Works C) {f : Form} {ty : Int} {t : CTransaction} {i : Nat}
    (hlen : (digest C.H (f.toks C.H k) t i ty.toNat).length = 32) : (sigScript C.H k f ty t i).length ≤ 1046 := by
  have h5 : (sigFor C.H k f ty t i).length ≤ 520 := by
    have := hk.short (digest C.H (f.toks C.H k) t i ty.toNat) hlen
    simp only [sigFor, List.length_append, List.length_cons, List.length_nil]
    omega
  have h6 := top_le C.H hk.key f
  have := pushToks_length (l := [sigFor C.H k f ty t i, f.top C.H k]) (by
    intro d hd
    simp only [List.mem_cons, List.not_mem_nil, or_false] at hd
    rcases hd with rfl | rfl
    · exact h5
    · omega)
  exact this

/-! ## Any inputs, in any order -/

/-- Signing inputs of a transaction, in any order, changes no more than their scriptSigs, and when all of them are signed each of them spends the output it is
to spend, whichever keys, forms of output and hash types are used: `VerifyScript` accepts it with any flags.  Later signatures do not invalidate earlier ones. -/
theorem C114_signs (keys : Nat → Signer) (forms : Nat → Form) (tys : Nat → Int) {t : CTransaction} (ht : TxFits t) (order : List Nat)
    (hk : ∀ i ∈ order, (keys i).Works C) (hty : ∀ i ∈ order, 0 ≤ tys i ∧ tys i < 256) (hi : ∀ i ∈ order, i < t.vin.length)
    (ho : ∀ i ∈ order, SigSingle (tys i) → i < t.vout.length) :
    ∃ t', signInputs C.H keys forms tys t order = .ok t' ∧ SameButSigs t t' ∧ (∀ j, j ∉ order → t'.vin[j]? = t.vin[j]?) ∧
      ∀ i ∈ order, ∃ x spk, t'.vin[i]? = some x ∧ x.scriptSig.length ≤ 1046 ∧ outputScript C.H (keys i) (forms i) = .ok spk ∧
        ∀ flags, verifyScript C x.scriptSig spk t' i flags = .ok () := by
  -- what is signed does not depend on the scriptSigs that are there already
  have key : ∀ (order : List Nat), (∀ i ∈ order, (keys i).Works C) → (∀ i ∈ order, 0 ≤ tys i ∧ tys i < 256) → (∀ i ∈ order, i < t.vin.length) →
      (∀ i ∈ order, SigSingle (tys i) → i < t.vout.length) → ∀ u, SameButSigs t u →
      ∃ t', signInputs C.H keys forms tys u order = .ok t' ∧ SameButSigs t t' ∧ (∀ j, j ∉ order → t'.vin[j]? = u.vin[j]?) ∧
        ∀ i ∈ order, (t'.vin[i]?).map CTxIn.scriptSig = some (sigScript C.H (keys i) (forms i) (tys i) t i) := by
    intro order
    induction order with
    | nil => intro _ _ _ _ u hu; exact ⟨u, rfl, hu, fun _ _ => rfl, fun _ h => by cases h⟩
    | cons i order ih =>
      intro hk hty hi ho u hu
      have hS : sigScript C.H (keys i) (forms i) (tys i) u i = sigScript C.H (keys i) (forms i) (tys i) t i := by
        unfold sigScript sigFor
        rw [hu.digest]
      have h1 := signInput_ok (hk i (by simp)) (forms i) (hty i (by simp)) (hu.fits ht) (by rw [hu.length]; exact hi i (by simp)) (by rw [hu.outs]; exact ho i (by simp))
      rw [hS] at h1
      have hu' := hu.trans (.modify u i (sigScript C.H (keys i) (forms i) (tys i) t i))
      obtain ⟨t', g1, g2, g3, g4⟩ := ih (fun j hj => hk j (by simp [hj])) (fun j hj => hty j (by simp [hj])) (fun j hj => hi j (by simp [hj])) (fun j hj => ho j (by simp [hj])) _ hu'
      refine ⟨t', ?_, g2, fun j hj => ?_, fun j hj => ?_⟩
      · show (List.foldlM _ u (i :: order)) = _
        rw [List.foldlM_cons, h1]
        exact g1
      · rw [g3 j (fun h => hj (by simp [h])), List.getElem?_modify]
        rcases u.vin[j]? with _ | x
        · rfl
        · show some (if i = j then _ else x) = some x
          rw [if_neg (fun h => hj (by simp [h.symm]))]
      · by_cases hm : j ∈ order
        · exact g4 j hm
        · have : j = i := by simpa [hm] using hj
          subst this
          rw [g3 j hm, List.getElem?_modify]
          have hlt : j < u.vin.length := by rw [hu.length]; exact hi j (by simp)
          rw [List.getElem?_eq_getElem hlt]
          show some (CTxIn.scriptSig (if j = j then _ else _)) = _
          rw [if_pos rfl]
  obtain ⟨t', h1, h2, h3, h4⟩ := key order hk hty hi ho t (.refl t)
  refine ⟨t', h1, h2, h3, fun i hm => ?_⟩
  have h5 := h4 i hm
  rcases hx : t'.vin[i]? with _ | x <;> rw [hx] at h5
  · cases h5
  · obtain ⟨spk, s1, s2⟩ := sigScript_spends (hk i hm) (forms i) (hty i hm) h2 (h2.fits ht) (form_length C.H (hk i hm).key (forms i) ht (hi i hm) (hty i hm))
    have h6 : x.scriptSig = _ := Option.some.inj h5
    refine ⟨x, spk, rfl, ?_⟩
    rw [h6]
    exact ⟨sigScript_length (hk i hm) (form_length C.H (hk i hm).key (forms i) ht (hi i hm) (hty i hm)), s1, s2⟩

/-- Where there is no output for a signature about a single one, there is no signature. -/
theorem C114_single (H : HashFns) {k : Signer} (hk : k.pub.length ≤ 65) (f : Form) {ty : Int} {t : CTransaction} (ht : TxFits t) {i : Nat}
    (h : t.vin.length ≤ i ∨ SigSingle ty ∧ t.vout.length ≤ i) : signInput H k f ty t i = .error .valueError := by
  obtain ⟨h1, h2, _⟩ := signedScript_ok H hk f
  unfold signInput
  rw [h1, Except.bind_ok, ((C76_out_of_range H h2 ht.valid).1 h).2]
  rfl

/-! ## C115: a signed input in another transaction -/

/-- The scriptSig of a signed input is accepted in no transaction that says something else where the hash type says something. -/
theorem C115_commits {k : Signer} (hk : k.Works C) (hv : k.Binds C) (f : Form) {ty : Int} {t u : CTransaction} (ht : TxFits t)
    {i : Nat} (hi : i < t.vin.length) (hu : signInput C.H k f ty t i = .ok u) {x : CTxIn} (hx : u.vin[i]? = some x) {spk : Bytes} (hspk : outputScript C.H k f = .ok spk)
    {t' : CTransaction} (ht' : TxFits t') {i' : Nat} (hi' : i' < t'.vin.length) (ho' : SigSingle ty → i' < t'.vout.length) {flags : List Flag} (hf : f = .scriptHash → Flag.p2sh ∈ flags)
    (hok : verifyScript C x.scriptSig spk t' i' flags = .ok ())
    (hc : ∀ s m m', SigMessage s t i ty m → SigMessage s t' i' ty m' → CollisionFree (fun x => C.H.sha256 (C.H.sha256 x)) [m, m']) :
    t'.nVersion = t.nVersion ∧ t'.nLockTime = t.nLockTime ∧
    (¬ SigNone ty → ¬ SigSingle ty → t'.vout = t.vout) ∧
    (SigSingle ty → i' = i ∧ t'.vout[i]? = t.vout[i]?) ∧
    (¬ SigAnyone ty → i' = i ∧ t'.vin.map CTxIn.prevout = t.vin.map CTxIn.prevout) ∧
    (¬ SigAnyone ty → ¬ SigNone ty → ¬ SigSingle ty → t'.vin.map CTxIn.nSequence = t.vin.map CTxIn.nSequence) ∧
    t'.vin[i']?.map CTxIn.prevout = t.vin[i]?.map CTxIn.prevout ∧ t'.vin[i']?.map CTxIn.nSequence = t.vin[i]?.map CTxIn.nSequence := by
  obtain ⟨h1, h2, h3, h4⟩ := signedScript_ok C.H hk.key f
  have hsize : (codeOf (f.toks C.H k)).length ≤ MAX_SIZE := by rw [h4]; unfold MAX_SIZE; omega
  -- what was signed
  have ho : SigSingle ty → i < t.vout.length := by
    intro hs
    apply Classical.byContradiction
    intro hn
    rw [C114_single C.H hk.key f ht (.inr ⟨hs, by omega⟩)] at hu
    cases hu
  have hty : 0 ≤ ty ∧ ty < 256 := by
    apply Classical.byContradiction
    intro hn
    unfold signInput at hu
    rw [h1, Except.bind_ok] at hu
    obtain ⟨d, _, hu⟩ := Except.bind_eq_ok hu
    rw [bytesOf, if_neg hn] at hu
    cases hu
  have hu' := signInput_ok hk f hty ht hi ho
  rw [hu] at hu'
  have hss : x.scriptSig = sigScript C.H k f ty t i := by
    rw [Except.ok.inj hu', List.getElem?_modify, List.getElem?_eq_getElem hi] at hx
    have hx : (if i = i then _ else _) = x := Option.some.inj hx
    rw [if_pos rfl] at hx
    rw [← hx]
  rw [hss] at hok
  -- what is checked
  have hlen := form_length C.H hk.key f ht hi hty
  have h5 : (sigFor C.H k f ty t i).length ≤ 520 := by
    have := hk.short (digest C.H (f.toks C.H k) t i ty.toNat) hlen
    simp only [sigFor, List.length_append, List.length_cons, List.length_nil]
    omega
  have h6 := top_le C.H hk.key f
  have hgood : goodSig C t' i' (without [sigFor C.H k f ty t i] (f.toks C.H k)) (sigFor C.H k f ty t i) k.pub = true := by
    cases f with
    | keyHash =>
      rw [outputScript, h1] at hspk
      rw [← Except.ok.inj hspk] at hok
      exact ((C94_pushes ht' i' (C.H.ripemd160_len _) h5 (by have := hk.key; omega) flags).mp hok).2
    | scriptHash =>
      have h7 := ((C74_to_p2sh C.H (scriptOf (ownKeyToks k.pub)) true).2 (by rintro ⟨_, h⟩; have : (scriptOf (ownKeyToks k.pub)).length ≤ 67 := h3; omega)).1
      have h20 : (C.H.ripemd160 (C.H.sha256 (scriptOf (ownKeyToks k.pub)))).length = 20 := C.H.ripemd160_len _
      rw [← scriptHash_bytes h20] at h7
      rw [outputScript, h1, Except.bind_ok] at hspk
      have e := Except.ok.inj (h7.symm.trans hspk)
      rw [← e] at hok
      have hle : ∀ d ∈ [sigFor C.H k .scriptHash ty t i, Form.top C.H k .scriptHash], d.length ≤ 520 := by
        intro d hd
        simp only [List.mem_cons, List.not_mem_nil, or_false] at hd
        rcases hd with rfl | rfl
        · exact h5
        · omega
      obtain ⟨_, r, s, s', a1, _, _, a2, v, w, a3, a4⟩ := (C93_p2sh_partial (num := shortNum) (hn := shortNum_spec) ht' i' h20 _ flags (hf rfl)).mp hok
      have a5 : r :: s = _ := (evals_pushes rfl hle (by have := pushToks_length hle; simp only [List.length_cons, List.length_nil] at this; omega)).mp a1
      have a5 : r :: s = [scriptOf (ownKeyToks k.pub), sigFor C.H k .scriptHash ty t i] := a5
      obtain ⟨rfl, rfl⟩ := List.cons.inj a5
      have a6 := evals_key (L := here C shortNum shortNum_spec) (t := t') (i := i') (sig := sigFor C.H k .scriptHash ty t i) rfl hk.key (r := []) (by simp)
      rw [evals_line (ownKeyToks_wf (by have := hk.key; omega)) ownKeyToks_line] at a2 a6
      rw [a2] at a6
      have a7 := Option.some.inj a6
      rw [a3] at a7
      obtain ⟨rfl, _⟩ := List.cons.inj a7
      exact (truthy_bool ff_false _).mp a4
  rw [sigFor_without hk hlen] at hgood
  unfold goodSig at hgood
  have hty' : (BitVec.ofInt 8 ty).toNat = ty.toNat := by
    rw [BitVec.toNat_ofInt]
    congr 1
    omega
  rw [sigFor, List.getLast?_concat] at hgood
  simp only at hgood
  rw [List.dropLast_concat, hty'] at hgood
  have hd := hv _ _ hlen (form_length C.H hk.key f ht' hi' hty) hgood
  have g1 := signatureHash_digest C.H h2 hsize ht hi hty ho
  have g2 := signatureHash_digest C.H h2 hsize ht' hi' hty ho'
  rw [hd] at g2
  obtain ⟨ts, ts', w1, _, w2, _, _, _, r1, r2, r3, r4, r5, r6, r7, r8⟩ := C77_committed g1 g2 (hc _)
  have hne : codeOf ts ≠ [] := by
    have : ts = f.toks C.H k := scriptOf_inj w1 h2 w2.symm
    rw [this, h4]
    cases f with
    | keyHash => simp [Form.toks, scriptOf, keyHashToks, Tok.bytes]
    | scriptHash => simp [Form.toks, scriptOf, ownKeyToks, Tok.bytes]
  refine ⟨r1.symm, r2.symm, fun a b => (r3 a b).symm, fun a => ⟨(r4 a).1.symm, (r4 a).2.symm⟩, fun a => ⟨(r7 a hne).symm, (r5 a).symm⟩, fun a b c => (r6 a b c).symm, (r8 (.inr hne)).1.symm, (r8 (.inr hne)).2.symm⟩

/-! ## A concrete case -/

namespace Ex

/-- A key of `cr`: its signatures are the key followed by the hash. -/
def signer : Signer := ⟨[0x02#8, 0x11#8], fun h => [0x02#8, 0x11#8] ++ h⟩

theorem signer_works : signer.Works cr :=
  ⟨fun h _ => by show (_ == _) = true; rw [beq_iff_eq]; rfl, fun h e => by simp [signer, e], fun h e => by simp [signer, e], by decide,
    fun h b e g => by have := congrArg List.length g; simp [signer, e] at this⟩

theorem signer_binds : signer.Binds cr := by
  intro h h' _ _ g
  have g : (signer.sign h == signer.pub ++ h') = true := g
  rw [beq_iff_eq] at g
  exact (List.append_cancel_left g).symm

/-- Three inputs and two outputs. -/
def tx3 : CTransaction := ⟨1, [⟨⟨List.replicate 32 0x07#8, 0⟩, [], 0xffffffff⟩, ⟨⟨List.replicate 32 0x08#8, 1⟩, [0x51#8], 5⟩, ⟨⟨List.replicate 32 0x07#8, 2⟩, [], 0⟩],
  [⟨50, [0x51#8]⟩, ⟨20, []⟩], 7⟩

theorem tx3_fits : TxFits tx3 := ⟨by decide, by decide, by decide, by decide, by decide, by decide⟩

/-- The third and the first input are signed; the third one again. -/
def forms3 : Nat → Form := fun i => if i = 0 then .keyHash else .scriptHash
def types3 : Nat → Int := fun i => if i = 0 then 0x83 else 1

example := C114_signs (C := cr) (fun _ => signer) forms3 types3 tx3_fits [2, 0, 2] (fun _ _ => signer_works) (by decide) (by decide) (by decide)

/-- The result. -/
def signed3 : CTransaction := (signInputs cr.H (fun _ => signer) forms3 types3 tx3 [2, 0, 2]).toOption.getD tx3

example : signInputs cr.H (fun _ => signer) forms3 types3 tx3 [2, 0, 2] = .ok signed3 ∧ signed3.vin[1]? = tx3.vin[1]? ∧ (signed3.vin.map fun x => x.scriptSig.length) = [39, 1, 41] := by
  decide +kernel

-- no second output for the third input
example : signInput cr.H signer .keyHash 3 tx3 2 = .error .valueError := C114_single cr.H (by decide) .keyHash tx3_fits (.inr ⟨by decide, by decide⟩)

/-- The first scriptSig, which is about the first output only, in a transaction with another second output; and with another first output. -/
def other (v w : Int) : CTransaction := { signed3 with vout := [⟨v, [0x51#8]⟩, ⟨w, []⟩] }

example : verifyScript cr ((signed3.vin[0]?.map CTxIn.scriptSig).getD []) ((outputScript cr.H signer .keyHash).toOption.getD []) (other 50 21) 0 [] = .ok () ∧
    verifyScript cr ((signed3.vin[0]?.map CTxIn.scriptSig).getD []) ((outputScript cr.H signer .keyHash).toOption.getD []) (other 51 20) 0 [] = .error .validation := by decide +kernel

end Ex

end Verif.Btc
