import Verif.Lemmas.SealMk
import Verif.Spec.Hash
import Verif.Props.Proof
/-!
# Transactions as proofs, and single-use seals

The classes are those of the repository, with any `GuMap` subclass; the hash functions are arbitrary.
-/
namespace Verif.Seal
open Verif Btc

section
variable {H : HashFns} {g : GuMapDecl}
local notation "C" => classes H g

/-! ## Example data -/

namespace Ex
/-- `examples/op-ret.seal.witness`: the transaction. -/
def txBytes : Bytes := hex ("0100000001af8ef445ce8dd7a4ff0d57ca5d6c866d9b1f6bbb2cc5a1a878147f2ab3c5a698000000006b48304502210097714704e76f0eeb6345ca669209eaaf18" ++
  "ea0e38bc91f9f223cb933639728a2e022062f0dbc0c99c562cc986c4efde7f1f58c305679b9e6d85c959af1d16d0336b33012103ec61527943f432ad8121ee3b825c86e5faec818dd23c" ++
  "3fbc3c95a71f1008b159ffffffff010000000000000000226a20deadbeefdeadbeefdeadbeefdeadbeefdeadbeefdeadbeefdeadbeefdeadbeef00000000")
def digest : Bytes := hex "deadbeefdeadbeefdeadbeefdeadbeefdeadbeefdeadbeefdeadbeefdeadbeef"
def op : COutPoint := ⟨hex "af8ef445ce8dd7a4ff0d57ca5d6c866d9b1f6bbb2cc5a1a878147f2ab3c5a698", 0⟩
def nonce : Bytes := List.replicate 16 0x00#8
/-- The transaction. -/
def tx : CTransaction :=
  { vin := [⟨op, hex ("48304502210097714704e76f0eeb6345ca669209eaaf18ea0e38bc91f9f223cb933639728a2e022062f0dbc0c99c562cc986c4efde7f1f58c305679b9e6d85c959af1d16d0336b33" ++
      "012103ec61527943f432ad8121ee3b825c86e5faec818dd23c3fbc3c95a71f1008b159"), 0xffffffff⟩],
    vout := [⟨0, 0x6a#8 :: 0x20#8 :: digest⟩], nLockTime := 0, nVersion := 1 }
theorem tx_ser : tx.ser = .ok txBytes := by decide +kernel
def txid : Bytes := realHash.sha256 (realHash.sha256 txBytes)
theorem has_txid : HasTxid realHash tx txid := ⟨txBytes, tx_ser, rfl⟩
theorem shows : Shows realHash op 0 tx 0 tx digest where
  len := by decide +kernel
  i0 := by decide
  j0 := by decide
  spends := ⟨_, rfl, rfl⟩
  commits := ⟨_, rfl, .inl rfl⟩
  txid := ⟨txid, has_txid, has_txid⟩
/-- The witness. -/
def witness : PTree := fullWitnessT op nonce 0 tx 0 tx
theorem witness_checked : witness.Checked C := by
  have h1 : PTree.Checked C (txinT 0 (txT tx)) := txinT_fields_checked (i := 0) tx (by omega)
  have h2 : PTree.Checked C (txoutT 0 (txT tx)) := txoutT_fields_checked (i := 0) tx (by omega)
  have h3 : PTree.Checked C (sealT op nonce) := by
    have ha : (C Cls.btcSeal).attrs = [.prim .outpoint, .prim (.fixed 16)] := rfl
    show PFields.Checked C _ (C Cls.btcSeal).attrs
    rw [ha]
    exact ⟨rfl, rfl, trivial⟩
  have ha : (C Cls.btcWitness).attrs = [.proof Cls.btcSeal, .proof Cls.txInProof, .proof Cls.txOutProof] := rfl
  show PFields.Checked C _ (C Cls.btcWitness).attrs
  rw [ha]
  exact ⟨(fun us h => by cases h), h3, (fun us h => by cases h), h1, (fun us h => by cases h), h2, trivial⟩
end Ex

/-! ## C45 -/

/-- C45: `txhash` of a `TxProof` of `x` is the txid of `x`, whatever has been done in between; so is that of any `prune()` of
it. -/
theorem C45_txhash_is_txid {s s' : PState} {r : Nat} {x : CTransaction} {id : Bytes} (hs : Reachable C H s) (hr : Represents s r (txT x))
    (hid : HasTxid H x id) (hst : Steps C H s s') :
    ((txhash []).run C H r s').1 = .ok (.ok id) ∧
    ∀ p s1 s2, Prf.prune C r s' = (.ok p, s1) → Steps C H s1 s2 → ((txhash []).run C H p s2).1 = .ok (.ok id) := by
  have key : ∀ {s : PState} {r : Nat}, Reachable C H s → Represents s r (txT x) → ((txhash []).run C H r s).1 = .ok (.ok id) := by
    intro s r hs hr
    rw [run_eq classes_wf _ hs hr]
    unfold txhash
    rw [eval_onCls_ok, eval_hash_ok]
    refine ⟨⟨_, rfl, rfl⟩, _, _, rfl, hash_txT_ok.mpr ⟨id, hid, rfl⟩, ?_⟩
    rw [xorWithPad_xorWithPad hid.length]; rfl
  have hr' := hst.represents classes_wf hs hr
  have hs' : Reachable C H s' := hs.trans hst
  refine ⟨key hs' hr', fun p s1 s2 hp hst' => ?_⟩
  have hs1 : Steps C H s' s1 := by
    have := Step.prune (T := C) (H := H) (s := s') r
    rw [hp] at this
    exact .tail .refl this
  have hp1 : Represents s1 p (txT x) := by
    obtain ⟨τ, hi⟩ := hs'.inv classes_wf
    obtain ⟨τ', hi', _, h1, h2, _⟩ := prune_spec hi (hi.of_represents hr')
    rw [hp] at hi' h1
    cases h1
    exact hi'.represents _ _ h2
  exact key ((hs'.trans hs1).trans hst') (hst'.represents classes_wf (hs'.trans hs1) hp1)

/-- C45: two `TxProof`s, of the same or of different executions, have the same `hash` exactly if they have the same `txhash`. -/
theorem C45_hash_and_txhash {s s' : PState} {a b : Nat} {ta tb : PTree} (hs : Reachable C H s) (hs' : Reachable C H s') (ha : Represents s a ta)
    (hb : Represents s' b tb) {h h' id id' : Bytes} (hh : (Prf.hash C H a s).1 = .ok h) (hh' : (Prf.hash C H b s').1 = .ok h')
    (hi : ((txhash []).run C H a s).1 = .ok (.ok id)) (hi' : ((txhash []).run C H b s').1 = .ok (.ok id')) : h = h' ↔ id = id' := by
  have key : ∀ {s : PState} {a : Nat} {t : PTree} {h id : Bytes}, Reachable C H s → Represents s a t → (Prf.hash C H a s).1 = .ok h →
      ((txhash []).run C H a s).1 = .ok (.ok id) → h.length = 32 ∧ id = Prf.xorWithPad h := by
    intro s a t h id hs ha hh hi
    rw [run_eq classes_wf _ hs ha] at hi
    obtain ⟨τ, hinv⟩ := hs.inv classes_wf
    have ht := hinv.of_represents ha
    obtain ⟨_, _, _, hq⟩ := hash_spec classes_wf hinv ht
    rw [hh] at hq
    unfold txhash at hi
    rw [eval_onCls_ok, eval_hash_ok] at hi
    obtain ⟨⟨q, hq1, hc⟩, q', k, hw, hk, he⟩ := hi
    rw [walk_nil] at hq1 hw
    subst hw hq1
    rw [hk] at hq
    cases hq
    refine ⟨?_, (Except.ok.inj (Except.ok.inj he)).symm⟩
    rcases q with ⟨c, fs⟩ | ⟨c, d⟩
    · have hck := hinv.chk _ (List.mem_of_getElem? ht)
      have hex : ∃ v, (PTree.node c fs).get? 0 = some v := by
        simp only [PTree.cls] at hc
        subst hc
        unfold PTree.hash at hk
        cases hg : fs.get? 0 with
        | none => rw [hg] at hk; cases hk
        | some v => exact ⟨v, hg⟩
      obtain ⟨v, hv⟩ := hex
      obtain ⟨x, hx, _⟩ := shape_tx hc hck hv
      rw [hx] at hk
      obtain ⟨id, hid, rfl⟩ := hash_txT_ok.mp hk
      simp only [Prf.xorWithPad, List.length_zipWith, hid.length, xorPad_length]; rfl
    · simp only [PTree.cls] at hc
      subst hc
      cases hk
  obtain ⟨h1, rfl⟩ := key hs ha hh hi
  obtain ⟨h2, rfl⟩ := key hs' hb hh' hi'
  exact ⟨fun h => by rw [h], fun h => xorWithPad_inj h1 h2 h⟩

/-- What does not hold: a `TxProof` received in pruned form has neither `hash` nor `txhash`; reading them raises `TypeError`. -/
theorem C45_received_pruned {s : PState} {r : Nat} {d : Bytes} (hs : Reachable C H s) (hr : Represents s r (.pruned Cls.txProof d)) :
    ((txhash []).run C H r s).1 = .error .typeError := by
  rw [run_eq classes_wf _ hs hr]; rfl

/-- The conditions are met: the proof of the example transaction. -/
example : ∃ s r, Reachable (classes realHash intGuMap) realHash s ∧ Represents s r (txT Ex.tx) ∧ HasTxid realHash Ex.tx Ex.txid := by
  obtain ⟨s, r, hst, _, hw⟩ := build (T := classes realHash intGuMap) (H := realHash) (txT Ex.tx) rfl (txT_checked _) {}
  exact ⟨s, r, hst, hw.represents, Ex.has_txid⟩
example : ((do
    let p ← Prf.new (classes realHash intGuMap) Cls.txProof [.prim (.tx Ex.tx)]
    (txhash []).run (classes realHash intGuMap) realHash p : HM (Py Bytes)) {}).1 = .ok (.ok Ex.txid) := by decide +kernel
example : ((do
    let p ← Prf.deserialize (classes realHash intGuMap) Cls.txProof (0xff#8 :: Ex.txid)
    (txhash []).run (classes realHash intGuMap) realHash p : HM (Py Bytes)) {}).1 = .error .typeError := by decide +kernel

/-! ## C46 -/

theorem closeTxOut_eq {h : Bytes} (hl : h.length = 32) {m : Meth} {dust : Int} {o : CTxOut} (ho : closeTxOut H h m dust = .ok (some o)) :
    (m = .opReturn ∧ o = ⟨0, opReturnScript h⟩) ∨ (m = .p2sh ∧ o = ⟨dust, p2shScript (h160 H h)⟩) ∨ (m = .p2pkh ∧ o = ⟨dust, p2pkhScript (h160 H h)⟩) := by
  have h20 : (H.hash160 h).length = 20 := H.ripemd160_len _
  cases m with
  | opReturn => rw [closeTxOut, mkScript_opReturn hl] at ho; cases ho; exact .inl ⟨rfl, rfl⟩
  | p2sh => rw [closeTxOut, mkScript_p2sh h20] at ho; cases ho; exact .inr (.inl ⟨rfl, rfl⟩)
  | p2pkh => rw [closeTxOut, mkScript_p2pkh h20] at ho; cases ho; exact .inr (.inr ⟨rfl, rfl⟩)
  | unknown => cases ho

/-- C46: the closing output exists for each of the three methods; its script is the expected one, and parses as the intended
operations: in particular it is what verification accepts for `h`. -/
theorem C46_scripts {h : Bytes} (hl : h.length = 32) {m : Meth} (hm : m ≠ .unknown) (dust : Int) :
    ∃ o, closeTxOut H h m dust = .ok (some o) ∧ CommitsTo H h o.scriptPubKey ∧ scriptMatches H h o.scriptPubKey = .ok () ∧
      rawIter o.scriptPubKey = (match m with
        | .opReturn => [⟨0x6a#8, none, 0⟩, ⟨0x20#8, some h, 1⟩]
        | .p2sh => [⟨0xa9#8, none, 0⟩, ⟨0x14#8, some (h160 H h), 1⟩, ⟨0x87#8, none, 22⟩]
        | _ => [⟨0x76#8, none, 0⟩, ⟨0xa9#8, none, 1⟩, ⟨0x14#8, some (h160 H h), 2⟩, ⟨0x88#8, none, 23⟩, ⟨0xac#8, none, 24⟩], none) := by
  have h20 : (h160 H h).length = 20 := H.ripemd160_len _
  have hops : ∀ {o : Byte} {ts}, 0x4e < o.toNat → WFToks ts → WFToks (.op o :: ts) := fun h h' => h'.cons h
  have hpush : ∀ {d : Bytes} {ts}, d.length < 0x4c → WFToks ts → WFToks (.push .direct d :: ts) := fun h h' => h'.cons h
  have hnil : WFToks [] := by intro t ht; cases ht
  have hb : ∀ n, n < 256 → leBytes 1 n = [BitVec.ofNat 8 n] := fun n hn => leNat1 n hn
  have hc : ∀ {spk : Bytes}, CommitsTo H h spk → scriptMatches H h spk = .ok () := fun hc => by
    rw [scriptMatches_eq hl, pyAssert_ok, decide_eq_true_iff]; exact hc
  cases m with
  | opReturn =>
    refine ⟨⟨0, opReturnScript h⟩, ?_, .inl rfl, hc (.inl rfl), ?_⟩
    · rw [closeTxOut, mkScript_opReturn hl]; rfl
    · have := rawIter_scriptOf (ts := [.op 0x6a#8, .push .direct h]) (hops (by decide) (hpush (by omega) hnil))
      simpa [scriptOf, Tok.bytes, located, Tok.opcode, Tok.data, hl, hb, little_eq, opReturnScript] using this
  | p2sh =>
    refine ⟨⟨dust, p2shScript (h160 H h)⟩, ?_, .inr (.inl rfl), hc (.inr (.inl rfl)), ?_⟩
    · rw [closeTxOut, mkScript_p2sh (k := H.hash160 h) (H.ripemd160_len _)]; rfl
    · have := rawIter_scriptOf (ts := [.op 0xa9#8, .push .direct (h160 H h), .op 0x87#8]) (hops (by decide) (hpush (by omega) (hops (by decide) hnil)))
      simpa [scriptOf, Tok.bytes, located, Tok.opcode, Tok.data, h20, hb, little_eq, p2shScript] using this
  | p2pkh =>
    refine ⟨⟨dust, p2pkhScript (h160 H h)⟩, ?_, .inr (.inr rfl), hc (.inr (.inr rfl)), ?_⟩
    · rw [closeTxOut, mkScript_p2pkh (k := H.hash160 h) (H.ripemd160_len _)]; rfl
    · have := rawIter_scriptOf (ts := [.op 0x76#8, .op 0xa9#8, .push .direct (h160 H h), .op 0x88#8, .op 0xac#8])
        (hops (by decide) (hops (by decide) (hpush (by omega) (hops (by decide) (hops (by decide) hnil)))))
      simpa [scriptOf, Tok.bytes, located, Tok.opcode, Tok.data, h20, hb, little_eq, p2pkhScript] using this
  | unknown => exact absurd rfl hm

/-- C46: equal closing scripts are of the same kind and for the same digest, or for digests with the same `Hash160`. -/
theorem C46_one_digest {h h' : Bytes} (hl : h.length = 32) (hl' : h'.length = 32) {m m' : Meth} {dust dust' : Int} {o o' : CTxOut}
    (ho : closeTxOut H h m dust = .ok (some o)) (ho' : closeTxOut H h' m' dust' = .ok (some o')) (he : o.scriptPubKey = o'.scriptPubKey) :
    m = m' ∧ (m = .opReturn → h = h') ∧ h160 H h = h160 H h' := by
  rcases closeTxOut_eq hl ho with ⟨rfl, rfl⟩ | ⟨rfl, rfl⟩ | ⟨rfl, rfl⟩ <;>
  rcases closeTxOut_eq hl' ho' with ⟨rfl, rfl⟩ | ⟨rfl, rfl⟩ | ⟨rfl, rfl⟩ <;>
  simp only [opReturnScript, p2shScript, p2pkhScript, List.cons.injEq, List.append_cancel_right_eq, true_and] at he
  · exact ⟨rfl, fun _ => he, by rw [he]⟩
  · exact absurd he.1 (by decide)
  · exact absurd he.1 (by decide)
  · exact absurd he.1 (by decide)
  · exact ⟨rfl, (by intro h; cases h), he⟩
  · exact absurd he.1 (by decide)
  · exact absurd he.1 (by decide)
  · exact absurd he.1 (by decide)
  · exact ⟨rfl, (by intro h; cases h), he⟩

/-- What verification accepts for `h` and for `h'` are different scripts, unless the `Hash160`s are equal. -/
theorem commits_unique {h h' spk : Bytes} (hc : CommitsTo H h spk) (hc' : CommitsTo H h' spk) : h160 H h = h160 H h' := by
  rcases hc with rfl | rfl | rfl <;> rcases hc' with he | he | he <;>
  simp only [opReturnScript, p2shScript, p2pkhScript, List.cons.injEq, List.append_cancel_right_eq, true_and] at he
  · rw [he]
  · exact absurd he.1 (by decide)
  · exact absurd he.1 (by decide)
  · exact absurd he.1 (by decide)
  · exact he
  · exact absurd he.1 (by decide)
  · exact absurd he.1 (by decide)
  · exact absurd he.1 (by decide)
  · exact he

/-- C46: what `verify_hash` accepts for `h` and for `h'`, it accepts only if the `Hash160`s are equal. -/
theorem C46_accepts_one {h h' spk : Bytes} (hl : h.length = 32) (hl' : h'.length = 32) (ha : scriptMatches H h spk = .ok ())
    (ha' : scriptMatches H h' spk = .ok ()) : h160 H h = h160 H h' := by
  rw [scriptMatches_eq hl, pyAssert_ok, decide_eq_true_iff] at ha
  rw [scriptMatches_eq hl', pyAssert_ok, decide_eq_true_iff] at ha'
  exact commits_unique ha ha'

/-- The test vectors of `test_singleuseseal.py`: all commit to 32 zero bytes. -/
example : [Meth.opReturn, .p2sh, .p2pkh].map (fun m => (closeTxOut realHash (List.replicate 32 0x00#8) m 600)) =
    [.ok (some ⟨0, hex "6a200000000000000000000000000000000000000000000000000000000000000000"⟩),
     .ok (some ⟨600, hex "a914b8bcb07f6344b42ab04250c86a6e8b75d3fdbbc687"⟩),
     .ok (some ⟨600, hex "76a914b8bcb07f6344b42ab04250c86a6e8b75d3fdbbc688ac"⟩)] := by decide +kernel

/-! ## C47 -/

/-- C47: if `verify()` succeeds, and at any time later `verify_hash(h)`, then the witness is a seal for an outpoint, input
number `i` of a transaction, which spends that outpoint, and output number `j` of a transaction with the same txid, which
commits to the 32 bytes `h`. -/
theorem C47_sound {s s' : PState} {r : Nat} {t : PTree} {h : Bytes} (hs : Reachable C H s) (hr : Represents s r t)
    (hst : Steps C H s s') (hv : ((witnessVerify []).run C H r s).1 = .ok (.ok ()))
    (hh : ((witnessVerifyHash H h []).run C H r s').1 = .ok (.ok ())) :
    ∃ o n i x j x', t = fullWitnessT o n i x j x' ∧ Shows H o i x j x' h := by
  rw [run_eq classes_wf _ hs hr] at hv
  rw [run_eq classes_wf _ (hs.trans hst) (hst.represents classes_wf hs hr)] at hh
  exact both_inv (hs.checked classes_wf hr) hv hh

/-- C47: and all such witnesses verify. -/
theorem C47_complete {s : PState} {r : Nat} {o : COutPoint} {n : Bytes} {i j : Int} {x x' : CTransaction} {h : Bytes} (hs : Reachable C H s)
    (hr : Represents s r (fullWitnessT o n i x j x')) (hsh : Shows H o i x j x' h) :
    ((witnessVerify []).run C H r s).1 = .ok (.ok ()) ∧ ((witnessVerifyHash H h []).run C H r s).1 = .ok (.ok ()) := by
  rw [run_eq classes_wf _ hs hr, run_eq classes_wf _ hs hr]
  exact ⟨verify_full hsh, verifyHash_full hsh⟩

/-- C47: the two transactions are one, unless SHA-256 collides on their serializations or the hashes of these. -/
theorem C47_one_transaction {o : COutPoint} {i j : Int} {x x' : CTransaction} {h b b' : Bytes} (hsh : Shows H o i x j x' h)
    (hb : x.ser = .ok b) (hb' : x'.ser = .ok b') (hcf : CollisionFree H.sha256 [b, b', H.sha256 b, H.sha256 b']) : x = x' := by
  obtain ⟨id, ⟨c, hc, rfl⟩, c', hc', he⟩ := hsh.txid
  rw [hb] at hc; cases hc
  rw [hb'] at hc'; cases hc'
  have h1 := hcf _ (by simp) _ (by simp) (hcf _ (by simp) _ (by simp) he)
  subst h1
  exact PF.inj PF.tx hb hb'

/-- The conditions are met by the witness of the example, with the nonce the present code demands. -/
example : ∃ s r, Reachable (classes realHash intGuMap) realHash s ∧ Represents s r (fullWitnessT Ex.op Ex.nonce 0 Ex.tx 0 Ex.tx) ∧
    Shows realHash Ex.op 0 Ex.tx 0 Ex.tx Ex.digest ∧ ((witnessVerify []).run (classes realHash intGuMap) realHash r s).1 = .ok (.ok ()) ∧
    ((witnessVerifyHash realHash Ex.digest []).run (classes realHash intGuMap) realHash r s).1 = .ok (.ok ()) := by
  obtain ⟨s, r, hst, _, hw⟩ := build (T := classes realHash intGuMap) (H := realHash) Ex.witness rfl Ex.witness_checked {}
  have h := C47_complete hst hw.represents Ex.shows
  exact ⟨s, r, hst, hw.represents, Ex.shows, h.1, h.2⟩
/-- Another digest is refused. -/
example : ((do
    let w ← Prf.deserialize (classes realHash intGuMap) Cls.btcWitness (hex "000024af8ef445ce8dd7a4ff0d57ca5d6c866d9b1f6bbb2cc5a1a878147f2ab3c5a69800000000" ++ Ex.nonce ++
      (hex "000000c901" ++ Ex.txBytes) ++ (hex "000000c901" ++ Ex.txBytes))
    let a ← (witnessVerify []).run (classes realHash intGuMap) realHash w
    let b ← (witnessVerifyHash realHash Ex.digest []).run (classes realHash intGuMap) realHash w
    let c ← (witnessVerifyHash realHash Ex.txid []).run (classes realHash intGuMap) realHash w
    return (a, b, c) : HM (Py Unit × Py Unit × Py Unit)) {}).1 = .ok (.ok (), .ok (), .error .assertion) := by decide +kernel


/-! ## C48 -/

theorem newTx {vin vout nl nv t} (h : CTransaction.new vin vout nl nv = .ok t) : t.vin = vin ∧ t.vout = vout := by
  unfold CTransaction.new at h
  split at h
  · cases h
  · cases h; exact ⟨rfl, rfl⟩

/-- C48: there is a closing transaction for any digest, outpoints and known method: it spends the outpoints, and its first output commits to the
digest.  With an unknown method there is none. -/
theorem C48_template {digest : Bytes} (hd : digest.length = 32) (os : List COutPoint) (dust : Int) :
    (∀ m, m ≠ .unknown → ∃ t o, makeCloseTx H digest os m dust = .ok t ∧ t.vin.map (·.prevout) = os ∧ t.vout = [o] ∧ CommitsTo H digest o.scriptPubKey ∧
      o.nValue = (if m = .opReturn then 0 else dust) ∧ t.nLockTime = 0 ∧ ∀ i ∈ t.vin, i.scriptSig = [] ∧ i.nSequence = 0xffffffff) ∧
    makeCloseTx H digest os .unknown dust = .error .attributeError := by
  refine ⟨fun m hm => ?_, rfl⟩
  obtain ⟨o, ho, hc, _⟩ := C46_scripts (H := H) hd hm dust
  refine ⟨_, o, by unfold makeCloseTx; rw [ho]; rfl, ?_, rfl, hc, ?_, rfl, fun i hi => ?_⟩
  · simp [List.map_map, Function.comp_def]
  · rcases closeTxOut_eq hd ho with ⟨rfl, rfl⟩ | ⟨rfl, rfl⟩ | ⟨rfl, rfl⟩ <;> rfl
  · obtain ⟨p, _, rfl⟩ := List.mem_map.mp hi
    exact ⟨rfl, rfl⟩

/-- `x` is a transaction template after completion: the inputs got scripts and sequence numbers, outputs may have been appended. -/
structure Completes (tmpl x : CTransaction) : Prop where
  inputs : x.vin.map (·.prevout) = tmpl.vin.map (·.prevout)
  outputs : ∃ extra, x.vout = tmpl.vout ++ extra

theorem fullWitness_typed {o : COutPoint} {n : Bytes} {i j : Nat} {x : CTransaction} (hi : i ≤ 0xffffffff) (hj : j ≤ 0xffffffff) (ho : ∃ e, o.ser = .ok e)
    (hn : n.length = 16) (hx : ∃ e, x.ser = .ok e) (hfit : x.ScriptsFit) : (fullWitnessT o n i x j x).WellTyped C Cls.btcWitness := by
  have hu : ∀ k : Nat, k ≤ 0xffffffff → PrimTy.check .uint32 (.int k) = .ok () := fun k hk => by
    show (if _ then _ else _) = _
    rw [if_neg (by omega)]
  have htx : (txT x).WellTyped C Cls.txProof := by
    refine ⟨rfl, ?_, trivial⟩
    obtain ⟨e, he⟩ := hx
    exact ⟨rfl, hfit, _, by show (do let b ← x.ser; return PrimTy.lenPrefixed b) = _; rw [he]; rfl⟩
  have hin : (txinT i (txT x)).WellTyped C Cls.txInProof := by
    refine ⟨rfl, ⟨hu i hi, trivial, _, rfl⟩, ⟨htx, (fun us h => by cases h)⟩, trivial⟩
  have hout : (txoutT j (txT x)).WellTyped C Cls.txOutProof := by
    refine ⟨rfl, ⟨hu j hj, trivial, _, rfl⟩, ⟨htx, (fun us h => by cases h)⟩, trivial⟩
  have hseal : (sealT o n).WellTyped C Cls.btcSeal := by
    obtain ⟨e, he⟩ := ho
    refine ⟨rfl, ⟨rfl, trivial, _, by show (do let b ← o.ser; return PrimTy.lenPrefixed b) = _; rw [he]; rfl⟩, ⟨?_, trivial, _, rfl⟩, trivial⟩
    show (if _ then _ else _) = _
    rw [if_neg (by omega)]
  exact ⟨rfl, ⟨hseal, (fun us h => by cases h)⟩, ⟨hin, (fun us h => by cases h)⟩, ⟨hout, (fun us h => by cases h)⟩, trivial⟩

theorem vin_ser {x : CTransaction} (h : ∃ e, x.ser = .ok e) : ∀ inp ∈ x.vin, ∃ e, inp.prevout.ser = .ok e := by
  obtain ⟨e, he⟩ := h
  intro inp hinp
  obtain ⟨k, hk⟩ := List.getElem?_of_mem hinp
  exact CTransaction.prevout_ser (H := realHash) ⟨e, he, rfl⟩ hk

/-- C48: any digest, any seals with distinct outpoints, any method: if the closing transaction is completed (in any way that can be serialized) to `x`,
then for each of the seals the tool's procedure makes a witness, on which `verify()` and `verify_hash(digest)` succeed, at any later time; it can
be serialized, and what any program deserializes from that verifies as well. -/
theorem C48_honest_closing {digest : Bytes} {os : List COutPoint} {m : Meth} {dust : Int} {tmpl x : CTransaction} (hd : digest.length = 32)
    (hm : m ≠ .unknown) (hnd : os.Nodup) (ht : makeCloseTx H digest os m dust = .ok tmpl) (hc : Completes tmpl x) (hx : ∃ e, x.ser = .ok e) (hfit : x.ScriptsFit)
    (hlen : x.vin.length ≤ 2 ^ 32) {s : PState} (hs : Reachable C H s) {tp sl : Nat} {o : COutPoint} {n : Bytes} (htp : Whole s tp (txT x))
    (hsl : Whole s sl (sealT o n)) (ho : o ∈ os) :
    ∃ w s', makeWitness C tp sl s = (.ok (some w), s') ∧
      (∀ s1, Steps C H s' s1 → ((witnessVerify []).run C H w s1).1 = .ok (.ok ()) ∧ ((witnessVerifyHash H digest []).run C H w s1).1 = .ok (.ok ())) ∧
      ∃ b s'', Prf.serialize C H w s' = (.ok b, s'') ∧ ∀ s0, Reachable C H s0 → ∃ w' s0', Prf.deserialize C Cls.btcWitness b s0 = (.ok w', s0') ∧
        ∀ s1, Steps C H s0' s1 → ((witnessVerify []).run C H w' s1).1 = .ok (.ok ()) ∧ ((witnessVerifyHash H digest []).run C H w' s1).1 = .ok (.ok ()) := by
  obtain ⟨t', out, ht', hos, hvout, hcm, _⟩ := (C48_template (H := H) hd os dust).1 m hm
  rw [ht] at ht'
  cases ht'
  have hpre : x.vin.map (·.prevout) = os := hc.inputs.trans hos
  obtain ⟨extra, hextra⟩ := hc.outputs
  have hv0 : x.vout[0]? = some out := by rw [hextra, hvout]; rfl
  obtain ⟨i, hi⟩ := List.getElem?_of_mem ho
  have hi' := hi
  rw [← hpre, List.getElem?_map] at hi'
  cases hinp : x.vin[i]? with
  | none => rw [hinp] at hi'; cases hi'
  | some inp =>
  rw [hinp] at hi'
  have hio : inp.prevout = o := Option.some.inj hi'
  have hfirst : ∀ k inp', k < i → x.vin[k]? = some inp' → inp'.prevout ≠ o := by
    intro k inp' hk hik he
    have hk' : os[k]? = some o := by rw [← hpre, List.getElem?_map, hik, ← he]; rfl
    have := (List.getElem?_inj (get_lt hk') hnd).mp (hk'.trans hi.symm)
    omega
  have hil := get_lt hinp
  have hpser := vin_ser hx
  have hoser : ∃ e, o.ser = .ok e := by rw [← hio]; exact hpser inp (List.mem_of_getElem? hinp)
  have hn : n.length = 16 := by
    have hck := hs.checked classes_wf hsl.represents
    have hg : (sealT o n).get? 0 = some (.prim (.outpoint o)) := rfl
    obtain ⟨o', n', he, hn⟩ := shape_seal rfl hck hg
    simp only [sealT, PTree.node.injEq, PFields.prim.injEq, PVal.bytes.injEq, true_and, and_true] at he
    rw [he.2]; exact hn
  obtain ⟨w, s', hw, hwh, hst, _⟩ := makeWitness_spec hs htp hsl hoser hpser hinp hio hfirst (by omega)
  have hs' : Reachable C H s' := hs.trans hst
  obtain ⟨e, he⟩ := hx
  have hsh : Shows H o i x 0 x digest :=
    ⟨hd, by omega, by omega, ⟨inp, by simpa using hinp, hio⟩, ⟨out, by simpa using hv0, hcm⟩, _, ⟨e, he, rfl⟩, ⟨e, he, rfl⟩⟩
  have hty : (fullWitnessT o n i x 0 x).WellTyped C Cls.btcWitness := fullWitness_typed (j := 0) (by omega) (by omega) hoser hn ⟨e, he⟩ hfit
  refine ⟨w, s', hw, fun s1 hst1 => C47_complete (hs'.trans hst1) (hst1.represents classes_wf hs' hwh.represents) hsh, ?_⟩
  obtain ⟨b, s'', hser, hrt⟩ := C38_round_trip classes_wf hs' hwh hty
  refine ⟨b, s'', hser, fun s0 hs0 => ?_⟩
  obtain ⟨w', s0', hdes, hwh', _⟩ := hrt s0 [] hs0
  have hdes' : Prf.deserialize C Cls.btcWitness b s0 = (.ok w', s0') := by
    unfold Prf.deserialize
    rw [List.append_nil] at hdes
    rw [HM.bind_of_eq hdes]; rfl
  have hst0 : Steps C H s0 s0' := by
    have := Step.deserialize (T := C) (H := H) (s := s0) Cls.btcWitness b
    rw [hdes'] at this
    exact .tail .refl this
  exact ⟨w', s0', hdes', fun s1 hst1 => C47_complete ((hs0.trans hst0).trans hst1) (hst1.represents classes_wf (hs0.trans hst0) hwh'.represents) hsh⟩

/-- The conditions are met: the closing transaction of the example, the input signed. -/
example : ∃ tmpl, makeCloseTx realHash Ex.digest [Ex.op] .opReturn 600 = .ok tmpl ∧ Completes tmpl Ex.tx ∧ Ex.tx.ScriptsFit ∧ [Ex.op].Nodup ∧
    ∃ s tp sl, Reachable (classes realHash intGuMap) realHash s ∧ Whole s tp (txT Ex.tx) ∧ Whole s sl (sealT Ex.op Ex.nonce) := by
  obtain ⟨s, r, hst, _, hw⟩ := build (T := classes realHash intGuMap) (H := realHash) Ex.witness rfl Ex.witness_checked {}
  refine ⟨_, rfl, ⟨by decide +kernel, [], by decide +kernel⟩, by decide +kernel, by simp, s, ?_⟩
  obtain ⟨v, _, hv⟩ := hw.getAttr (T := classes realHash intGuMap) (i := 0) rfl
  obtain ⟨v', _, hv'⟩ := hw.getAttr (T := classes realHash intGuMap) (i := 1) rfl
  cases v with
  | prim _ => exact hv.elim
  | ref sl =>
  cases v' with
  | prim _ => exact hv'.elim
  | ref q =>
  obtain ⟨v, _, hv2⟩ := Whole.getAttr (T := classes realHash intGuMap) hv' (i := 1) rfl
  cases v with
  | prim _ => exact hv2.elim
  | ref tp => exact ⟨tp, sl, hst, hv2, hv⟩

/-! ## C49 -/

/-- The transaction of a witness: where input and output are from. -/
def txsOf : PTree → Option (CTransaction × CTransaction)
  | .node 9 (.sub _ (.sub (.node 2 (.prim _ (.sub (.node 0 (.prim (.tx x) .nil)) .nil))) (.sub (.node 3 (.prim _ (.sub (.node 0 (.prim (.tx x') .nil)) .nil))) .nil))) => some (x, x')
  | _ => none

/-- The full C49: two witnesses for the same seal, about one transaction, that verify, verify the same hash. -/
def C49_statement : Prop :=
  ∀ (H : HashFns) (g : GuMapDecl) (s : PState) (a b : Nat) (ta tb : PTree) (x : CTransaction) (h h' : Bytes), Reachable (classes H g) H s → Represents s a ta →
    Represents s b tb → ta.get? 0 = tb.get? 0 → txsOf ta = some (x, x) → txsOf tb = some (x, x) →
    ((witnessVerify []).run (classes H g) H a s).1 = .ok (.ok ()) → ((witnessVerifyHash H h []).run (classes H g) H a s).1 = .ok (.ok ()) →
    ((witnessVerify []).run (classes H g) H b s).1 = .ok (.ok ()) → ((witnessVerifyHash H h' []).run (classes H g) H b s).1 = .ok (.ok ()) →
    CollisionFree (h160 H) [h, h'] → h = h'

namespace Ex
/-- A transaction that spends the outpoint and has two outputs committing to different hashes. -/
def tx2 : CTransaction := { vin := [⟨op, [], 0xffffffff⟩], vout := [⟨0, opReturnScript digest⟩, ⟨0, opReturnScript txid⟩], nLockTime := 0, nVersion := 1 }
theorem shows2 (k : Nat) (h : Bytes) (hh : [digest, txid][k]? = some h) : Shows realHash op 0 tx2 k tx2 h := by
  obtain ⟨e, he⟩ : ∃ e, tx2.ser = .ok e := by
    cases h : tx2.ser with
    | ok e => exact ⟨e, rfl⟩
    | error e => exact absurd h (by
        have : tx2.ser.toBool = true := by decide +kernel
        intro hc; rw [hc] at this; cases this)
  have hk : k = 0 ∨ k = 1 := by
    have := get_lt hh
    simp at this; omega
  refine ⟨?_, by decide, by omega, ⟨_, rfl, rfl⟩, ?_, _, ⟨e, he, rfl⟩, ⟨e, he, rfl⟩⟩
  · rcases hk with rfl | rfl
    · simp only [List.getElem?_cons_zero, Option.some.injEq] at hh; subst hh; decide +kernel
    · simp only [List.getElem?_cons_zero, List.getElem?_cons_succ, Option.some.injEq] at hh; subst hh; decide +kernel
  · rcases hk with rfl | rfl
    · simp only [List.getElem?_cons_zero, Option.some.injEq] at hh; subst hh; exact ⟨_, rfl, .inl rfl⟩
    · simp only [List.getElem?_cons_zero, List.getElem?_cons_succ, Option.some.injEq] at hh; subst hh; exact ⟨_, rfl, .inl rfl⟩
theorem witness2_checked (k : Nat) (hk : k ≤ 1) : (fullWitnessT op nonce 0 tx2 k tx2).Checked C := by
  have h1 : PTree.Checked C (txinT 0 (txT tx2)) := txinT_fields_checked (i := 0) tx2 (by omega)
  have h2 : PTree.Checked C (txoutT k (txT tx2)) := txoutT_fields_checked (i := k) tx2 (by omega)
  have h3 : PTree.Checked C (sealT op nonce) := by
    have ha : (C Cls.btcSeal).attrs = [.prim .outpoint, .prim (.fixed 16)] := rfl
    show PFields.Checked C _ (C Cls.btcSeal).attrs
    rw [ha]
    exact ⟨rfl, rfl, trivial⟩
  have ha : (C Cls.btcWitness).attrs = [.proof Cls.btcSeal, .proof Cls.txInProof, .proof Cls.txOutProof] := rfl
  show PFields.Checked C _ (C Cls.btcWitness).attrs
  rw [ha]
  exact ⟨(fun us h => by cases h), h3, (fun us h => by cases h), h1, (fun us h => by cases h), h2, trivial⟩
end Ex

theorem collisionFree_pair {f : Bytes → Bytes} {a b : Bytes} (h : f a ≠ f b) : CollisionFree f [a, b] := by
  intro p hp q hq he
  simp only [List.mem_cons, List.not_mem_nil, or_false] at hp hq
  rcases hp with rfl | rfl <;> rcases hq with rfl | rfl
  · rfl
  · exact absurd he h
  · exact absurd he.symm h
  · rfl

/-- C49 does not hold: a transaction may have several committing outputs, and a witness may point to any of them. -/
theorem C49_refuted : ¬ C49_statement := by
  intro hst
  obtain ⟨s1, a, hs1, _, hwa⟩ := build (T := classes realHash intGuMap) (H := realHash) (fullWitnessT Ex.op Ex.nonce 0 Ex.tx2 (0 : Nat) Ex.tx2) rfl
    (Ex.witness2_checked 0 (by omega)) {}
  obtain ⟨s2, b, hs2, ⟨xs, hxs⟩, hwb⟩ := build (T := classes realHash intGuMap) (H := realHash) (fullWitnessT Ex.op Ex.nonce 0 Ex.tx2 (1 : Nat) Ex.tx2) rfl
    (Ex.witness2_checked 1 (by omega)) s1
  have ha := (hwa.append hxs).represents
  have hs : Reachable (classes realHash intGuMap) realHash s2 := Steps.trans hs1 hs2
  have h1 := C47_complete hs ha (Ex.shows2 0 Ex.digest rfl)
  have h2 := C47_complete hs hwb.represents (Ex.shows2 1 Ex.txid rfl)
  have := hst realHash intGuMap s2 a b _ _ Ex.tx2 Ex.digest Ex.txid hs ha hwb.represents rfl rfl rfl h1.1 h1.2 h2.1 h2.2
    (collisionFree_pair (by decide +kernel))
  exact absurd this (by decide +kernel)

/-- What holds of C49: two witnesses (also of different executions, and also for different seals) that verify, and show outputs with the same
script, verify the same hash, provided `Hash160` does not collide on the two.  Outputs with the same script are in particular
the outputs with the same number of one transaction. -/
theorem C49_same_output_partial {s s' : PState} {a b : Nat} {o o' : COutPoint} {n n' : Bytes} {i i' j j' : Int} {x y x' y' : CTransaction} {h h' : Bytes}
    (hs : Reachable C H s) (hs' : Reachable C H s') (ha : Represents s a (fullWitnessT o n i x j y)) (hb : Represents s' b (fullWitnessT o' n' i' x' j' y'))
    (hv : ((witnessVerifyHash H h []).run C H a s).1 = .ok (.ok ())) (hv' : ((witnessVerifyHash H h' []).run C H b s').1 = .ok (.ok ()))
    (hsame : (y.vout[j.toNat]?).map (·.scriptPubKey) = (y'.vout[j'.toNat]?).map (·.scriptPubKey)) (hcf : CollisionFree (h160 H) [h, h']) : h = h' := by
  rw [run_eq classes_wf _ hs ha, verifyHash_inv (hs.checked classes_wf ha)] at hv
  rw [run_eq classes_wf _ hs' hb, verifyHash_inv (hs'.checked classes_wf hb)] at hv'
  obtain ⟨_, _, _, j1, y1, he, _, out, ho, hc⟩ := hv
  obtain ⟨_, _, _, j2, y2, he', _, out', ho', hc'⟩ := hv'
  simp only [fullWitnessT, witnessT, txoutT, txT, PTree.node.injEq, PFields.sub.injEq, PFields.prim.injEq, PVal.int.injEq, PVal.tx.injEq, true_and, and_true] at he he'
  obtain ⟨_, _, rfl, rfl⟩ := he
  obtain ⟨_, _, rfl, rfl⟩ := he'
  rw [ho, ho'] at hsame
  simp only [Option.map_some, Option.some.injEq] at hsame
  rw [hsame] at hc
  exact hcf _ (by simp) _ (by simp) (commits_unique hc hc')

/-- What holds of C49: if the transaction has only one output that commits to something, then all witnesses about it verify the
same hash. -/
theorem C49_one_commitment_partial {s s' : PState} {a b : Nat} {o o' : COutPoint} {n n' : Bytes} {i i' j j' : Int} {x x' y : CTransaction} {h h' : Bytes}
    (hs : Reachable C H s) (hs' : Reachable C H s') (ha : Represents s a (fullWitnessT o n i x j y)) (hb : Represents s' b (fullWitnessT o' n' i' x' j' y))
    (hv : ((witnessVerifyHash H h []).run C H a s).1 = .ok (.ok ())) (hv' : ((witnessVerifyHash H h' []).run C H b s').1 = .ok (.ok ()))
    (hone : ∀ (k k' : Nat) (out out' : CTxOut) (q q' : Bytes), y.vout[k]? = some out → y.vout[k']? = some out' → CommitsTo H q out.scriptPubKey →
      CommitsTo H q' out'.scriptPubKey → k = k') (hcf : CollisionFree (h160 H) [h, h']) : h = h' := by
  have hva := hv
  have hvb := hv'
  rw [run_eq classes_wf _ hs ha, verifyHash_inv (hs.checked classes_wf ha)] at hv
  rw [run_eq classes_wf _ hs' hb, verifyHash_inv (hs'.checked classes_wf hb)] at hv'
  obtain ⟨_, _, _, j1, y1, he, _, out, ho, hc⟩ := hv
  obtain ⟨_, _, _, j2, y2, he', _, out', ho', hc'⟩ := hv'
  simp only [fullWitnessT, witnessT, txoutT, txT, PTree.node.injEq, PFields.sub.injEq, PFields.prim.injEq, PVal.int.injEq, PVal.tx.injEq, true_and, and_true] at he he'
  obtain ⟨_, _, rfl, rfl⟩ := he
  obtain ⟨_, _, rfl, rfl⟩ := he'
  have hk := hone _ _ _ _ _ _ ho ho' hc hc'
  exact C49_same_output_partial hs hs' ha hb hva hvb (by rw [hk]) hcf

/-- The conditions are met by the witness of the example, twice. -/
example : (∀ (k k' : Nat) (out out' : CTxOut) (q q' : Bytes), Ex.tx.vout[k]? = some out → Ex.tx.vout[k']? = some out' → CommitsTo realHash q out.scriptPubKey →
      CommitsTo realHash q' out'.scriptPubKey → k = k') := by
  intro k k' out out' q q' hk hk' _ _
  have h1 := get_lt hk
  have h2 := get_lt hk'
  simp only [show Ex.tx.vout.length = 1 from rfl] at h1 h2
  omega

/-! ## C50 -/

theorem fakeWitness_run {s : PState} {r : Nat} {h h2 : Bytes} (hs : Reachable C H s) (hr : Represents s r (fakeWitnessT (fakeSealT h))) :
    ((fakeVerifyHash h2 []).run C H r s).1 = .ok (if h2 = h then .ok () else .error .assertion) := by
  rw [run_eq classes_wf _ hs hr]
  show Except.ok (pyAssert (h == h2)) = _
  by_cases he : h2 = h
  · simp [he, pyAssert]
  · rw [beq_false_of_ne (fun h => he h.symm), if_neg he]; rfl

/-- C50: `from_hash(h)` gives a witness, for 32 bytes `h` (and otherwise raises), and `verify_hash(h2)` of it succeeds exactly if `h2` is
`h`, at any later time. -/
theorem C50_exact {s : PState} (hs : Reachable C H s) (h : Bytes) :
    (h.length = 32 → ∃ w s', fromHash C h s = (.ok w, s') ∧ Reachable C H s' ∧ Represents s' w (fakeWitnessT (fakeSealT h)) ∧
      ∀ s1 h2, Steps C H s' s1 → ((fakeVerifyHash h2 []).run C H w s1).1 = .ok (if h2 = h then .ok () else .error .assertion)) ∧
    (h.length ≠ 32 → (fromHash C h s).1 = .error .serValue) := by
  have ha : (C Cls.fakeSeal).attrs = [.prim (.fixed 32)] := rfl
  constructor
  · intro hl
    obtain ⟨s1, h1, hw1, ⟨o1, ho1⟩, hst1⟩ := new_whole (T := C) (H := H) (s := s) Cls.fakeSeal (vs := [.prim (.bytes h)]) (.prim .nil) (by
      rw [ha]
      refine ⟨?_, trivial⟩
      show (if _ then _ else _) = _
      rw [if_neg (by omega)])
    have hck : (fakeSealT h).Checked C := Reachable.checked classes_wf (hs.trans hst1) hw1.represents
    obtain ⟨s2, h2, hw2, _, hst2⟩ := new_whole (T := C) (H := H) (s := s1) Cls.fakeWitness (vs := [.ref s.objs.length]) (.sub hw1 .nil)
      ⟨(fun us h => by cases h), hck, trivial⟩
    have hs2 : Reachable C H s2 := (hs.trans hst1).trans hst2
    refine ⟨_, s2, by unfold fromHash; rw [HM.bind_of_eq h1]; exact h2, hs2, hw2.represents, fun s3 h' hst3 => ?_⟩
    exact fakeWitness_run (hs2.trans hst3) (hst3.represents classes_wf hs2 hw2.represents)
  · intro hl
    have : Prf.new C Cls.fakeSeal [.prim (.bytes h)] s = (.error .serValue, (Prf.initClass Cls.fakeSeal s).2) := by
      unfold Prf.new
      rw [HM.bind_of_eq (show Prf.initClass Cls.fakeSeal s = (.ok (), (Prf.initClass Cls.fakeSeal s).2) from rfl), ha]
      unfold Prf.checkVals
      apply HM.bind_of_error
      apply HM.bind_of_error
      rw [Prf.checkVal]
      apply HM.bind_of_error
      rw [HM.lift_apply]
      show ((if _ then _ else _ : Py Unit), _) = _
      rw [if_pos hl]
    unfold fromHash
    rw [HM.bind_of_error this]

/-- C50: fake seals, also of different executions, with the same hash are for the same committed hash, provided SHA-256 does not
collide on the four strings hashed. -/
theorem C50_binding {s s' : PState} {a b : Nat} {h h' k : Bytes} (hs : Reachable C H s) (hs' : Reachable C H s') (ha : Represents s a (fakeSealT h))
    (hb : Represents s' b (fakeSealT h')) (hk : (Prf.hash C H a s).1 = .ok k) (hk' : (Prf.hash C H b s').1 = .ok k)
    (hcf : CollisionFree H.sha256 [h, h', hex "e5690d7316e34f8fbd4f148c32d37baf" ++ H.sha256 h, hex "e5690d7316e34f8fbd4f148c32d37baf" ++ H.sha256 h']) : h = h' := by
  have key : ∀ {s : PState} {a : Nat} {h : Bytes}, Reachable C H s → Represents s a (fakeSealT h) →
      (Prf.hash C H a s).1 = .ok (H.sha256 (hex "e5690d7316e34f8fbd4f148c32d37baf" ++ H.sha256 h)) := by
    intro s a h hs ha
    obtain ⟨τ, hi⟩ := hs.inv classes_wf
    obtain ⟨_, _, _, hq⟩ := hash_spec classes_wf hi (hi.of_represents ha)
    rw [hq]
    show Except.ok (H.sha256 (_ ++ H.sha256 (h ++ []))) = _
    rw [List.append_nil]
  rw [key hs ha] at hk
  rw [key hs' hb] at hk'
  have he := Except.ok.inj (hk.trans hk'.symm)
  have := hcf _ (by simp) _ (by simp) he
  rw [List.append_cancel_left_eq] at this
  exact hcf _ (by simp) _ (by simp) this

example : ((do
    let w ← fromHash (classes realHash intGuMap) Ex.digest
    let a ← (fakeVerifyHash Ex.digest []).run (classes realHash intGuMap) realHash w
    let b ← (fakeVerifyHash Ex.txid []).run (classes realHash intGuMap) realHash w
    return (a, b) : HM (Py Unit × Py Unit)) {}).1 = .ok (.ok (), .error .assertion) := by decide +kernel

/-! ## C51 -/

/-- C51: `TxInProof.verify()` succeeds exactly if the index is in range, and then `txin` is that input; otherwise they raise `AssertionError` and
`IndexError`. -/
theorem C51_txin {s : PState} {r : Nat} {i : Nat} {x : CTransaction} (hs : Reachable C H s) (hr : Represents s r (txinT i (txT x))) :
    (∀ inp, x.vin[i]? = some inp → ((txInVerify []).run C H r s).1 = .ok (.ok ()) ∧ ((txin []).run C H r s).1 = .ok (.ok inp)) ∧
    (x.vin.length ≤ i → ((txInVerify []).run C H r s).1 = .ok (.error .assertion) ∧ ((txin []).run C H r s).1 = .ok (.error .indexError)) := by
  rw [run_eq classes_wf _ hs hr, run_eq classes_wf _ hs hr]
  have h1 : (txInVerify []).eval C H s.inited (txinT i (txT x)) = .ok (pyAssert (decide ((i : Int) < x.vin.length))) := by
    unfold txInVerify onCls
    simp only [Prog.eval]
    have h0 : (0 : Int) ≤ (i : Int) := by omega
    show Prog.eval C H s.inited (if (0 : Int) ≤ (i : Int) then _ else Seal.lift (.error .assertion)) _ = _
    rw [if_pos h0]; rfl
  have h2 : (txin []).eval C H s.inited (txinT i (txT x)) = .ok (pyGetItem x.vin i) := rfl
  have h3 : pyGetItem x.vin (i : Int) = match x.vin[i]? with | some a => .ok a | none => .error .indexError := by
    unfold pyGetItem
    simp only [show ¬ ((i : Int) < 0) by omega, if_false, Int.toNat_natCast]
    cases x.vin[i]? <;> rfl
  rw [h1, h2, h3]
  constructor
  · intro inp hinp
    rw [hinp]
    have := get_lt hinp
    refine ⟨?_, rfl⟩
    rw [decide_eq_true (by omega)]; rfl
  · intro hle
    rw [List.getElem?_eq_none hle]
    refine ⟨?_, rfl⟩
    rw [decide_eq_false (by omega)]; rfl

/-- C51: the same for outputs. -/
theorem C51_txout {s : PState} {r : Nat} {i : Nat} {x : CTransaction} (hs : Reachable C H s) (hr : Represents s r (txoutT i (txT x))) :
    (∀ out, x.vout[i]? = some out → ((txOutVerify []).run C H r s).1 = .ok (.ok ()) ∧ ((txout []).run C H r s).1 = .ok (.ok out)) ∧
    (x.vout.length ≤ i → ((txOutVerify []).run C H r s).1 = .ok (.error .assertion) ∧ ((txout []).run C H r s).1 = .ok (.error .indexError)) := by
  rw [run_eq classes_wf _ hs hr, run_eq classes_wf _ hs hr]
  have h1 : (txOutVerify []).eval C H s.inited (txoutT i (txT x)) = .ok (pyAssert (decide ((i : Int) < x.vout.length))) := by
    unfold txOutVerify onCls
    simp only [Prog.eval]
    have h0 : (0 : Int) ≤ (i : Int) := by omega
    show Prog.eval C H s.inited (if (0 : Int) ≤ (i : Int) then _ else Seal.lift (.error .assertion)) _ = _
    rw [if_pos h0]; rfl
  have h2 : (txout []).eval C H s.inited (txoutT i (txT x)) = .ok (pyGetItem x.vout i) := rfl
  have h3 : pyGetItem x.vout (i : Int) = match x.vout[i]? with | some a => .ok a | none => .error .indexError := by
    unfold pyGetItem
    simp only [show ¬ ((i : Int) < 0) by omega, if_false, Int.toNat_natCast]
    cases x.vout[i]? <;> rfl
  rw [h1, h2, h3]
  constructor
  · intro inp hinp
    rw [hinp]
    have := get_lt hinp
    refine ⟨?_, rfl⟩
    rw [decide_eq_true (by omega)]; rfl
  · intro hle
    rw [List.getElem?_eq_none hle]
    refine ⟨?_, rfl⟩
    rw [decide_eq_false (by omega)]; rfl

/-- Index 0 is in range in the example, 1 is not. -/
example : ∃ s r r', Reachable (classes realHash intGuMap) realHash s ∧ Represents s r (txinT (0 : Nat) (txT Ex.tx)) ∧ Represents s r' (txoutT (1 : Nat) (txT Ex.tx)) ∧
    Ex.tx.vin.length = 1 ∧ Ex.tx.vout.length = 1 := by
  obtain ⟨s, r, hst, _, hw⟩ := build (T := classes realHash intGuMap) (H := realHash) (txinT (0 : Nat) (txT Ex.tx)) rfl (txinT_fields_checked _ (by omega)) {}
  obtain ⟨s', r', hst', ⟨xs, hxs⟩, hw'⟩ := build (T := classes realHash intGuMap) (H := realHash) (txoutT (1 : Nat) (txT Ex.tx)) rfl (txoutT_fields_checked _ (by omega)) s
  exact ⟨s', r, r', Steps.trans hst hst', (hw.append hxs).represents, hw'.represents, rfl, rfl⟩

end
end Verif.Seal
