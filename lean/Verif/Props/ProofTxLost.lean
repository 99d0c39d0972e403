import Verif.Lemmas.ProofTxLost
import Verif.Props.Seal
/-! # C37 for computations that leave a `TxProof` pruned

Together with `C37_ship_and_verify_again_partial` and `C37_variant_lost_partial`.
-/
namespace Verif
variable {T : Table} {H : HashFns}

/-- C37, where it fails although everything can be read: if no `VarProof` was left pruned but a `TxProof` was, then what was sent is
accepted by every receiver, who can read all that the computation read, but asking for the hash of what arrived raises TypeError, since
`TxProof` has no HASHTAG. -/
theorem C37_tx_lost_partial (hT : T.WF) (hx : ∀ c, (T c).isTx = true → (T c).hashtag = none) {s : PState} {r c : Nat} {t : PTree}
    (hs : Reachable T H s) (ht : Represents s r t) (hw : t.WellTyped T c) {α : Type} (q : Prog α) {p : Nat} {s1 s2 s3 : PState} {res : Py (Py α)}
    {b : Bytes} (hp : Prf.prune T r s = (.ok p, s1)) (hq : q.run T H p s1 = (res, s2)) (hb : Prf.serialize T H p s2 = (.ok b, s3))
    (hk : (t.reveal T H (q.reads T H t) []).KeepsVariants T) (hl : (t.reveal T H (q.reads T H t) []).LosesTx T) {s0 : PState}
    (hs0 : Reachable T H s0) :
    ∃ r' s0', Prf.deserialize T c b s0 = (.ok r', s0') ∧ Represents s0' r' (t.reveal T H (q.reads T H t) []) ∧
      (Prf.hash T H r' s0').1 = .error .typeError := by
  obtain ⟨τ, addr, t', hi, hv, hr, hpt⟩ := (Tracked.prune hs hp).vw hT
  obtain ⟨τ0, hi0⟩ := hs.inv hT
  have h0 := hi0.of_represents ht
  obtain ⟨τ1, hi1, _, h2, h3, _⟩ := prune_spec hi0 h0
  rw [hp] at h2 hi1
  simp only [Except.ok.injEq] at h2
  subst h2
  obtain ⟨addr', hv'⟩ := Vw.run hT q _ _ _ _ _ hi1 h3 hv
  rw [hq, List.nil_append] at hv'
  obtain ⟨τ2, hi2, _, hship⟩ := run_ship hT q _ _ _ _ hi1 h3
  rw [hq] at hi2
  have hd := hv'.disclosed hi2 t _ [] hv'.root (append_get h3)
  rw [← hd] at hk hl ⊢
  obtain ⟨_, _, _, h4⟩ := serialize_spec hT hi2 (append_get h3)
  rw [hb] at h4
  have henc := PTree.encAt_ok _ t _ b h4.symm
  have hwt := PTree.disclosed_typed' _ t _ c b hw h4.symm hk
  obtain ⟨τr, hir⟩ := hs0.inv hT
  obtain ⟨τr', hir', _, r', hres, hfresh, _⟩ := deserialize_rt hT hir hwt henc
  refine ⟨r', _, Prod.ext hres rfl, ?_, ?_⟩
  · exact hir'.represents _ _ hfresh
  · obtain ⟨_, _, _, h6⟩ := hash_spec hT hir' hfresh
    rw [h6]
    cases hh : (t.disclosed T H (res, s2).2 s.objs.length).hash T H with
    | ok h => exact absurd hh (PTree.LosesTx.hash hT hx _ c hwt hl h)
    | error e => rw [PTree.hash_error hT _ c hwt e hh]

open Seal in
/-- A case: of the proof of an input of a transaction only its number was looked at. -/
example : (∀ c, ((classes realHash intGuMap) c).isTx = true → ((classes realHash intGuMap) c).hashtag = none) ∧
    (txinT 0 (txT Ex.tx)).WellTyped (classes realHash intGuMap) Cls.txInProof ∧
    ((txinT 0 (txT Ex.tx)).reveal (classes realHash intGuMap) realHash
      ((Prog.read [0] fun v => .ret (.ok v)).reads (classes realHash intGuMap) realHash (txinT 0 (txT Ex.tx))) []).KeepsVariants (classes realHash intGuMap) ∧
    ((txinT 0 (txT Ex.tx)).reveal (classes realHash intGuMap) realHash
      ((Prog.read [0] fun v => .ret (.ok v)).reads (classes realHash intGuMap) realHash (txinT 0 (txT Ex.tx))) []).LosesTx (classes realHash intGuMap) := by
  have hr : (Prog.read [0] fun v => .ret (.ok v)).reads (classes realHash intGuMap) realHash (txinT 0 (txT Ex.tx)) = [[]] := by decide +kernel
  rw [hr]
  refine ⟨?_, ?_, ?_, ?_⟩
  · intro c h
    unfold classes at h ⊢
    split at h <;> first | rfl | cases h
  · exact ((fullWitness_typed (H := realHash) (g := intGuMap) (o := Ex.op) (n := Ex.nonce) (i := 0) (j := 0) (x := Ex.tx) (by omega) (by omega)
      ⟨_, rfl⟩ (by decide) ⟨_, Ex.tx_ser⟩ (by decide +kernel)).2.2.1.1)
  · simp only [txinT, txT, PTree.reveal, PFields.reveal, List.mem_singleton, List.nil_append, if_true, if_false, reduceCtorEq, PTree.stub,
      PTree.KeepsVariants, PFields.KeepsVariants]
    trivial
  · simp only [txinT, txT, PTree.reveal, PFields.reveal, List.mem_singleton, List.nil_append, if_true, if_false, reduceCtorEq, PTree.stub,
      PTree.LosesTx, PFields.LosesTx]
    trivial

open Seal in
/-- The same, run: what is sent is read, the number is there, and `hash` raises TypeError. -/
example : ((do
    let x ← Prf.new (classes realHash intGuMap) Cls.txProof [.prim (.tx Ex.tx)]
    let i ← Prf.new (classes realHash intGuMap) Cls.txInProof [.prim (.int 0), .ref x]
    let p ← Prf.prune (classes realHash intGuMap) i
    let _ ← Prf.getAttr (classes realHash intGuMap) p 0
    let b ← Prf.serialize (classes realHash intGuMap) realHash p
    let q ← Prf.deserialize (classes realHash intGuMap) Cls.txInProof b
    Prf.getAttr (classes realHash intGuMap) q 0 : HM HVal) {}).1 = .ok (.prim (.int 0)) := by decide +kernel
open Seal in
example : ((do
    let x ← Prf.new (classes realHash intGuMap) Cls.txProof [.prim (.tx Ex.tx)]
    let i ← Prf.new (classes realHash intGuMap) Cls.txInProof [.prim (.int 0), .ref x]
    let p ← Prf.prune (classes realHash intGuMap) i
    let _ ← Prf.getAttr (classes realHash intGuMap) p 0
    let b ← Prf.serialize (classes realHash intGuMap) realHash p
    let q ← Prf.deserialize (classes realHash intGuMap) Cls.txInProof b
    Prf.hash (classes realHash intGuMap) realHash q : HM Bytes) {}).1 = .error .typeError := by decide +kernel

/-- C37 for computations that read no attribute of the proof itself: what is sent is accepted, as a pruned instance of the class `c` that
the receiver reads, and its hash is made with the tag of that class.  So it is the hash of the proof (`t.cls` is its class) if that is
`c`, or has the same tag, and otherwise another one, or there is none. -/
theorem C37_unread_partial (hT : T.WF) {s : PState} {r c : Nat} {t : PTree}
    (hs : Reachable T H s) (ht : Represents s r t) (hw : t.WellTyped T c) {α : Type} (q : Prog α) {p : Nat} {s1 s2 s3 : PState} {res : Py (Py α)}
    {b : Bytes} (hp : Prf.prune T r s = (.ok p, s1)) (hq : q.run T H p s1 = (res, s2)) (hb : Prf.serialize T H p s2 = (.ok b, s3))
    (hn : [] ∉ q.reads T H t) {s0 : PState} (hs0 : Reachable T H s0) :
    ∃ d r' s0', (Prf.dataHash T H r s).1 = .ok d ∧ Prf.deserialize T c b s0 = (.ok r', s0') ∧ Represents s0' r' (.pruned c d) ∧
      (Prf.hash T H r' s0').1 = (match (T c).hashtag with | none => .error .typeError | some tag => .ok (H.tagged tag d)) ∧
      ((T t.cls).isTx = false →
        (Prf.hash T H r s).1 = (match (T t.cls).hashtag with | none => .error .typeError | some tag => .ok (H.tagged tag d))) := by
  obtain ⟨τ, addr, t', hi, hv, hr, hpt⟩ := (Tracked.prune hs hp).vw hT
  obtain ⟨τ0, hi0⟩ := hs.inv hT
  have h0 := hi0.of_represents ht
  obtain ⟨τ1, hi1, _, h2, h3, _⟩ := prune_spec hi0 h0
  rw [hp] at h2 hi1
  simp only [Except.ok.injEq] at h2
  subst h2
  obtain ⟨addr', hv'⟩ := Vw.run hT q _ _ _ _ _ hi1 h3 hv
  rw [hq, List.nil_append] at hv'
  obtain ⟨τ2, hi2, _, hship⟩ := run_ship hT q _ _ _ _ hi1 h3
  rw [hq] at hi2
  have hd := hv'.disclosed hi2 t _ [] hv'.root (append_get h3)
  obtain ⟨_, _, _, h4⟩ := serialize_spec hT hi2 (append_get h3)
  rw [hb] at h4
  have key : ∃ d, t.dataHash T H = .ok d ∧ d.length = 32 ∧ b = 0xff#8 :: d := by
    cases t with
    | pruned c' d =>
      rw [PTree.encAt] at h4
      rw [PTree.WellTyped] at hw
      cases h4
      exact ⟨d, rfl, hw.2, rfl⟩
    | node c' fs =>
      rw [PTree.reveal, if_neg hn, PTree.stub, PTree.disclosed] at hd
      rw [PTree.encAt] at h4
      split at h4
      · obtain ⟨d, hdd, h5⟩ := Except.bind_eq_ok h4.symm
        cases h5
        refine ⟨d, hdd, ?_, rfl⟩
        rw [PTree.dataHash] at hdd
        obtain ⟨x, _, hdd⟩ := Except.bind_eq_ok hdd
        cases hdd
        exact H.sha256_len _
      · rename_i hf
        rw [if_neg hf] at hd
        cases hd
  obtain ⟨d, hdd, hlen, rfl⟩ := key
  obtain ⟨τr, hir⟩ := hs0.inv hT
  obtain ⟨τr', hir', _, r', hres, hfresh, _⟩ := deserialize_rt (c := c) (t := .pruned c d) hT hir ⟨rfl, hlen⟩ rfl
  refine ⟨d, r', _, ?_, Prod.ext hres rfl, hir'.represents _ _ hfresh, ?_, fun hx => ?_⟩
  · obtain ⟨_, _, _, h6⟩ := dataHash_spec hT hi0 h0
    rw [h6, hdd]
  · obtain ⟨_, _, _, h6⟩ := hash_spec hT hir' hfresh
    rw [h6, PTree.hash, Prf.tagHash]
    rfl
  · obtain ⟨_, _, _, h6⟩ := hash_spec hT hi0 h0
    rw [h6]
    cases t with
    | pruned c' d' => rw [PTree.dataHash] at hdd; cases hdd; rw [PTree.hash, Prf.tagHash]; rfl
    | node c' fs =>
      rw [PTree.cls] at hx ⊢
      rw [PTree.dataHash] at hdd
      obtain ⟨x, hxx, hdd⟩ := Except.bind_eq_ok hdd
      cases hdd
      rw [PTree.hash, if_neg (by rw [hx]; simp), hxx, Except.bind_ok, Prf.tagHash]
      rfl

/-- A case: `LeafFooVarProof(value=15).prune()`, sent as it is (the counterexample of `C37_refuted`): the tag of the class is not that of
the variant. -/
example : [] ∉ (Prog.ret (.ok ()) : Prog Unit).reads ProofEx.TT realHash (.node 4 (.prim (.int 15) .nil)) ∧
    (ProofEx.TT 2).hashtag ≠ (ProofEx.TT 4).hashtag ∧ (ProofEx.TT 4).isTx = false := by decide +kernel

end Verif
