import Verif.Lemmas.ScriptOps
import Verif.Props.SigHash
/-! # Signatures in scripts -/
namespace Verif.Btc
open Verif

/-! ## One signature -/

theorem checkSig_eq (C : Crypto) {cs : List Tok} (hcs : WFToks cs) (hlen : (codeOf cs).length ≤ MAX_SIZE) {t : CTransaction} (ht : TxFits t) (i : Nat)
    (sig key : Bytes) : checkSig C sig key (scriptOf cs) t i = .ok (goodSig C t i cs sig key) := by
  unfold checkSig goodSig
  rcases sig.getLast? with _ | ty
  · rfl
  · simp only
    have key' : ∃ e, rawSignatureHash C.H (scriptOf cs) t i (ty.toNat : Int) = .ok (digest C.H cs t i ty.toNat, e) := by
      unfold digest
      by_cases ho : t.vin.length ≤ i ∨ SigSingle ty.toNat ∧ t.vout.length ≤ i
      · rw [if_pos ho]
        exact ⟨true, ((C76_out_of_range C.H hcs ht.valid).1 ho).1⟩
      · rw [if_neg ho]
        have hi : i < t.vin.length := by omega
        obtain ⟨b, hb⟩ := C76_serializes (ts := cs) ht.valid (i := i) (ty := ty.toNat) hlen ht.version ht.values ht.scripts ht.ins ht.outs hi
        have hty := ty.isLt
        rw [hb]
        refine ⟨false, (C76_message C.H hcs rfl ht.valid hi (ty := (ty.toNat : Int)) (by omega) (fun h => ?_) hb).2⟩
        rcases Nat.lt_or_ge i t.vout.length with h' | h'
        · exact h'
        · exact absurd (.inr ⟨h, h'⟩) ho
    obtain ⟨e, he⟩ := key'
    rw [he, okb]
    rfl

theorem goodSig_congr (C : Crypto) {t : CTransaction} {i : Nat} {cs ds : List Tok} (h : codeOf cs = codeOf ds) : goodSig C t i cs = goodSig C t i ds := by
  funext sig key
  simp only [goodSig, digest, h]

theorem dropSig_eq {cs : List Tok} (hcs : WFToks cs) {sig : Bytes} (h : sig.length < 2 ^ 32) : dropSig (scriptOf cs) sig = .ok (scriptOf (without [sig] cs)) := by
  obtain ⟨h1, h2⟩ := encodePushdata_ok h
  have hm : mkScript [.data sig] = .ok (Tok.push (shortest sig) sig).bytes := by
    simp only [mkScript, coerceItem, h1, okb, puree, List.append_nil]
  unfold dropSig
  rw [hm, okb, (C72_one_operation_partial h2 hcs []).1]
  congr 2
  unfold without
  apply List.filter_congr
  intro x _
  simp

theorem without_wf {cs : List Tok} (hcs : WFToks cs) (sigs : List Bytes) : WFToks (without sigs cs) :=
  fun t ht => hcs t (List.mem_filter.mp ht).1

theorem without_cons (d : Bytes) (ds : List Bytes) (cs : List Tok) : without ds (without [d] cs) = without (d :: ds) cs := by
  unfold without
  rw [List.filter_filter]
  apply List.filter_congr
  intro x _
  simp only [List.mem_cons, List.not_mem_nil, or_false, exists_eq_or_imp, exists_eq_left, not_or, Bool.decide_and]
  rw [Bool.and_comm]

theorem without_nil (cs : List Tok) : without [] cs = cs := by
  unfold without
  rw [List.filter_eq_self]
  intro x _
  simp

theorem codeOf_without {cs ds : List Tok} (h : cs.filter (fun t => t ≠ .op 0xab#8) = ds.filter (fun t => t ≠ .op 0xab#8)) (sigs : List Bytes) :
    codeOf (without sigs cs) = codeOf (without sigs ds) := by
  unfold codeOf without
  rw [List.filter_filter, List.filter_filter]
  have : ∀ l : List Tok, l.filter (fun a => decide (a ≠ Tok.op 0xab#8) && decide (¬ ∃ d ∈ sigs, a = Tok.push (shortest d) d)) =
      (l.filter (fun a => decide (a ≠ Tok.op 0xab#8))).filter fun a => decide (¬ ∃ d ∈ sigs, a = Tok.push (shortest d) d) := by
    intro l
    rw [List.filter_filter]
    apply List.filter_congr
    intro x _
    rw [Bool.and_comm]
  rw [this, this, h]

theorem scriptOf_filter_length (f : Tok → Bool) : ∀ cs : List Tok, (scriptOf (cs.filter f)).length ≤ (scriptOf cs).length
  | [] => Nat.le_refl _
  | c :: cs => by
    have ih := scriptOf_filter_length f cs
    have h1 : (scriptOf (c :: cs)).length = c.bytes.length + (scriptOf cs).length := by simp [scriptOf]
    rw [List.filter_cons]
    split
    · have h2 : (scriptOf (c :: cs.filter f)).length = c.bytes.length + (scriptOf (cs.filter f)).length := by simp [scriptOf]
      omega
    · omega

theorem dropSigs_eq {r : List Bytes} (hr : ∀ x ∈ r, x.length < 2 ^ 32) (p : Nat) : ∀ (ks : List Nat) (cs : List Tok), WFToks cs → (∀ k ∈ ks, p + k < r.length) →
    dropSigs r.reverse (p + 1) ks (scriptOf cs) = .ok (scriptOf (without (ks.map fun k => r.getD (p + k) []) cs))
  | [], cs, _, _ => by rw [dropSigs, List.map_nil, without_nil]
  | k :: ks, cs, hcs, hk => by
    have hp := hk k (by simp)
    rw [dropSigs, show p + 1 + k = (p + k) + 1 by omega, neg_rev, List.getElem?_eq_getElem hp]
    simp only [okb]
    rw [dropSig_eq hcs (hr _ (List.getElem_mem hp)), okb, dropSigs_eq hr p ks _ (without_wf hcs _) (fun j hj => hk j (by simp [hj])), without_cons, List.map_cons,
      List.getD_eq_getElem?_getD, List.getElem?_eq_getElem hp]
    rfl

theorem range_getD (r : List Bytes) (p : Nat) : ∀ n, p + n ≤ r.length → (List.range n).map (fun k => r.getD (p + k) []) = (r.drop p).take n
  | n, hn => by
    apply List.ext_getElem
    · rw [List.length_map, List.length_range, List.length_take, List.length_drop]; omega
    · intro j h1 h2
      rw [List.length_map, List.length_range] at h1
      rw [List.getElem_map, List.getElem_range, List.getElem_take, List.getElem_drop, List.getD_eq_getElem?_getD, List.getElem?_eq_getElem (by omega)]
      rfl

/-! ## Several signatures -/

/-- The loop on lists. -/
def greedy (good : Bytes → Bytes → Bool) : List Bytes → List Bytes → Bool
  | [], _ => true
  | _ :: _, [] => false
  | s :: ss, k :: ks =>
    if good s k then (if ss.length > ks.length then false else greedy good ss ks)
    else (if ss.length + 1 > ks.length then false else greedy good (s :: ss) ks)

theorem multiSigLoop_eq (C : Crypto) {cs : List Tok} (hcs : WFToks cs) (hlen : (codeOf cs).length ≤ MAX_SIZE) {t : CTransaction} (ht : TxFits t) (i : Nat) (r : List Bytes) :
    ∀ (b p q a : Nat), p + a ≤ r.length → q + b ≤ r.length →
    multiSigLoop C r.reverse (scriptOf cs) t i (p + 1) (q + 1) a b = .ok (greedy (goodSig C t i cs) ((r.drop p).take a) ((r.drop q).take b))
  | _, p, q, 0, _, _ => by rw [List.take_zero, greedy]; unfold multiSigLoop; rfl
  | 0, p, q, a + 1, hp, hq => by
    rw [List.drop_eq_getElem_cons (show p < r.length by omega), List.take_succ_cons, List.take_zero, greedy]
    unfold multiSigLoop; rfl
  | b + 1, p, q, a + 1, hp, hq => by
    rw [multiSigLoop, neg_rev, neg_rev, List.getElem?_eq_getElem (show p < r.length by omega), List.getElem?_eq_getElem (show q < r.length by omega)]
    simp only [okb]
    rw [checkSig_eq C hcs hlen ht, okb]
    rw [List.drop_eq_getElem_cons (show p < r.length by omega), List.drop_eq_getElem_cons (show q < r.length by omega), List.take_succ_cons, List.take_succ_cons, greedy]
    have h1 := multiSigLoop_eq C hcs hlen ht i r b (p + 1) (q + 1) a (by omega) (by omega)
    have h2 := multiSigLoop_eq C hcs hlen ht i r b p (q + 1) (a + 1) (by omega) (by omega)
    have la : ((r.drop (p + 1)).take a).length = a := by rw [List.length_take, List.length_drop]; omega
    have lb : ((r.drop (q + 1)).take b).length = b := by rw [List.length_take, List.length_drop]; omega
    rw [la, lb]
    rw [List.drop_eq_getElem_cons (show p < r.length by omega), List.take_succ_cons] at h2
    cases goodSig C t i cs r[p] r[q]
    · simp only [Bool.false_eq_true, if_false]
      split
      · rfl
      · exact h2
    · simp only [if_true]
      split
      · rfl
      · exact h1

theorem choices_iff : ∀ {l ks : List Bytes}, ks ∈ choices l ↔ ks.Sublist l
  | [], ks => by simp [choices]
  | x :: l, ks => by
    rw [choices, List.mem_append, List.mem_map, choices_iff]
    constructor
    · rintro (h | ⟨ks, h, rfl⟩)
      · exact h.cons x
      · exact (choices_iff.mp h).cons_cons x
    · intro h
      cases h with
      | cons _ h => exact .inl h
      | cons_cons _ h => exact .inr ⟨_, choices_iff.mpr h, rfl⟩

/-- `matching`, as a relation. -/
theorem matching_iff {good : Bytes → Bytes → Bool} {sigs keys : List Bytes} :
    matching good sigs keys = true ↔ ∃ ks, ks.Sublist keys ∧ ks.length = sigs.length ∧ ∀ p ∈ sigs.zip ks, good p.1 p.2 = true := by
  unfold matching
  rw [List.any_eq_true]
  constructor
  · rintro ⟨ks, h1, h2⟩
    rw [Bool.and_eq_true, List.all_eq_true, beq_iff_eq] at h2
    exact ⟨ks, choices_iff.mp h1, h2.1, h2.2⟩
  · rintro ⟨ks, h1, h2, h3⟩
    exact ⟨ks, choices_iff.mpr h1, by rw [Bool.and_eq_true, List.all_eq_true, beq_iff_eq]; exact ⟨h2, h3⟩⟩

theorem matching_length {good : Bytes → Bytes → Bool} {sigs keys : List Bytes} (h : matching good sigs keys = true) : sigs.length ≤ keys.length := by
  obtain ⟨ks, h1, h2, -⟩ := matching_iff.mp h
  have := h1.length_le
  omega

theorem greedy_eq (good : Bytes → Bytes → Bool) : ∀ (keys sigs : List Bytes), greedy good sigs keys = matching good sigs keys
  | keys, [] => by
    rw [greedy]
    exact (matching_iff.mpr ⟨[], List.nil_sublist _, rfl, by simp⟩).symm
  | [], s :: ss => by
    rw [greedy]
    cases h : matching good (s :: ss) []
    · rfl
    · have := matching_length h; simp at this
  | k :: ks, s :: ss => by
    rw [greedy]
    by_cases hg : good s k = true
    · rw [if_pos hg]
      have e : matching good (s :: ss) (k :: ks) = matching good ss ks := by
        rw [Bool.eq_iff_iff, matching_iff, matching_iff]
        constructor
        · rintro ⟨l, h1, h2, h3⟩
          rcases l with _ | ⟨x, l⟩
          · simp at h2
          · have hl : l.Sublist ks := by
              cases h1 with
              | cons _ h => exact (List.sublist_cons_self x l).trans h
              | cons_cons _ h => exact h
            exact ⟨l, hl, by simpa using h2, fun p hp => h3 p (by rw [List.zip_cons_cons]; exact List.mem_cons_of_mem _ hp)⟩
        · rintro ⟨l, h1, h2, h3⟩
          refine ⟨k :: l, h1.cons_cons k, by simpa using h2, ?_⟩
          rw [List.zip_cons_cons]
          intro p hp
          rcases List.mem_cons.mp hp with rfl | hp
          · exact hg
          · exact h3 p hp
      rw [e, ← greedy_eq good ks ss]
      split
      · next hl =>
        rw [greedy_eq]
        cases h : matching good ss ks
        · rfl
        · have := matching_length h; omega
      · rfl
    · rw [if_neg hg]
      have e : matching good (s :: ss) (k :: ks) = matching good (s :: ss) ks := by
        rw [Bool.eq_iff_iff, matching_iff, matching_iff]
        constructor
        · rintro ⟨l, h1, h2, h3⟩
          cases h1 with
          | cons _ h => exact ⟨l, h, h2, h3⟩
          | cons_cons _ h => exact absurd (h3 (s, k) (by rw [List.zip_cons_cons]; simp)) hg
        · rintro ⟨l, h1, h2, h3⟩
          exact ⟨l, h1.cons k, h2, h3⟩
      rw [e, ← greedy_eq good ks (s :: ss)]
      split
      · next hl =>
        rw [greedy_eq]
        cases h : matching good (s :: ss) ks
        · rfl
        · have := matching_length h; simp at this; omega
      · rfl

theorem popN_rev : ∀ (n : Nat) (r : List Bytes), n ≤ r.length → popN n r.reverse = .ok (r.drop n).reverse
  | 0, r, _ => by rw [popN, List.drop_zero]
  | n + 1, [], h => by simp at h
  | n + 1, x :: r, h => by
    rw [popN, pop_rev, okb]
    exact popN_rev n r (by simpa using h)

end Verif.Btc
