import Verif.Spec.ProofTxLost
import Verif.Lemmas.ProofTrack
/-! # Lemmas for C37: what arrives of a proof with pruned `TxProof`s -/
namespace Verif
variable {T : Table} {H : HashFns}

theorem PTree.stub_typed' {t : PTree} {c : Nat} (h : t.WellTyped T c) (hd : ∃ d, t.dataHash T H = .ok d) (hk : (t.stub T H).KeepsVariants T) :
    (t.stub T H).WellTyped T c := by
  obtain ⟨d, hd⟩ := hd
  unfold PTree.stub at hk ⊢
  rw [hd, PTree.KeepsVariants] at hk
  rw [hd, PTree.WellTyped]
  cases t with
  | pruned c' d' =>
    rw [PTree.WellTyped] at h
    rw [PTree.dataHash] at hd
    cases hd
    exact h
  | node c' fs =>
    rw [PTree.WellTyped] at h
    rw [PTree.dataHash] at hd
    obtain ⟨b, _, hd⟩ := Except.bind_eq_ok hd
    cases hd
    refine ⟨?_, H.sha256_len _⟩
    have h1 := h.1
    cases hv : (T c).variants with
    | none => rw [hv] at h1; exact h1
    | some us =>
      rw [hv] at h1
      obtain ⟨i, _, h2, _⟩ := h1
      have := hk
      simp only [PTree.cls] at this
      rw [this] at h2; cases h2

mutual
theorem PTree.disclosed_typed' (s : PState) : ∀ (t : PTree) (r c : Nat) (b : Bytes), t.WellTyped T c → t.encAt T H s r = .ok b →
    (t.disclosed T H s r).KeepsVariants T → (t.disclosed T H s r).WellTyped T c
  | .pruned c' d, r, c, b, h, _, _ => by rw [PTree.disclosed]; exact h
  | .node c' fs, r, c, b, h, he, hk => by
    rw [PTree.encAt] at he
    rw [PTree.disclosed] at hk ⊢
    split at he
    · rename_i hf
      rw [if_pos hf] at hk ⊢
      obtain ⟨d, hd, _⟩ := Except.bind_eq_ok he
      exact PTree.stub_typed' h ⟨d, hd⟩ hk
    · rename_i hf
      rw [if_neg hf] at hk ⊢
      obtain ⟨v, hv, he⟩ := Except.bind_eq_ok he
      obtain ⟨x, hx, he⟩ := Except.bind_eq_ok he
      rw [PTree.WellTyped] at h ⊢
      rw [PTree.KeepsVariants] at hk
      exact ⟨h.1, PFields.disclosed_typed' s fs r 0 _ x h.2 hx hk⟩
theorem PFields.disclosed_typed' (s : PState) : ∀ (fs : PFields) (r i : Nat) (ks : List Kind) (b : Bytes), fs.WellTyped T ks → fs.encAt T H s r i ks = .ok b →
    (fs.disclosed T H s r i).KeepsVariants T → (fs.disclosed T H s r i).WellTyped T ks
  | .nil, r, i, ks, b, h, _, _ => by rw [PFields.disclosed]; exact h
  | .prim v fs, r, i, .prim τ :: ks, b, h, he, hk => by
    rw [PFields.encAt_prim] at he
    rw [PFields.disclosed] at hk ⊢
    rw [PFields.KeepsVariants] at hk
    rw [PFields.WellTyped] at h ⊢
    obtain ⟨a, ha, he⟩ := Except.bind_eq_ok he
    obtain ⟨x, hx, he⟩ := Except.bind_eq_ok he
    exact ⟨h.1, PFields.disclosed_typed' s fs r (i + 1) ks x h.2 hx hk⟩
  | .sub t fs, r, i, .proof c :: ks, b, h, he, hk => by
    rw [PFields.encAt_sub] at he
    rw [PFields.disclosed_sub] at hk ⊢
    rw [PFields.KeepsVariants] at hk
    rw [PFields.WellTyped] at h ⊢
    obtain ⟨a, ha, he⟩ := Except.bind_eq_ok he
    obtain ⟨x, hx, he⟩ := Except.bind_eq_ok he
    refine ⟨⟨?_, ?_⟩, PFields.disclosed_typed' s fs r (i + 1) ks x h.2 hx hk.2⟩
    · have ha : t.encField T H s (s.field r i) = .ok a := ha
      have h2 := hk.1
      generalize s.field r i = f at ha h2
      rcases f with _ | (_ | q)
      · obtain ⟨d, hd, _⟩ := Except.bind_eq_ok ha
        exact PTree.stub_typed' h.1.1 ⟨d, hd⟩ h2
      · obtain ⟨d, hd, _⟩ := Except.bind_eq_ok ha
        exact PTree.stub_typed' h.1.1 ⟨d, hd⟩ h2
      · exact PTree.disclosed_typed' s t q c a h.1.1 ha h2
    · have kcls : (t.discField T H s (s.field r i)).cls = t.cls := by
        unfold PTree.discField
        split
        · exact PTree.disclosed_cls ..
        · rfl
      rw [kcls]; exact h.1.2
  | .sub t fs, r, i, .union us :: ks, b, h, he, hk => by
    rw [PFields.encAt_sub] at he
    rw [PFields.disclosed_sub] at hk ⊢
    rw [PFields.KeepsVariants] at hk
    rw [PFields.WellTyped] at h ⊢
    obtain ⟨a, ha, he⟩ := Except.bind_eq_ok he
    obtain ⟨x, hx, he⟩ := Except.bind_eq_ok he
    refine ⟨?_, PFields.disclosed_typed' s fs r (i + 1) ks x h.2 hx hk.2⟩
    obtain ⟨⟨j, u, hu, hidx, htw⟩, _⟩ := h
    have kcls : (t.discField T H s (s.field r i)).cls = t.cls := by
      unfold PTree.discField
      split
      · exact PTree.disclosed_cls ..
      · rfl
    refine ⟨j, u, hu, by rw [kcls]; exact hidx, ?_⟩
    simp only [TVal.encAs] at ha
    obtain ⟨j', _, ha⟩ := Except.bind_eq_ok ha
    obtain ⟨y, hy, ha⟩ := Except.bind_eq_ok ha
    have h2 := hk.1
    generalize s.field r i = f at hy h2
    rcases f with _ | (_ | q)
    · obtain ⟨d, hd, _⟩ := Except.bind_eq_ok hy
      exact PTree.stub_typed' htw ⟨d, hd⟩ h2
    · obtain ⟨d, hd, _⟩ := Except.bind_eq_ok hy
      exact PTree.stub_typed' htw ⟨d, hd⟩ h2
    · exact PTree.disclosed_typed' s t q u y htw hy h2
  | .prim _ _, _, _, [], _, h, _, _ => by simp [PFields.WellTyped] at h
  | .sub _ _, _, _, [], _, h, _, _ => by simp [PFields.WellTyped] at h
  | .prim _ _, _, _, .proof _ :: _, _, h, _, _ => by simp [PFields.WellTyped] at h
  | .prim _ _, _, _, .union _ :: _, _, h, _, _ => by simp [PFields.WellTyped] at h
  | .sub _ _, _, _, .prim _ :: _, _, h, _, _ => by simp [PFields.WellTyped] at h
end

/-- What arrives has no hash, if a pruned `TxProof` is in it. -/
theorem tagHash_error {c : Nat} {d : Bytes} {e : PyErr} (h : Prf.tagHash T H c d = .error e) : e = .typeError := by
  unfold Prf.tagHash at h
  split at h <;> cases h
  rfl

mutual
theorem PTree.hash_error (hT : T.WF) : ∀ (t : PTree) (c : Nat), t.WellTyped T c → ∀ e, t.hash T H = .error e → e = .typeError
  | .pruned c' d, c, _, e, he => by rw [PTree.hash] at he; exact tagHash_error he
  | .node c' fs, c, h, e, he => by
    rw [PTree.WellTyped] at h
    rw [PTree.hash] at he
    split at he
    · rename_i hx
      have h2 := h.2
      rw [hT c' hx] at h2
      cases fs with
      | nil => rw [PFields.WellTyped] at h2; exact h2.elim; all_goals simp
      | sub t fs => rw [PFields.WellTyped] at h2; exact h2.elim; all_goals simp
      | prim v fs =>
        rw [PFields.WellTyped] at h2
        obtain ⟨⟨hc, _, x, hx⟩, _⟩ := h2
        simp only [PFields.get?] at he
        cases v with
        | tx t =>
          cases hs : t.ser with
          | error e' => simp [PrimTy.ser, hs] at hx; cases hx
          | ok y =>
            simp only [Prf.txHash, Btc.CTransaction.getHash, hs, Except.bind_ok] at he
            cases he
        | _ => simp [PrimTy.check] at hc
    · cases hb : fs.hashBytes T H (T c').attrs with
      | error e' =>
        rw [hb] at he
        cases he
        exact PFields.hashBytes_error hT fs _ h.2 e hb
      | ok b =>
        rw [hb] at he
        exact tagHash_error he
theorem PFields.hashBytes_error (hT : T.WF) : ∀ (fs : PFields) (ks : List Kind), fs.WellTyped T ks → ∀ e, fs.hashBytes T H ks = .error e → e = .typeError
  | .nil, [], _, e, he => by rw [PFields.hashBytes] at he; cases he
  | .prim v fs, .prim τ :: ks, h, e, he => by
    rw [PFields.WellTyped] at h
    obtain ⟨⟨_, _, x, hx⟩, h⟩ := h
    simp only [PFields.hashBytes, hx, Except.bind_ok] at he
    cases hb : fs.hashBytes T H ks with
    | error e' => rw [hb] at he; cases he; exact PFields.hashBytes_error hT fs ks h e hb
    | ok b => rw [hb] at he; cases he
  | .sub t fs, .proof c :: ks, h, e, he => by
    rw [PFields.WellTyped] at h
    simp only [PFields.hashBytes] at he
    cases ha : t.hash T H with
    | error e' => rw [ha] at he; cases he; exact PTree.hash_error hT t c h.1.1 e ha
    | ok a =>
      rw [ha] at he
      cases hb : fs.hashBytes T H ks with
      | error e' => rw [hb] at he; cases he; exact PFields.hashBytes_error hT fs ks h.2 e hb
      | ok b => rw [hb] at he; cases he
  | .sub t fs, .union us :: ks, h, e, he => by
    rw [PFields.WellTyped] at h
    obtain ⟨⟨i, u, _, _, hw⟩, h⟩ := h
    simp only [PFields.hashBytes] at he
    cases ha : t.hash T H with
    | error e' => rw [ha] at he; cases he; exact PTree.hash_error hT t u hw e ha
    | ok a =>
      rw [ha] at he
      cases hb : fs.hashBytes T H ks with
      | error e' => rw [hb] at he; cases he; exact PFields.hashBytes_error hT fs ks h e hb
      | ok b => rw [hb] at he; cases he
end

mutual
theorem PTree.LosesTx.hash (hT : T.WF) (hx : ∀ c, (T c).isTx = true → (T c).hashtag = none) : ∀ (t : PTree) (c : Nat), t.WellTyped T c → t.LosesTx T →
    ∀ h, t.hash T H ≠ .ok h
  | .pruned c' d, c, _, hl, h, he => by
    rw [PTree.LosesTx] at hl
    rw [PTree.hash, Prf.tagHash, hx c' hl] at he
    cases he
  | .node c' fs, c, hw, hl, h, he => by
    rw [PTree.WellTyped] at hw
    rw [PTree.LosesTx] at hl
    rw [PTree.hash] at he
    split at he
    · rename_i hx
      have h2 := hw.2
      rw [hT c' hx] at h2
      cases fs with
      | nil => rw [PFields.WellTyped] at h2; exact h2.elim; all_goals simp
      | sub t fs => rw [PFields.WellTyped] at h2; exact h2.elim; all_goals simp
      | prim v fs =>
        rw [PFields.WellTyped] at h2
        rw [PFields.LosesTx] at hl
        cases fs with
        | nil => rw [PFields.LosesTx] at hl; exact hl
        | prim _ _ => have := h2.2; rw [PFields.WellTyped] at this; exact this.elim; all_goals simp
        | sub _ _ => have := h2.2; rw [PFields.WellTyped] at this; exact this.elim; all_goals simp
    · obtain ⟨b, hb, _⟩ := Except.bind_eq_ok he
      exact PFields.LosesTx.hashBytes hT hx fs _ hw.2 hl b hb
theorem PFields.LosesTx.hashBytes (hT : T.WF) (hx : ∀ c, (T c).isTx = true → (T c).hashtag = none) : ∀ (fs : PFields) (ks : List Kind), fs.WellTyped T ks → fs.LosesTx T →
    ∀ b, fs.hashBytes T H ks ≠ .ok b
  | .nil, _, _, hl, _, _ => by rw [PFields.LosesTx] at hl; exact hl
  | .prim v fs, .prim τ :: ks, h, hl, b, he => by
    rw [PFields.WellTyped] at h
    rw [PFields.LosesTx] at hl
    rw [PFields.hashBytes] at he
    obtain ⟨a, _, he⟩ := Except.bind_eq_ok he
    obtain ⟨x, hb, he⟩ := Except.bind_eq_ok he
    exact PFields.LosesTx.hashBytes hT hx fs ks h.2 hl x hb
  | .sub t fs, .proof c :: ks, h, hl, b, he => by
    rw [PFields.WellTyped] at h
    rw [PFields.LosesTx] at hl
    simp only [PFields.hashBytes] at he
    obtain ⟨a, ha, he⟩ := Except.bind_eq_ok he
    obtain ⟨x, hb, he⟩ := Except.bind_eq_ok he
    rcases hl with hl | hl
    · exact PTree.LosesTx.hash hT hx t c h.1.1 hl a ha
    · exact PFields.LosesTx.hashBytes hT hx fs ks h.2 hl x hb
  | .sub t fs, .union us :: ks, h, hl, b, he => by
    rw [PFields.WellTyped] at h
    obtain ⟨⟨i, u, _, _, hw⟩, h⟩ := h
    rw [PFields.LosesTx] at hl
    simp only [PFields.hashBytes] at he
    obtain ⟨a, ha, he⟩ := Except.bind_eq_ok he
    obtain ⟨x, hb, he⟩ := Except.bind_eq_ok he
    rcases hl with hl | hl
    · exact PTree.LosesTx.hash hT hx t u hw hl a ha
    · exact PFields.LosesTx.hashBytes hT hx fs ks h hl x hb
end

end Verif
