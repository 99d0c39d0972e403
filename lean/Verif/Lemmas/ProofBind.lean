import Verif.Lemmas.ProofShip
import Verif.Spec.ProofBind
/-! Hashes identify proofs. -/
namespace Verif
set_option linter.unusedSectionVars false
variable {T : Table} {H : HashFns}

theorem xorWithPad_length {h : Bytes} (hl : h.length = 32) : (Prf.xorWithPad h).length = 32 := by
  simp [Prf.xorWithPad, Prf.xorPad, hl]

theorem zipWith_xor_inj : ∀ {a b p : Bytes}, a.length ≤ p.length → b.length ≤ p.length → List.zipWith (· ^^^ ·) a p = List.zipWith (· ^^^ ·) b p → a = b
  | [], [], _, _, _, _ => rfl
  | [], _ :: _, [], _, h, _ => by simp at h
  | [], _ :: _, _ :: _, _, _, h => by simp at h
  | _ :: _, [], [], h, _, _ => by simp at h
  | _ :: _, [], _ :: _, _, _, h => by simp at h
  | _ :: _, _ :: _, [], h, _, _ => by simp at h
  | x :: a, y :: b, z :: p, h1, h2, h => by
    simp only [List.zipWith_cons_cons, List.cons.injEq] at h
    have hx : x = y := by
      have := congrArg (· ^^^ z) h.1
      simpa [BitVec.xor_assoc] using this
    rw [hx, zipWith_xor_inj (by simpa using h1) (by simpa using h2) h.2]

theorem xorWithPad_inj {a b : Bytes} (ha : a.length = 32) (hb : b.length = 32) (h : Prf.xorWithPad a = Prf.xorWithPad b) : a = b :=
  zipWith_xor_inj (p := Prf.xorPad) (by simp [Prf.xorPad, ha]) (by simp [Prf.xorPad, hb]) h

theorem txHash_len {v : PVal} {h : Bytes} (hh : Prf.txHash H (.prim v) = .ok h) : h.length = 32 := by
  unfold Prf.txHash at hh
  split at hh
  · obtain ⟨x, hx, hh⟩ := Except.bind_eq_ok hh
    cases hh
    unfold Btc.CTransaction.getHash at hx
    obtain ⟨b, _, hx⟩ := Except.bind_eq_ok hx
    cases hx
    exact xorWithPad_length (H.sha256_len _)
  · cases hh

theorem tagHash_len {c : Nat} {d h : Bytes} (hh : Prf.tagHash T H c d = .ok h) : h.length = 32 := by
  unfold Prf.tagHash at hh
  split at hh
  · cases hh
  · cases hh; exact H.sha256_len _

theorem PTree.hash_len : ∀ {t : PTree} {h : Bytes}, t.hash T H = .ok h → h.length = 32
  | .pruned c d, h, hh => by rw [PTree.hash] at hh; exact tagHash_len hh
  | .node c fs, h, hh => by
    rw [PTree.hash] at hh
    split at hh
    · split at hh
      · exact txHash_len hh
      · cases hh
    · obtain ⟨b, _, hh⟩ := Except.bind_eq_ok hh
      exact tagHash_len hh

theorem CollisionFree.mono {h : Bytes → Bytes} {S S' : List Bytes} (hf : CollisionFree h S') (hs : ∀ x ∈ S, x ∈ S') : CollisionFree h S :=
  fun a ha b hb hab => hf a (hs a ha) b (hs b hb) hab

/-- Data hash and tag of a proof that is not a transaction. -/
theorem PTree.hash_tag {t : PTree} {h : Bytes} (htx : (T t.cls).isTx = false) (hd : t.Declared T) (hh : t.hash T H = .ok h) :
    ∃ tag d, (T t.cls).hashtag = some tag ∧ t.dataHash T H = .ok d ∧ d.length = 32 ∧ h = H.sha256 (tag ++ d) ∧ tag ++ d ∈ t.hashed T H := by
  cases t with
  | pruned c d =>
    rw [PTree.hash] at hh
    simp only [Prf.tagHash] at hh
    cases hg : (T c).hashtag with
    | none => rw [hg] at hh; cases hh
    | some tag =>
      rw [hg] at hh
      cases hh
      rw [PTree.Declared] at hd
      exact ⟨tag, d, hg, by rw [PTree.dataHash], hd, rfl, by simp [PTree.hashed, hg]⟩
  | node c fs =>
    simp only [PTree.cls] at htx
    rw [PTree.hash, if_neg (by simp [htx])] at hh
    obtain ⟨b, hb, hh⟩ := Except.bind_eq_ok hh
    simp only [Prf.tagHash] at hh
    cases hg : (T c).hashtag with
    | none => rw [hg] at hh; cases hh
    | some tag =>
      rw [hg] at hh
      cases hh
      refine ⟨tag, H.sha256 b, hg, by rw [PTree.dataHash, hb]; rfl, H.sha256_len _, rfl, ?_⟩
      rw [PTree.hashed, if_neg (by simp [htx]), hb, hg]
      simp

mutual
theorem PTree.bind (hT : T.WF) (hB : T.Binds) : ∀ (t t' : PTree) (h : Bytes), t.Declared T → t'.Declared T → t.hash T H = .ok h → t'.hash T H = .ok h →
    ((T t.cls).isTx = true ∨ (T t'.cls).isTx = true → t.cls = t'.cls) → CollisionFree H.sha256 (t.hashed T H ++ t'.hashed T H) → Compat T H t t' := by
  intro t t' h hd hd' hh hh' htx hcf
  by_cases hx : (T t.cls).isTx = true
  · have hc := htx (.inl hx)
    cases t with
    | pruned c d => rw [PTree.hash] at hh; simp only [Prf.tagHash] at hh; rw [hB.txTag c hx] at hh; cases hh
    | node c fs =>
      cases t' with
      | pruned c' d => rw [hc] at hx; rw [PTree.hash] at hh'; simp only [Prf.tagHash] at hh'; rw [hB.txTag c' hx] at hh'; cases hh'
      | node c' fs' =>
        simp only [PTree.cls] at hc hx
        subst hc
        rw [PTree.Declared, hT c hx] at hd hd'
        have hone : ∀ {fs : PFields} {h : Bytes}, fs.Declared T [.prim .tx] → (PTree.node c fs).hash T H = .ok h → ∃ tx b, fs = .prim (.tx tx) .nil ∧ tx.ser = .ok b ∧ h = Prf.xorWithPad (H.hash256 b) ∧
            b ∈ (PTree.node c fs).hashed T H ∧ H.sha256 b ∈ (PTree.node c fs).hashed T H := by
          intro fs h hd hh
          match fs, hd with
          | .prim v fs0, hd =>
            rw [PFields.Declared] at hd
            match fs0, hd with
            | .nil, hd =>
              rw [PTree.hash, if_pos hx] at hh
              simp only [PFields.get?] at hh
              unfold Prf.txHash at hh
              split at hh
              · rename_i tx heq
                cases heq
                obtain ⟨x, hxx, hh⟩ := Except.bind_eq_ok hh
                cases hh
                unfold Btc.CTransaction.getHash at hxx
                obtain ⟨b, hb, hxx⟩ := Except.bind_eq_ok hxx
                cases hxx
                refine ⟨tx, b, rfl, hb, rfl, ?_, ?_⟩ <;> rw [PTree.hashed, if_pos hx] <;> simp [PFields.get?, hb]
              · cases hh
            | .prim _ _, hd => simp [PFields.Declared] at hd
            | .sub _ _, hd => simp [PFields.Declared] at hd
          | .sub t fs0, hd => simp [PFields.Declared, Kind.Allows] at hd
          | .nil, hd => simp [PFields.Declared] at hd
        obtain ⟨tx, b, rfl, hb, rfl, hm1, hm2⟩ := hone hd hh
        obtain ⟨tx', b', rfl, hb', he, hm1', hm2'⟩ := hone hd' hh'
        have h1 : H.hash256 b = H.hash256 b' := xorWithPad_inj (H.sha256_len _) (H.sha256_len _) he
        have h2 : H.sha256 b = H.sha256 b' := hcf _ (List.mem_append_left _ hm2) _ (List.mem_append_right _ hm2') h1
        have h3 : b = b' := hcf _ (List.mem_append_left _ hm1) _ (List.mem_append_right _ hm1') h2
        subst h3
        rw [Btc.PF.tx.inj hb hb']
        exact .node (.prim .nil)
  · have hx' : ¬ (T t'.cls).isTx = true := fun h => hx (htx (.inr h) ▸ h)
    obtain ⟨tag, d, hg, hdh, hdl, rfl, hm⟩ := PTree.hash_tag (by simpa using hx) hd hh
    obtain ⟨tag', d', hg', hdh', hdl', he, hm'⟩ := PTree.hash_tag (by simpa using hx') hd' hh'
    have hinj := hcf _ (List.mem_append_left _ hm) _ (List.mem_append_right _ hm') he
    obtain ⟨rfl, rfl⟩ := List.append_inj' hinj (by omega)
    have hc := hB.tags _ _ _ hg hg'
    match t, t' with
    | .pruned c x, .pruned c' x' =>
      simp only [PTree.cls] at hc
      rw [PTree.dataHash] at hdh hdh'
      cases hdh; cases hdh'
      rw [hc]; exact .pruned
    | .pruned c x, .node c' fs' =>
      simp only [PTree.cls] at hc
      rw [PTree.dataHash] at hdh
      cases hdh
      rw [hc]; exact .left hdh'
    | .node c fs, .pruned c' x' =>
      simp only [PTree.cls] at hc
      rw [PTree.dataHash] at hdh'
      cases hdh'
      rw [← hc]; exact .right hdh
    | .node c fs, .node c' fs' =>
      simp only [PTree.cls] at hc hx
      subst hc
      rw [PTree.dataHash] at hdh hdh'
      obtain ⟨b, hb, hdh⟩ := Except.bind_eq_ok hdh
      obtain ⟨b', hb', hdh'⟩ := Except.bind_eq_ok hdh'
      have hdd := hdh.trans hdh'.symm
      have hs : ∀ {fs : PFields} {b : Bytes}, fs.hashBytes T H (T c).attrs = .ok b → b ∈ (PTree.node c fs).hashed T H := by
        intro fs b hb
        rw [PTree.hashed, if_neg hx, hb]
        simp
      have hsub : ∀ {fs : PFields}, ∀ x ∈ fs.hashed T H, x ∈ (PTree.node c fs).hashed T H := by
        intro fs x hxx
        rw [PTree.hashed, if_neg hx]
        exact List.mem_append_left _ hxx
      have hbb : b = b' := hcf _ (List.mem_append_left _ (hs hb)) _ (List.mem_append_right _ (hs hb')) (Except.ok.inj hdd)
      subst hbb
      rw [PTree.Declared] at hd hd'
      refine .node (PFields.bind hT hB fs fs' (T c).attrs b b [] [] hd hd' hb hb' rfl (hB.tx c) ?_).1
      refine hcf.mono fun x hxm => ?_
      rcases List.mem_append.mp hxm with h | h
      · exact List.mem_append_left _ (hsub x h)
      · exact List.mem_append_right _ (hsub x h)
theorem PFields.bind (hT : T.WF) (hB : T.Binds) : ∀ (fs fs' : PFields) (ks : List Kind) (b b' r r' : Bytes), fs.Declared T ks → fs'.Declared T ks →
    fs.hashBytes T H ks = .ok b → fs'.hashBytes T H ks = .ok b' → b ++ r = b' ++ r' →
    (∀ k ∈ ks, ∀ c1 c2, k.Allows T c1 → k.Allows T c2 → (T c1).isTx = true → c1 = c2) → CollisionFree H.sha256 (fs.hashed T H ++ fs'.hashed T H) →
    CompatFields T H fs fs' ∧ r = r'
  | .nil, .nil, [], b, b', r, r', _, _, hb, hb', he, _, _ => by
    rw [PFields.hashBytes] at hb hb'
    cases hb; cases hb'
    exact ⟨.nil, he⟩
  | .prim v fs, .prim v' fs', .prim τ :: ks, b, b', r, r', hd, hd', hb, hb', he, htx, hcf => by
    rw [PFields.Declared] at hd hd'
    rw [PFields.hashBytes_prim] at hb hb'
    obtain ⟨a, ha, hb⟩ := Except.bind_eq_ok hb
    obtain ⟨x, hx, hb⟩ := Except.bind_eq_ok hb
    obtain ⟨a', ha', hb'⟩ := Except.bind_eq_ok hb'
    obtain ⟨x', hx', hb'⟩ := Except.bind_eq_ok hb'
    cases hb; cases hb'
    rw [List.append_assoc, List.append_assoc] at he
    obtain ⟨rfl, he⟩ := PrimTy.pf hd.1 hd'.1 (show τ.ser v = .ok a from ha) (show τ.ser v' = .ok a' from ha') he
    obtain ⟨h1, h2⟩ := PFields.bind hT hB fs fs' ks x x' r r' hd.2 hd'.2 hx hx' he (fun k hk => htx k (List.mem_cons_of_mem _ hk))
      (by rw [PFields.hashed, PFields.hashed] at hcf; exact hcf)
    exact ⟨.prim h1, h2⟩
  | .sub t fs, .sub t' fs', k :: ks, b, b', r, r', hd, hd', hb, hb', he, htx, hcf => by
    rw [PFields.Declared] at hd hd'
    rw [PFields.hashBytes_sub] at hb hb'
    obtain ⟨a, ha, hb⟩ := Except.bind_eq_ok hb
    obtain ⟨x, hx, hb⟩ := Except.bind_eq_ok hb
    obtain ⟨a', ha', hb'⟩ := Except.bind_eq_ok hb'
    obtain ⟨x', hx', hb'⟩ := Except.bind_eq_ok hb'
    cases hb; cases hb'
    have hk : ∀ {t : PTree} {a : Bytes}, k.Allows T t.cls → (TVal.sub t).hashAs T H k = .ok a → t.hash T H = .ok a := by
      intro t a hal ha
      cases k with
      | prim τ => exact hal.elim
      | proof c => exact ha
      | union us => exact ha
    have ha := hk hd.1 ha
    have ha' := hk hd'.1 ha'
    rw [List.append_assoc, List.append_assoc] at he
    obtain ⟨haa, he2⟩ := List.append_inj he (by rw [PTree.hash_len ha, PTree.hash_len ha'])
    subst haa
    have hkk := htx k (List.mem_cons_self)
    rw [PFields.hashed, PFields.hashed] at hcf
    have h0 := PTree.bind hT hB t t' a hd.2.1 hd'.2.1 ha ha' (fun h => h.elim (fun h => hkk _ _ hd.1 hd'.1 h) (fun h => (hkk _ _ hd'.1 hd.1 h).symm))
      (hcf.mono fun y hy => by
        rcases List.mem_append.mp hy with h | h
        · exact List.mem_append_left _ (List.mem_append_left _ h)
        · exact List.mem_append_right _ (List.mem_append_left _ h))
    obtain ⟨h1, h2⟩ := PFields.bind hT hB fs fs' ks x x' r r' hd.2.2 hd'.2.2 hx hx' he2 (fun k hk => htx k (List.mem_cons_of_mem _ hk))
      (hcf.mono fun y hy => by
        rcases List.mem_append.mp hy with h | h
        · exact List.mem_append_left _ (List.mem_append_right _ h)
        · exact List.mem_append_right _ (List.mem_append_right _ h))
    exact ⟨.sub h0 h1, h2⟩
  | .nil, .prim _ _, [], _, _, _, _, _, hd', _, _, _, _, _ => by simp [PFields.Declared] at hd'
  | .nil, .sub _ _, [], _, _, _, _, _, hd', _, _, _, _, _ => by simp [PFields.Declared] at hd'
  | .nil, _, _ :: _, _, _, _, _, hd, _, _, _, _, _, _ => by simp [PFields.Declared] at hd
  | .prim _ _, _, [], _, _, _, _, hd, _, _, _, _, _, _ => by simp [PFields.Declared] at hd
  | .sub _ _, _, [], _, _, _, _, hd, _, _, _, _, _, _ => by simp [PFields.Declared] at hd
  | .prim _ _, _, .proof _ :: _, _, _, _, _, hd, _, _, _, _, _, _ => by simp [PFields.Declared] at hd
  | .prim _ _, _, .union _ :: _, _, _, _, _, hd, _, _, _, _, _, _ => by simp [PFields.Declared] at hd
  | .prim _ _, .nil, .prim _ :: _, _, _, _, _, _, hd, _, _, _, _, _ => by simp [PFields.Declared] at hd
  | .prim _ _, .sub _ _, .prim _ :: _, _, _, _, _, _, hd, _, _, _, _, _ => by simp [PFields.Declared, Kind.Allows] at hd
  | .sub _ _, .nil, _ :: _, _, _, _, _, _, hd, _, _, _, _, _ => by simp [PFields.Declared] at hd
  | .sub _ _, .prim _ _, .prim _ :: _, _, _, _, _, hd, _, _, _, _, _, _ => by simp [PFields.Declared, Kind.Allows] at hd
  | .sub _ _, .prim _ _, .proof _ :: _, _, _, _, _, _, hd, _, _, _, _, _ => by simp [PFields.Declared] at hd
  | .sub _ _, .prim _ _, .union _ :: _, _, _, _, _, _, hd, _, _, _, _, _ => by simp [PFields.Declared] at hd
end

/-! ### Computations on two proofs of the same thing -/

theorem Compat.cls {t t' : PTree} (h : Compat T H t t') : t.cls = t'.cls := by cases h <;> rfl

def TVal.Compat (T : Table) (H : HashFns) : TVal → TVal → Prop
  | .prim v, .prim w => v = w
  | .sub t, .sub t' => Verif.Compat T H t t'
  | _, _ => False

theorem CompatFields.get : ∀ {fs fs' : PFields} {i : Nat} {tv tv' : TVal}, CompatFields T H fs fs' → fs.get? i = some tv → fs'.get? i = some tv' → tv.Compat T H tv'
  | .nil, _, _, _, _, .nil, h, _ => by simp [PFields.get?] at h
  | .prim v fs, _, 0, _, _, .prim _, h, h' => by
    simp only [PFields.get?, Option.some.injEq] at h h'
    subst h; subst h'; rfl
  | .prim v fs, _, i + 1, _, _, .prim hc, h, h' => CompatFields.get (i := i) hc h h'
  | .sub t fs, _, 0, _, _, .sub ht _, h, h' => by
    simp only [PFields.get?, Option.some.injEq] at h h'
    subst h; subst h'; exact ht
  | .sub t fs, _, i + 1, _, _, .sub _ hc, h, h' => CompatFields.get (i := i) hc h h'

theorem Compat.walk {ini ini' : List Nat} : ∀ {π : List Nat} {tv tv' w w' : TVal}, tv.Compat T H tv' → tv.walk T ini π = .ok w → tv'.walk T ini' π = .ok w' → w.Compat T H w'
  | [], _, _, _, _, hc, h, h' => by
    simp only [TVal.walk, Except.ok.injEq] at h h'
    rw [← h, ← h']; exact hc
  | i :: π, .prim _, _, _, _, hc, h, _ => by simp [TVal.walk] at h
  | i :: π, .sub _, .prim _, _, _, hc, _, h' => by simp [TVal.walk] at h'
  | i :: π, .sub t, .sub t', w, w', hc, h, h' => by
    rw [TVal.walk] at h h'
    obtain ⟨x, hx, _⟩ := Except.bind_eq_ok h
    obtain ⟨x', hx', _⟩ := Except.bind_eq_ok h'
    rw [hx, Except.bind_ok] at h
    rw [hx', Except.bind_ok] at h'
    unfold PTree.attr at hx hx'
    split at hx
    · rename_i y hy
      cases hx
      split at hx'
      · rename_i y' hy'
        cases hx'
        refine Compat.walk (π := π) ?_ h h'
        have hc : Verif.Compat T H t t' := hc
        cases hc with
        | node hf => exact hf.get hy hy'
        | pruned => simp [PTree.get?] at hy
        | left _ => simp [PTree.get?] at hy
        | right _ => simp [PTree.get?] at hy'
      · cases hx'
    · cases hx

theorem Compat.hash_aux (hB : T.Binds) {c : Nat} {fs : PFields} {x d d' : Bytes} (hd : (PTree.node c fs).dataHash T H = .ok x)
    (h : (PTree.pruned c x).hash T H = .ok d) (h' : (PTree.node c fs).hash T H = .ok d') : d = d' := by
  rw [PTree.hash] at h
  rw [PTree.hash] at h'
  split at h'
  · rename_i hx
    simp only [Prf.tagHash, hB.txTag c hx] at h
    cases h
  · rw [PTree.dataHash] at hd
    obtain ⟨b, hb, hd⟩ := Except.bind_eq_ok hd
    rw [hb, Except.bind_ok] at h'
    cases hd
    exact Except.ok.inj (h.symm.trans h')

mutual
theorem Compat.dataHash {t t' : PTree} {d d' : Bytes}: T.Binds → Compat T H t t' → t.dataHash T H = .ok d → t'.dataHash T H = .ok d' → d = d'
  | hB, .node (c := c) hf, h, h' => by
    rw [PTree.dataHash] at h h'
    obtain ⟨b, hb, h⟩ := Except.bind_eq_ok h
    obtain ⟨b', hb', h'⟩ := Except.bind_eq_ok h'
    cases h; cases h'
    rw [CompatFields.hashBytes hB hf hb hb']
  | hB, .pruned, h, h' => by rw [h] at h'; cases h'; rfl
  | hB, .left hd, h, h' => by rw [hd] at h'; rw [PTree.dataHash] at h; cases h; cases h'; rfl
  | hB, .right hd, h, h' => by rw [hd] at h; rw [PTree.dataHash] at h'; cases h; cases h'; rfl
theorem CompatFields.hashBytes {fs fs' : PFields} {ks : List Kind} {b b' : Bytes}: T.Binds → CompatFields T H fs fs' → fs.hashBytes T H ks = .ok b → fs'.hashBytes T H ks = .ok b' → b = b'
  | hB, .nil, h, h' => by rw [h] at h'; cases h'; rfl
  | hB, .prim (v := v) (fs := fs) (fs' := fs') hf, h, h' => by
    cases ks with
    | nil => rw [PFields.hashBytes] at h h'; cases h; cases h'; rfl
    | cons k ks =>
      rw [PFields.hashBytes_prim] at h h'
      obtain ⟨a, ha, h⟩ := Except.bind_eq_ok h
      obtain ⟨x, hx, h⟩ := Except.bind_eq_ok h
      obtain ⟨a', ha', h'⟩ := Except.bind_eq_ok h'
      obtain ⟨x', hx', h'⟩ := Except.bind_eq_ok h'
      cases h; cases h'
      rw [ha] at ha'; cases ha'
      rw [CompatFields.hashBytes hB hf hx hx']
  | hB, .sub (t := t) (t' := t') (fs := fs) (fs' := fs') ht hf, h, h' => by
    cases ks with
    | nil => rw [PFields.hashBytes] at h h'; cases h; cases h'; rfl
    | cons k ks =>
      rw [PFields.hashBytes_sub] at h h'
      obtain ⟨a, ha, h⟩ := Except.bind_eq_ok h
      obtain ⟨x, hx, h⟩ := Except.bind_eq_ok h
      obtain ⟨a', ha', h'⟩ := Except.bind_eq_ok h'
      obtain ⟨x', hx', h'⟩ := Except.bind_eq_ok h'
      cases h; cases h'
      have : a = a' := by
        cases k with
        | prim τ => simp only [TVal.hashAs] at ha ha'; rw [ha] at ha'; cases ha'; rfl
        | proof c => exact Compat.hash hB ht ha ha'
        | union us => exact Compat.hash hB ht ha ha'
      rw [this, CompatFields.hashBytes hB hf hx hx']
theorem Compat.hash {t t' : PTree} {d d' : Bytes}: T.Binds → Compat T H t t' → t.hash T H = .ok d → t'.hash T H = .ok d' → d = d'
  | hB, .node (c := c) (fs := fs) (fs' := fs') hf, h, h' => by
    rw [PTree.hash] at h h'
    split at h
    · rename_i hx
      rw [if_pos hx] at h'
      split at h
      · rename_i v hv
        split at h'
        · rename_i v' hv'
          have : v = v' := hf.get hv hv'
          subst this
          rw [h] at h'; cases h'; rfl
        · cases h'
      · cases h
    · rename_i hx
      rw [if_neg hx] at h'
      obtain ⟨b, hb, h⟩ := Except.bind_eq_ok h
      obtain ⟨b', hb', h'⟩ := Except.bind_eq_ok h'
      rw [CompatFields.hashBytes hB hf hb hb'] at h
      rw [h] at h'; cases h'; rfl
  | hB, .pruned, h, h' => by rw [h] at h'; cases h'; rfl
  | hB, .left (c := c) (fs := fs) hd, h, h' => Compat.hash_aux hB hd h h'
  | hB, .right (c := c) (fs := fs) hd, h, h' => (Compat.hash_aux hB hd h' h).symm
end

theorem TVal.Compat.asProof {v w : TVal} {q q' : PTree} (hc : v.Compat T H w) (h : v.asProof = .ok q) (h' : w.asProof = .ok q') : Verif.Compat T H q q' := by
  cases v <;> cases w <;> simp only [TVal.asProof, Except.ok.injEq, reduceCtorEq] at h h'
  subst h; subst h'; exact hc

theorem Compat.eval (hB : T.Binds) {α} {ini ini' : List Nat} : ∀ (q : Prog α) {t t' : PTree} {a a' : Py α}, Compat T H t t' →
    q.eval T H ini t = .ok a → q.eval T H ini' t' = .ok a' → a = a'
  | .ret a, t, t', _, _, _, h, h' => by
    rw [Prog.eval] at h h'; cases h; cases h'; rfl
  | .read π k, t, t', a, a', hc, h, h' => by
    rw [Prog.eval] at h h'
    obtain ⟨v, hv, h⟩ := Except.bind_eq_ok h
    obtain ⟨w, hw, h'⟩ := Except.bind_eq_ok h'
    have := Compat.walk (tv := .sub t) (tv' := .sub t') hc hv hw
    cases v <;> cases w <;> simp only [TVal.Compat] at this
    · subst this; exact Compat.eval hB _ hc h h'
    · exact Compat.eval hB _ hc h h'
  | .cls π k, t, t', a, a', hc, h, h' => by
    rw [Prog.eval] at h h'
    obtain ⟨v, hv, h⟩ := Except.bind_eq_ok h
    obtain ⟨w, hw, h'⟩ := Except.bind_eq_ok h'
    obtain ⟨q, hq, h⟩ := Except.bind_eq_ok h
    obtain ⟨q', hq', h'⟩ := Except.bind_eq_ok h'
    have := (Compat.walk (tv := .sub t) (tv' := .sub t') hc hv hw).asProof hq hq'
    rw [this.cls] at h
    exact Compat.eval hB _ hc h h'
  | .hash π k, t, t', a, a', hc, h, h' => by
    rw [Prog.eval] at h h'
    obtain ⟨v, hv, h⟩ := Except.bind_eq_ok h
    obtain ⟨w, hw, h'⟩ := Except.bind_eq_ok h'
    obtain ⟨q, hq, h⟩ := Except.bind_eq_ok h
    obtain ⟨q', hq', h'⟩ := Except.bind_eq_ok h'
    obtain ⟨x, hx, h⟩ := Except.bind_eq_ok h
    obtain ⟨x', hx', h'⟩ := Except.bind_eq_ok h'
    have := (Compat.walk (tv := .sub t) (tv' := .sub t') hc hv hw).asProof hq hq'
    rw [this.hash hB hx hx'] at h
    exact Compat.eval hB _ hc h h'
  | .dataHash π k, t, t', a, a', hc, h, h' => by
    rw [Prog.eval] at h h'
    obtain ⟨v, hv, h⟩ := Except.bind_eq_ok h
    obtain ⟨w, hw, h'⟩ := Except.bind_eq_ok h'
    obtain ⟨q, hq, h⟩ := Except.bind_eq_ok h
    obtain ⟨q', hq', h'⟩ := Except.bind_eq_ok h'
    obtain ⟨x, hx, h⟩ := Except.bind_eq_ok h
    obtain ⟨x', hx', h'⟩ := Except.bind_eq_ok h'
    have := (Compat.walk (tv := .sub t) (tv' := .sub t') hc hv hw).asProof hq hq'
    rw [this.dataHash hB hx hx'] at h
    exact Compat.eval hB _ hc h h'

end Verif
