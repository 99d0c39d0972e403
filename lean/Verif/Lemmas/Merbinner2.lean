import Verif.Lemmas.Merbinner
import Verif.Lemmas.Prim
import Verif.Spec.Hash
/-! Merbinner trees: hashes and `issubset`. -/
namespace Verif.MB
set_option linter.unusedSectionVars false
variable {K V : Type} [DecidableEq K] {C : MBClass K V}

/-- Every string hashed (with SHA-256) while computing `hash`. -/
def hashed (C : MBClass K V) (H : HashFns) (tag : Bytes) : MB K V → List Bytes
  | empty => [[], H.derive subtagEmpty tag ++ H.sha256 []]
  | leaf k v => [C.keyDigest k ++ C.valueDigest v, H.derive subtagLeaf tag ++ H.sha256 (C.keyDigest k ++ C.valueDigest v)]
  | inner p l r =>
    let d := prefixBytes p ++ l.hash C H tag ++ r.hash C H tag
    [d, H.derive subtagInner tag ++ H.sha256 d] ++ l.hashed C H tag ++ r.hashed C H tag

/-- The tree with each leaf replaced by the bytes its data hash covers. -/
def skel (C : MBClass K V) : MB K V → MB Bytes Unit
  | empty => empty
  | leaf k v => leaf (C.keyDigest k ++ C.valueDigest v) ()
  | inner p l r => inner p (l.skel C) (r.skel C)

theorem hash_length (H : HashFns) (tag : Bytes) (t : MB K V) : (t.hash C H tag).length = 32 := by
  cases t <;> exact H.sha256_len _

theorem prefixBytes_inj {p q : List Bool} {x y : Bytes} (h : prefixBytes p ++ x = prefixBytes q ++ y) : p = q ∧ x = y := by
  unfold prefixBytes at h
  rw [Bits.serialize_ofIter, Bits.serialize_ofIter] at h
  simp only [] at h
  unfold Bits.serV at h
  simp only [List.append_assoc] at h
  obtain ⟨h1, h2⟩ := Bits.writeVaruint_prefix_inj h
  obtain ⟨hx, hxb⟩ := Bits.ofIter_spec p
  obtain ⟨hy, hyb⟩ := Bits.ofIter_spec q
  have hbx := Bits.body_length hx
  have hby := Bits.body_length hy
  unfold Bits.body at hbx hby
  rw [← List.append_assoc, ← List.append_assoc] at h2
  obtain ⟨h3, h4⟩ := List.append_inj h2 (by rw [hbx, hby, h1])
  refine ⟨?_, h4⟩
  rw [← hxb, ← hyb]
  rw [← Bits.serV_inj hx hy]
  unfold Bits.serV
  rw [List.append_assoc, List.append_assoc, h3, h1]

theorem hash_binding (H : HashFns) (tag : Bytes) :
    ∀ (t u : MB K V), H.derive subtagEmpty tag ≠ H.derive subtagLeaf tag →
      H.derive subtagEmpty tag ≠ H.derive subtagInner tag → H.derive subtagLeaf tag ≠ H.derive subtagInner tag →
      CollisionFree H.sha256 (t.hashed C H tag ++ u.hashed C H tag) →
      t.hash C H tag = u.hash C H tag → t.skel C = u.skel C := by
  intro t u h1 h2 h3 hcf h
  have tagEq : ∀ {a b x y : Bytes}, a.length = 16 → b.length = 16 → a ++ H.sha256 x = b ++ H.sha256 y →
      a = b ∧ H.sha256 x = H.sha256 y := fun ha hb h => List.append_inj h (by omega)
  have dl : ∀ s, (H.derive s tag).length = 16 := fun s => by
    simp [HashFns.derive, HashFns.tagged, H.sha256_len]
  induction t generalizing u with
  | empty =>
    cases u with
    | empty => rfl
    | leaf k v =>
      have := hcf _ (by simp [hashed]) _ (by simp [hashed]) h
      exact absurd (tagEq (dl _) (dl _) this).1 h1
    | inner p l r =>
      have := hcf _ (by simp [hashed]) _ (by simp [hashed]) h
      exact absurd (tagEq (dl _) (dl _) this).1 h2
  | leaf k v =>
    cases u with
    | empty =>
      have := hcf _ (by simp [hashed]) _ (by simp [hashed]) h
      exact absurd (tagEq (dl _) (dl _) this).1 h1.symm
    | leaf k' v' =>
      have := hcf _ (by simp [hashed]) _ (by simp [hashed]) h
      have := hcf (C.keyDigest k ++ C.valueDigest v) (by simp [hashed]) (C.keyDigest k' ++ C.valueDigest v') (by simp [hashed])
        (tagEq (dl _) (dl _) this).2
      simp [skel, this]
    | inner p l r =>
      have := hcf _ (by simp [hashed]) _ (by simp [hashed]) h
      exact absurd (tagEq (dl _) (dl _) this).1 h3
  | inner p l r ih1 ih2 =>
    cases u with
    | empty =>
      have := hcf _ (by simp [hashed]) _ (by simp [hashed]) h
      exact absurd (tagEq (dl _) (dl _) this).1 h2.symm
    | leaf k v =>
      have := hcf _ (by simp [hashed]) _ (by simp [hashed]) h
      exact absurd (tagEq (dl _) (dl _) this).1 h3.symm
    | inner p' l' r' =>
      have := hcf _ (by simp [hashed]) _ (by simp [hashed]) h
      have := hcf (prefixBytes p ++ l.hash C H tag ++ r.hash C H tag) (by simp [hashed])
        (prefixBytes p' ++ l'.hash C H tag ++ r'.hash C H tag) (by simp [hashed]) (tagEq (dl _) (dl _) this).2
      simp only [List.append_assoc] at this
      obtain ⟨e0, this⟩ := prefixBytes_inj this
      obtain ⟨e1, e2⟩ := List.append_inj this (by rw [hash_length, hash_length])
      have f1 := ih1 l' (fun a ha b hb => hcf a (by simp only [hashed, List.mem_append] at ha ⊢; tauto) b (by simp only [hashed, List.mem_append] at hb ⊢; tauto)) e1
      have f2 := ih2 r' (fun a ha b hb => hcf a (by simp only [hashed, List.mem_append] at ha ⊢; tauto) b (by simp only [hashed, List.mem_append] at hb ⊢; tauto)) e2
      simp [skel, f1, f2, e0]

theorem hashed_sub {H : HashFns} {tag : Bytes} {s t : MB K V} (h : MBSubtree s t) : ∀ m ∈ s.hashed C H tag, m ∈ t.hashed C H tag := by
  induction h with
  | refl => exact fun _ h => h
  | left _ ih => intro m hm; simp [hashed, ih m hm]
  | right _ ih => intro m hm; simp [hashed, ih m hm]

theorem pairs_sub {s t : MB K V} (h : MBSubtree s t) : ∀ kv ∈ s.pairs, kv ∈ t.pairs := by
  induction h with
  | refl => exact fun _ h => h
  | left _ ih => intro m hm; simp [pairs, ih m hm]
  | right _ ih => intro m hm; simp [pairs, ih m hm]

theorem WF.sub {s t : MB K V} (h : MBSubtree s t) (ht : WF C t) : WF C s := by
  induction h with
  | refl => exact ht
  | left _ ih => cases ht with | inner a b => exact ih a
  | right _ ih => cases ht with | inner a b => exact ih b

/-- Every pair of `t` is in `u`. -/
def Sub (C : MBClass K V) (t u : MB K V) : Prop :=
  ∀ kv ∈ t.pairs, ∃ v', (kv.1, v') ∈ u.pairs ∧ C.veq kv.2 v' = true

theorem sub_of_skel {t u : MB K V} (hinj : ∀ k v k' v', (k, v) ∈ t.pairs → (k', v') ∈ u.pairs →
      C.keyDigest k ++ C.valueDigest v = C.keyDigest k' ++ C.valueDigest v' → k = k' ∧ C.veq v v' = true)
    (h : t.skel C = u.skel C) : Sub C t u := by
  induction t generalizing u with
  | empty => intro kv h; cases h
  | leaf k v =>
    cases u with
    | empty => cases h
    | inner => cases h
    | leaf k' v' =>
      simp only [skel, leaf.injEq, and_true] at h
      obtain ⟨rfl, h2⟩ := hinj _ _ _ _ (by simp [pairs]) (by simp [pairs]) h
      intro kv hkv
      simp only [pairs, List.mem_singleton] at hkv
      subst hkv
      exact ⟨v', by simp [pairs], h2⟩
  | inner p l r ih1 ih2 =>
    cases u with
    | empty => cases h
    | leaf => cases h
    | inner p' l' r' =>
      simp only [skel, inner.injEq] at h
      intro kv hkv
      rcases List.mem_append.mp hkv with hkv | hkv
      · obtain ⟨v', a, b⟩ := ih1 (fun k v k' v' a b => hinj k v k' v' (by simp [pairs, a]) (by simp [pairs, b])) h.2.1 kv hkv
        exact ⟨v', by simp [pairs, a], b⟩
      · obtain ⟨v', a, b⟩ := ih2 (fun k v k' v' a b => hinj k v k' v' (by simp [pairs, a]) (by simp [pairs, b])) h.2.2 kv hkv
        exact ⟨v', by simp [pairs, a], b⟩

/-- `f` answers exactly whether `t` is included. -/
def Decides (C : MBClass K V) (t : MB K V) (u : MB K V) (r : Py Bool) : Prop := ∃ b, r = .ok b ∧ (b = true ↔ Sub C t u)

theorem issubset_inner (hC : PrefixFreeKeys C) {H : HashFns} {tag : Bytes} {p : List Bool} {l r : MB K V} (ht : WF C (.inner p l r))
    (subL subR : MB K V → Py Bool) (u : MB K V) (hu : WF C u)
    (hL : ∀ x, WF C x → MBSubtree x u → Decides C l x (subL x)) (hR : ∀ x, WF C x → MBSubtree x u → Decides C r x (subR x))
    (hB : ∀ x, MBSubtree x u → (MB.inner p l r).hash C H tag = x.hash C H tag → Sub C (.inner p l r) x) :
    Decides C (.inner p l r) u
      (subInner C H tag p (l.hash C H tag) (r.hash C H tag) ((MB.inner p l r).hash C H tag) subL subR u) := by
  obtain ⟨hl, hr, h3, h4⟩ : WF C l ∧ WF C r ∧ _ ∧ _ := by cases ht with | inner a b c d => exact ⟨a, b, c, d⟩
  obtain ⟨al, hal⟩ := hl.nonempty
  obtain ⟨ar, har⟩ := hr.nonempty
  have twoKeys : ∀ k, ¬ C.key2prefix k <+: p := by
    intro k h
    have e1 := hC _ _ (h.trans (prefix_of_snoc (h3 al hal)))
    have e2 := hC _ _ (h.trans (prefix_of_snoc (h4 ar har)))
    have := h3 al hal
    rw [← e1, e2] at this
    exact absurd (snoc_prefix_unique this (h4 ar har)) (by decide)
  induction hu with
  | leaf k v =>
    unfold subInner
    split
    · exact ⟨true, rfl, by simpa using hB _ .refl (by assumption)⟩
    · rw [if_neg, if_neg]
      · refine ⟨false, rfl, (by simp only [Bool.false_eq_true, false_iff]; exact id : ∀ {P : Prop}, ¬ P → (false = true ↔ P)) (fun hs => ?_)⟩
        obtain ⟨_, e1, _⟩ := hs al (by simp [pairs, hal])
        obtain ⟨_, e2, _⟩ := hs ar (by simp [pairs, har])
        simp only [pairs, List.mem_singleton, Prod.mk.injEq] at e1 e2
        have := h3 al hal
        rw [e1.1, ← e2.1] at this
        exact absurd (snoc_prefix_unique this (h4 ar har)) (by decide)
      · intro h; exact twoKeys k (by simpa using h)
      · intro h; exact twoKeys k (h ▸ List.prefix_rfl)
  | @inner p' l' r' hl' hr' h3' h4' ih1 ih2 =>
    unfold subInner
    split
    · exact ⟨true, rfl, by simpa using hB _ .refl (by assumption)⟩
    · rename_i hne
      split
      · rename_i hp
        subst hp
        have hass : (!(decide (l.hash C H tag = l'.hash C H tag) && decide (r.hash C H tag = r'.hash C H tag))) = true := by
          simp only [Bool.not_eq_true', Bool.and_eq_false_iff, decide_eq_false_iff_not]
          apply Decidable.byContradiction
          intro hcon
          simp only [not_or, not_not] at hcon
          apply hne
          simp only [hash, hcon.1, hcon.2]
        rw [pyAssert, hass]
        simp only [if_true, Except.bind_ok]
        obtain ⟨bl, e1, e2⟩ := hL l' hl' (.left .refl)
        obtain ⟨br, f1, f2⟩ := hR r' hr' (.right .refl)
        rw [e1, f1]
        simp only [Except.bind_ok]
        refine ⟨bl && br, by cases bl <;> rfl, ?_⟩
        rw [Bool.and_eq_true, e2, f2]
        constructor
        · rintro ⟨s1, s2⟩ kv hkv
          rcases List.mem_append.mp hkv with h | h
          · obtain ⟨v', a, b⟩ := s1 kv h; exact ⟨v', by simp [pairs, a], b⟩
          · obtain ⟨v', a, b⟩ := s2 kv h; exact ⟨v', by simp [pairs, a], b⟩
        · intro s
          constructor
          · intro kv hkv
            obtain ⟨v', a, b⟩ := s kv (by simp [pairs, hkv])
            rcases List.mem_append.mp a with a | a
            · exact ⟨v', a, b⟩
            · exact absurd (snoc_prefix_unique (h3 kv hkv) (h4' (kv.1, v') a)) (by decide)
          · intro kv hkv
            obtain ⟨v', a, b⟩ := s kv (by simp [pairs, hkv])
            rcases List.mem_append.mp a with a | a
            · exact absurd (snoc_prefix_unique (h4 kv hkv) (h3' (kv.1, v') a)) (by decide)
            · exact ⟨v', a, b⟩
      · rename_i hpne
        split
        · rename_i hpre
          have hpre : p' <+: p := by simpa using hpre
          have hlt : p'.length < p.length := by
            rcases Nat.lt_or_ge p'.length p.length with h | h
            · exact h
            · exact absurd (hpre.eq_of_length (Nat.le_antisymm hpre.length_le h)).symm hpne
          rw [pyAssert, decide_eq_true hlt]
          simp only [if_true, Except.bind_ok]
          obtain ⟨b, hb⟩ := prefix_snoc_cases hpre (fun h => hpne h.symm)
          rw [getElem?_of_snoc hb]
          have hkeys : ∀ kv ∈ (inner p l r).pairs, p' ++ [b] <+: C.key2prefix kv.1 :=
            fun kv h => hb.trans (ht.pfx_prefix kv h)
          cases b with
          | true =>
            obtain ⟨b, e1, e2⟩ := ih2 (fun x hx hs => hL x hx (.right hs)) (fun x hx hs => hR x hx (.right hs)) (fun x hs => hB x (.right hs))
            refine ⟨b, e1, e2.trans ⟨?_, ?_⟩⟩
            · intro s kv hkv; obtain ⟨v', a, b⟩ := s kv hkv; exact ⟨v', by simp [pairs, a], b⟩
            · intro s kv hkv
              obtain ⟨v', a, b⟩ := s kv hkv
              rcases List.mem_append.mp a with a | a
              · exact absurd (snoc_prefix_unique (hkeys kv hkv) (h3' (kv.1, v') a)) (by decide)
              · exact ⟨v', a, b⟩
          | false =>
            obtain ⟨b, e1, e2⟩ := ih1 (fun x hx hs => hL x hx (.left hs)) (fun x hx hs => hR x hx (.left hs)) (fun x hs => hB x (.left hs))
            refine ⟨b, e1, e2.trans ⟨?_, ?_⟩⟩
            · intro s kv hkv; obtain ⟨v', a, b⟩ := s kv hkv; exact ⟨v', by simp [pairs, a], b⟩
            · intro s kv hkv
              obtain ⟨v', a, b⟩ := s kv hkv
              rcases List.mem_append.mp a with a | a
              · exact ⟨v', a, b⟩
              · exact absurd (snoc_prefix_unique (hkeys kv hkv) (h4' (kv.1, v') a)) (by decide)
        · rename_i hnpre
          refine ⟨false, rfl, (by simp only [Bool.false_eq_true, false_iff]; exact id : ∀ {P : Prop}, ¬ P → (false = true ↔ P)) (fun hs => hnpre ?_)⟩
          rw [List.isPrefixOf_iff_prefix]
          refine ht.pfx_longest ?_
          intro kv hkv
          obtain ⟨v', a, _⟩ := hs kv hkv
          exact (WF.inner hl' hr' h3' h4').pfx_prefix (kv.1, v') a

theorem issubset_wf (hC : PrefixFreeKeys C) {H : HashFns} {tag : Bytes} {t : MB K V} (ht : WF C t) :
    ∀ u, WF C u → (∀ x y, MBSubtree x t → MBSubtree y u → x.hash C H tag = y.hash C H tag → Sub C x y) →
      (∀ y, MBSubtree y u → y.hash C H tag ≠ (empty : MB K V).hash C H tag) →
      Decides C t u (issubset C H tag t u) := by
  induction ht with
  | leaf k v =>
    intro u hu hB hE
    unfold issubset issubsetWith
    split
    · rename_i h; exact ⟨true, rfl, by simpa using hB _ _ .refl .refl h⟩
    · rw [if_neg (hE u .refl)]
      unfold subImpl
      by_cases hm : ∃ v', (k, v') ∈ u.pairs
      · obtain ⟨v', hv'⟩ := hm
        rw [(Tree.getItem hC (.inr hu) k).1 v' hv']
        refine ⟨_, rfl, ?_⟩
        constructor
        · intro h kv hkv
          simp only [pairs, List.mem_singleton] at hkv
          subst hkv
          exact ⟨v', hv', h⟩
        · intro hs
          obtain ⟨v'', a, b⟩ := hs (k, v) (by simp [pairs])
          rw [← nodup_unique (Tree.nodup (.inr hu)) a hv']
          exact b
      · rw [(Tree.getItem hC (.inr hu) k).2 (fun v' h => hm ⟨v', h⟩)]
        refine ⟨_, rfl, ?_⟩
        simp only [Bool.false_eq_true, false_iff]
        intro hs
        obtain ⟨v'', a, b⟩ := hs (k, v) (by simp [pairs])
        exact hm ⟨_, a⟩
  | @inner p l r hl hr h3 h4 ih1 ih2 =>
    intro u hu hB hE
    unfold issubset issubsetWith
    split
    · rename_i h; exact ⟨true, rfl, by simpa using hB _ _ .refl .refl h⟩
    · rw [if_neg (hE u .refl)]
      unfold subImpl
      refine issubset_inner hC (.inner hl hr h3 h4) _ _ u hu ?_ ?_ (fun x hx => hB _ x .refl hx)
      · intro x hx hs
        exact ih1 x hx (fun a b ha hb => hB a b (.left ha) (subtree_trans hb hs)) (fun y hy => hE y (subtree_trans hy hs))
      · intro x hx hs
        exact ih2 x hx (fun a b ha hb => hB a b (.right ha) (subtree_trans hb hs)) (fun y hy => hE y (subtree_trans hy hs))
where
  subtree_trans {a b c : MB K V} (h : MBSubtree a b) (h' : MBSubtree b c) : MBSubtree a c := by
    induction h' with
    | refl => exact h
    | left _ ih => exact .left ih
    | right _ ih => exact .right ih

end Verif.MB
