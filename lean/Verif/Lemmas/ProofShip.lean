import Verif.Lemmas.ProofRun
import Verif.Spec.ProofShip
/-! What can be seen of a proof after a computation suffices to repeat it. -/
namespace Verif
set_option linter.unusedSectionVars false
variable {T : Table} {H : HashFns}

/-- Following the path finds set attributes of objects that are not fully pruned. -/
def Sees (s : PState) : HVal → List Nat → HVal → Prop
  | v, [], v' => v' = v
  | .prim _, _ :: _, _ => False
  | .ref r, i :: π, v' => ∃ o w, s.objs[r]? = some o ∧ o.isFullyPruned = false ∧ o.fields[i]? = some (some w) ∧ Sees s w π v'

theorem Sees.ext {s s' : PState} (h : Ext s s') : ∀ {π : List Nat} {v v' : HVal}, Sees s v π v' → Sees s' v π v'
  | [], _, _, hs => by cases hs; simp [Sees]
  | i :: π, .prim _, _, hs => by simp [Sees] at hs
  | i :: π, .ref r, v', hs => by
    rw [Sees] at hs
    obtain ⟨o, w, ho, hf, hw, hs⟩ := hs
    obtain ⟨o', ho', _, _, _, hf', hw'⟩ := h.obj r o ho
    rw [Sees]
    exact ⟨o', w, ho', hf' hf, hw' i w hw, hs.ext h⟩

theorem walk_sees : ∀ (π : List Nat) (s : PState) (τ : List PTree) (v : HVal) (tv : TVal), Inv T H s τ → v.Is τ tv →
    HSpec T H ExtI (Prog.walk T v π) s τ (fun res s' τ' =>
      ∀ v', res = .ok v' → Sees s' v π v' ∧ ∃ tv', tv.walk T s.inited π = .ok tv' ∧ v'.Is τ' tv') := by
  intro π
  induction π with
  | nil =>
    intro s τ v tv hi his
    refine .noop .refl rfl hi fun v' h => ?_
    cases h
    exact ⟨by simp [Sees], tv, rfl, his⟩
  | cons i π ih =>
    intro s τ v tv hi his
    cases v with
    | prim w => exact .noop .refl rfl hi fun v' h => by cases h
    | ref r =>
      cases tv with
      | prim _ => exact his.elim
      | sub t =>
        have hr : τ[r]? = some t := his
        simp only [Prog.walk, TVal.walk]
        refine HSpec.bind .trans (getAttr_spec hi hr i) ?_ ?_
        · rintro w s1 τ1 hi1 hr1 _ ⟨herr, hok, _⟩
          cases hta : t.attr T s.inited i with
          | error e => exact absurd (herr e hta) (by simp)
          | ok tv1 =>
            obtain ⟨v1, hv1, his1, hfld, o', ho', hfp⟩ := hok tv1 hta
            cases hv1
            have := ih s1 τ1 w tv1 hi1 his1
            refine this.mono (fun _ h => h) ?_
            rintro res s2 τ2 hi2 hr2 hq v' rfl
            obtain ⟨h1, tv', h2, h3⟩ := hq v' rfl
            rw [hr1.2] at h2
            refine ⟨?_, tv', h2, h3⟩
            have : o'.fields[i]? = some (some w) := (PState.field_some ho').mp hfld
            obtain ⟨o2, ho2, _, _, _, hf2, hw2⟩ := hr2.1.obj r o' ho'
            rw [Sees]
            exact ⟨o2, w, ho2, hf2 hfp, hw2 i w this, h1⟩
        · rintro e s1 τ1 hi1 hr1 _ v' h; cases h

/-- What is disclosed of an attribute value. -/
def TVal.disc (T : Table) (H : HashFns) (s : PState) : TVal → HVal → TVal
  | .sub t, .ref r => .sub (t.disclosed T H s r)
  | tv, _ => tv

theorem PFields.disclosed_get (s : PState) (r : Nat) : ∀ (fs : PFields) (i j : Nat), (fs.disclosed T H s r j).get? i =
    (fs.get? i).map (fun | .prim v => .prim v | .sub t => .sub (t.discField T H s (s.field r (j + i))))
  | .nil, i, j => by simp [PFields.disclosed, PFields.get?]
  | .prim v fs, 0, j => by simp [PFields.disclosed, PFields.get?]
  | .prim v fs, i + 1, j => by
    rw [PFields.disclosed]
    simp only [PFields.get?]
    rw [PFields.disclosed_get s r fs i (j + 1), show j + 1 + i = j + (i + 1) by omega]
  | .sub t fs, 0, j => by rw [PFields.disclosed_sub]; simp [PFields.get?]
  | .sub t fs, i + 1, j => by
    rw [PFields.disclosed_sub]
    simp only [PFields.get?]
    rw [PFields.disclosed_get s r fs i (j + 1), show j + 1 + i = j + (i + 1) by omega]

theorem Sees.walk {s : PState} {τ : List PTree} (hi : Inv T H s τ) (ini ini' : List Nat) : ∀ {π : List Nat} {v v' : HVal} {tv tv' : TVal},
    Sees s v π v' → v.Is τ tv → tv.walk T ini' π = .ok tv' → (tv.disc T H s v).walk T ini π = .ok (tv'.disc T H s v')
  | [], v, v', tv, tv', hs, _, hw => by
    cases hs
    simp only [TVal.walk, Except.ok.injEq] at hw ⊢
    rw [hw]
  | i :: π, .prim _, _, _, _, hs, _, _ => by simp [Sees] at hs
  | i :: π, .ref r, v', .prim _, tv', hs, his, hw => his.elim
  | i :: π, .ref r, v', .sub t, tv', hs, his, hw => by
    rw [Sees] at hs
    obtain ⟨o, w, ho, hf, hfw, hs⟩ := hs
    have hr : τ[r]? = some t := his
    have hok := hi.obj r o t ho hr
    obtain ⟨fs, rfl⟩ := hok.nfp hf
    obtain ⟨tw, htw, hisw⟩ := hok.fmatch i w hfw
    rw [PTree.get?] at htw
    rw [TVal.walk, PTree.attr, PTree.get?, htw] at hw
    have ih := Sees.walk hi ini ini' hs hisw hw
    have hd : (PTree.node o.cls fs).disclosed T H s r = .node o.cls (fs.disclosed T H s r 0) := by
      rw [PTree.disclosed, if_neg]; simp [ho, hf]
    simp only [TVal.disc, hd]
    rw [TVal.walk, PTree.attr, PTree.get?, PFields.disclosed_get, htw]
    have hfi : s.field r (0 + i) = some w := by rw [Nat.zero_add]; exact (PState.field_some ho).mpr hfw
    rw [hfi]
    simp only [Option.map_some, Except.bind_ok]
    rw [TVal.disc.eq_def] at ih
    cases tw with
    | prim x =>
      cases w with
      | ref _ => exact hisw.elim
      | prim y => exact ih
    | sub t' =>
      cases w with
      | prim _ => exact hisw.elim
      | ref q => exact ih

/-! ### Hashes of what is disclosed -/

theorem PFields.Checked.get : ∀ {fs : PFields} {ks : List Kind} {i : Nat} {t : PTree}, fs.Checked T ks → fs.get? i = some (.sub t) → t.Checked T
  | .nil, _, _, _, _, h => by simp [PFields.get?] at h
  | .prim v fs, k :: ks, 0, _, _, h => by simp [PFields.get?] at h
  | .prim v fs, k :: ks, i + 1, _, hc, h => by
    rw [checked_cons_prim] at hc
    exact hc.2.get h
  | .sub t fs, k :: ks, 0, _, hc, h => by
    rw [checked_cons_sub] at hc
    simp only [PFields.get?, Option.some.injEq, TVal.sub.injEq] at h
    subst h; exact hc.2.1
  | .sub t fs, k :: ks, i + 1, _, hc, h => by
    rw [checked_cons_sub] at hc
    exact hc.2.2.get h
  | .prim _ _, [], _, _, hc, _ => by simp [PFields.Checked] at hc
  | .sub _ _, [], _, _, hc, _ => by simp [PFields.Checked] at hc

theorem PFields.KeepsSpecial.get : ∀ {fs : PFields} {i : Nat} {t : PTree}, fs.KeepsSpecial T → fs.get? i = some (.sub t) → t.KeepsSpecial T
  | .nil, _, _, _, h => by simp [PFields.get?] at h
  | .prim v fs, 0, _, _, h => by simp [PFields.get?] at h
  | .prim v fs, i + 1, _, hc, h => by
    rw [PFields.KeepsSpecial] at hc
    exact PFields.KeepsSpecial.get hc h
  | .sub t fs, 0, _, hc, h => by
    rw [PFields.KeepsSpecial] at hc
    simp only [PFields.get?, Option.some.injEq, TVal.sub.injEq] at h
    subst h; exact hc.1
  | .sub t fs, i + 1, _, hc, h => by
    rw [PFields.KeepsSpecial] at hc
    exact PFields.KeepsSpecial.get hc.2 h

/-- Sub-proofs at a path inherit. -/
theorem walk_inherit {ini : List Nat} : ∀ {π : List Nat} {t t' : PTree}, (TVal.sub t).walk T ini π = .ok (.sub t') → t.Checked T → t.KeepsSpecial T →
    t'.Checked T ∧ t'.KeepsSpecial T
  | [], t, t', h, hc, hk => by
    simp only [TVal.walk, Except.ok.injEq, TVal.sub.injEq] at h
    subst h; exact ⟨hc, hk⟩
  | i :: π, t, t', h, hc, hk => by
    rw [TVal.walk] at h
    obtain ⟨w, hw, _⟩ := Except.bind_eq_ok h
    have hw0 := hw
    unfold PTree.attr at hw
    split at hw
    · rename_i x hx
      cases hw
      rw [hw0, Except.bind_ok] at h
      cases w with
      | prim _ => cases π <;> simp [TVal.walk] at h
      | sub t1 =>
        cases t with
        | pruned _ _ => simp [PTree.get?] at hx
        | node c fs =>
          rw [PTree.get?] at hx
          rw [PTree.Checked] at hc
          rw [PTree.KeepsSpecial] at hk
          exact walk_inherit h (hc.get hx) (hk.get hx)
    · cases hw

theorem PTree.stub_hash {t : PTree} (hc : (t.stub T H).Checked T) (hk : (t.stub T H).KeepsSpecial T) :
    (t.stub T H).hash T H = t.hash T H ∧ (t.stub T H).dataHash T H = t.dataHash T H := by
  unfold PTree.stub at hc hk ⊢
  cases hd : t.dataHash T H with
  | error e => rw [hd, PTree.Checked] at hc; simp at hc
  | ok d =>
    simp only [PTree.hash, PTree.dataHash, and_true]
    cases t with
    | pruned c d' =>
      simp only [PTree.dataHash, Except.ok.injEq] at hd
      subst hd
      rw [PTree.hash]; rfl
    | node c fs =>
      rw [PTree.KeepsSpecial] at hk
      have := hk.2
      simp only [PTree.cls] at this
      rw [PTree.dataHash] at hd
      obtain ⟨b, hb, hd⟩ := Except.bind_eq_ok hd
      cases hd
      rw [PTree.hash, if_neg (by simp [this]), hb]
      rfl

theorem PFields.hashBytes_sub (t : PTree) (fs : PFields) (k : Kind) (ks : List Kind) :
    (PFields.sub t fs).hashBytes T H (k :: ks) = (do
      let a ← (TVal.sub t).hashAs T H k
      let b ← fs.hashBytes T H ks
      return a ++ b) := by
  cases k <;> simp only [PFields.hashBytes, TVal.hashAs]
theorem PFields.hashBytes_prim (v : PVal) (fs : PFields) (k : Kind) (ks : List Kind) :
    (PFields.prim v fs).hashBytes T H (k :: ks) = (do
      let a ← (TVal.prim v).hashAs T H k
      let b ← fs.hashBytes T H ks
      return a ++ b) := by
  cases k <;> simp only [PFields.hashBytes, TVal.hashAs]

mutual
theorem PTree.disclosed_hash (s : PState) : ∀ (t : PTree) (r : Nat), (t.disclosed T H s r).Checked T → (t.disclosed T H s r).KeepsSpecial T →
    (t.disclosed T H s r).hash T H = t.hash T H ∧ (t.disclosed T H s r).dataHash T H = t.dataHash T H
  | .pruned c d, r, _, _ => by rw [PTree.disclosed]; exact ⟨rfl, rfl⟩
  | .node c fs, r, hc, hk => by
    rw [PTree.disclosed] at hc hk ⊢
    split at hc
    · rename_i hf
      rw [if_pos hf] at hk ⊢
      exact PTree.stub_hash hc hk
    · rename_i hf
      rw [if_neg hf] at hk ⊢
      rw [PTree.Checked] at hc
      rw [PTree.KeepsSpecial] at hk
      have := PFields.disclosed_hash s fs r 0 (T c).attrs hc hk
      have hg := PFields.disclosed_get (T := T) (H := H) s r fs 0 0
      refine ⟨?_, ?_⟩
      · rw [PTree.hash, PTree.hash, this, hg]
        split
        · rcases fs.get? 0 with _ | (_ | _) <;> rfl
        · rfl
      · rw [PTree.dataHash, PTree.dataHash, this]
theorem PFields.disclosed_hash (s : PState) : ∀ (fs : PFields) (r i : Nat) (ks : List Kind), (fs.disclosed T H s r i).Checked T ks → (fs.disclosed T H s r i).KeepsSpecial T →
    (fs.disclosed T H s r i).hashBytes T H ks = fs.hashBytes T H ks
  | .nil, r, i, ks, _, _ => by rw [PFields.disclosed]
  | .prim v fs, r, i, [], hc, hk => by rw [PFields.disclosed, PFields.hashBytes, PFields.hashBytes]
  | .sub t fs, r, i, [], hc, hk => by rw [PFields.disclosed_sub, PFields.hashBytes, PFields.hashBytes]
  | .prim v fs, r, i, k :: ks, hc, hk => by
    rw [PFields.disclosed] at hc hk ⊢
    rw [checked_cons_prim] at hc
    rw [PFields.KeepsSpecial] at hk
    rw [PFields.hashBytes_prim, PFields.hashBytes_prim, PFields.disclosed_hash s fs r (i + 1) ks hc.2 hk]
  | .sub t fs, r, i, k :: ks, hc, hk => by
    rw [PFields.disclosed_sub] at hc hk ⊢
    rw [checked_cons_sub] at hc
    rw [PFields.KeepsSpecial] at hk
    rw [PFields.hashBytes_sub, PFields.hashBytes_sub, PFields.disclosed_hash s fs r (i + 1) ks hc.2.2 hk.2]
    have : (t.discField T H s (s.field r i)).hash T H = t.hash T H := by
      have h1 := hc.2.1
      have h2 := hk.1
      generalize s.field r i = f at h1 h2 ⊢
      rcases f with _ | (_ | q)
      · exact (PTree.stub_hash h1 h2).1
      · exact (PTree.stub_hash h1 h2).1
      · exact (PTree.disclosed_hash s t q h1 h2).1
    cases k <;> simp [TVal.hashAs, this]
end

/-! ### The computation on what is disclosed -/

theorem run_ship (hT : T.WF) {α} : ∀ (p : Prog α) (s : PState) (τ : List PTree) (r : Nat) (t : PTree), Inv T H s τ → τ[r]? = some t →
    HSpec T H ExtI (p.run T H r) s τ (fun res s' τ' => ∀ a, res = .ok a → ∀ sf τf x, τf = τ' ++ x → Inv T H sf τf → Ext s' sf →
      (t.disclosed T H sf r).Checked T → (t.disclosed T H sf r).KeepsSpecial T → ∀ ini, p.eval T H ini (t.disclosed T H sf r) = .ok a) := by
  intro p
  have step : ∀ (s : PState) (τ : List PTree) (r : Nat) (t : PTree) (π : List Nat) (f : HVal → HM (Py α))
      (g : List Nat → TVal → PTree → Py (Py α)), Inv T H s τ → τ[r]? = some t →
      (∀ (s1 : PState) (τ1 : List PTree) (v : HVal) (tv : TVal), Inv T H s1 τ1 → τ1[r]? = some t → v.Is τ1 tv →
        HSpec T H ExtI (f v) s1 τ1 (fun res s' τ' => ∀ a, res = .ok a → ∀ sf τf x, τf = τ' ++ x → Inv T H sf τf → Ext s' sf →
          (t.disclosed T H sf r).Checked T → (t.disclosed T H sf r).KeepsSpecial T →
          (∀ t' , tv.disc T H sf v = .sub t' → t'.Checked T ∧ t'.KeepsSpecial T) →
          ∀ ini, g ini (tv.disc T H sf v) (t.disclosed T H sf r) = .ok a)) →
      HSpec T H ExtI (Prog.walk T (.ref r) π >>= f) s τ (fun res s' τ' => ∀ a, res = .ok a → ∀ sf τf x, τf = τ' ++ x → Inv T H sf τf → Ext s' sf →
        (t.disclosed T H sf r).Checked T → (t.disclosed T H sf r).KeepsSpecial T → ∀ ini, (do
          let v ← (TVal.sub (t.disclosed T H sf r)).walk T ini π
          g ini v (t.disclosed T H sf r)) = .ok a) := by
    intro s τ r t π f g hi ht hf
    refine HSpec.bind .trans (walk_sees π s τ (.ref r) (.sub t) hi ht) ?_ ?_
    · rintro v s1 τ1 hi1 hr1 ⟨x1, rfl⟩ hq
      obtain ⟨hs, tv, hw, his⟩ := hq v rfl
      obtain ⟨τ2, hi2, hr2, hq2⟩ := hf s1 (τ ++ x1) v tv hi1 (append_get ht) his
      refine ⟨τ2, hi2, hr2, ?_⟩
      intro a ha sf τf x hx hif hext hc hk ini
      have hs' := (hs.ext hr2.1).ext hext
      have hisr : (HVal.ref r).Is τf (.sub t) := by
        rw [hx]; exact append_get (append_get (append_get ht))
      have hwk := fun ini => hs'.walk hif ini s.inited hisr hw
      rw [show (TVal.sub t).disc T H sf (.ref r) = .sub (t.disclosed T H sf r) from rfl] at hwk
      rw [hwk ini, Except.bind_ok]
      exact hq2 a ha sf τf x hx hif hext hc hk (fun t' ht' => walk_inherit (ini := ini) (by rw [hwk ini, ht']) hc hk) ini
    · rintro e s1 τ1 hi1 hr1 _ a h; cases h
  induction p with
  | ret a =>
    intro s τ r t hi ht
    refine .noop .refl rfl hi ?_
    intro a' ha'
    cases ha'
    intros; rfl
  | read π k ih =>
    intro s τ r t hi ht
    refine step s τ r t π _ (fun ini v t => (k (match v with | .prim w => some w | .sub _ => none)).eval T H ini t) hi ht ?_
    intro s1 τ1 v tv hi1 ht1 his
    cases v with
    | prim w =>
      cases tv with
      | sub _ => exact his.elim
      | prim w' =>
        have : w = w' := his
        subst this
        refine (ih (some w) s1 τ1 r t hi1 ht1).mono (fun _ h => h) ?_
        intro res s' τ' _ _ hq a ha sf τf x hx hif hext hc hk _ ini
        exact hq a ha sf τf x hx hif hext hc hk ini
    | ref q =>
      cases tv with
      | prim _ => exact his.elim
      | sub t' =>
        refine (ih none s1 τ1 r t hi1 ht1).mono (fun _ h => h) ?_
        intro res s' τ' _ _ hq a ha sf τf x hx hif hext hc hk _ ini
        exact hq a ha sf τf x hx hif hext hc hk ini
  | cls π k ih =>
    intro s τ r t hi ht
    refine step s τ r t π _ (fun ini v t => do
      let q ← v.asProof
      (k q.cls).eval T H ini t) hi ht ?_
    intro s1 τ1 v tv hi1 ht1 his
    cases v with
    | prim w => exact .noop .refl rfl hi1 fun a h => by cases h
    | ref q =>
      cases tv with
      | prim _ => exact his.elim
      | sub t' =>
        obtain ⟨o, ho, hok'⟩ := hi1.some_obj (show τ1[q]? = some t' from his)
        refine HSpec.congr (y := (k o.cls).run T H r) ?_ ?_
        · show (HM.obj q >>= fun o => (k o.cls).run T H r) s1 = _
          rw [HM.bind_obj ho]
        · refine (ih o.cls s1 τ1 r t hi1 ht1).mono (fun _ h => h) ?_
          intro res s' τ' _ _ hq a ha sf τf x hx hif hext hc hk _ ini
          simp only [TVal.disc, TVal.asProof, Except.bind_ok, PTree.disclosed_cls]
          rw [hok'.cls]
          exact hq a ha sf τf x hx hif hext hc hk ini
  | hash π k ih =>
    intro s τ r t hi ht
    refine step s τ r t π _ (fun ini v t => do
      let q ← v.asProof
      let h ← q.hash T H
      (k h).eval T H ini t) hi ht ?_
    intro s1 τ1 v tv hi1 ht1 his
    cases v with
    | prim w => exact .noop .refl rfl hi1 fun a h => by cases h
    | ref q =>
      cases tv with
      | prim _ => exact his.elim
      | sub t' =>
        refine HSpec.congr (y := do let h ← Prf.hash T H q; (k h).run T H r) rfl ?_
        refine HSpec.bind .trans ((hash_spec hT hi1 (show τ1[q]? = some t' from his)).mono (fun _ h => h.toExtI) (fun _ _ _ _ _ h => h)) ?_ ?_
        · rintro h s2 τ2 hi2 hr2 ⟨y, rfl⟩ hh
          refine (ih h s2 _ r t hi2 (append_get ht1)).mono (fun _ h => h) ?_
          intro res s' τ' _ _ hq a ha sf τf x hx hif hext hc hk hsub ini
          have := hsub _ rfl
          simp only [TVal.disc, TVal.asProof, Except.bind_ok]
          rw [(PTree.disclosed_hash sf t' q this.1 this.2).1, ← hh, Except.bind_ok]
          exact hq a ha sf τf x hx hif hext hc hk ini
        · rintro e s2 τ2 hi2 hr2 hh a h; cases h
  | dataHash π k ih =>
    intro s τ r t hi ht
    refine step s τ r t π _ (fun ini v t => do
      let q ← v.asProof
      let h ← q.dataHash T H
      (k h).eval T H ini t) hi ht ?_
    intro s1 τ1 v tv hi1 ht1 his
    cases v with
    | prim w => exact .noop .refl rfl hi1 fun a h => by cases h
    | ref q =>
      cases tv with
      | prim _ => exact his.elim
      | sub t' =>
        refine HSpec.congr (y := do let h ← Prf.dataHash T H q; (k h).run T H r) rfl ?_
        refine HSpec.bind .trans ((dataHash_spec hT hi1 (show τ1[q]? = some t' from his)).mono (fun _ h => h.toExtI) (fun _ _ _ _ _ h => h)) ?_ ?_
        · rintro h s2 τ2 hi2 hr2 ⟨y, rfl⟩ hh
          refine (ih h s2 _ r t hi2 (append_get ht1)).mono (fun _ h => h) ?_
          intro res s' τ' _ _ hq a ha sf τf x hx hif hext hc hk hsub ini
          have := hsub _ rfl
          simp only [TVal.disc, TVal.asProof, Except.bind_ok]
          rw [(PTree.disclosed_hash sf t' q this.1 this.2).2, ← hh, Except.bind_ok]
          exact hq a ha sf τf x hx hif hext hc hk ini
        · rintro e s2 τ2 hi2 hr2 hh a h; cases h

/-! ### What is disclosed of a well typed proof is well typed -/

theorem PTree.stub_typed {t : PTree} {c : Nat} (h : t.WellTyped T c) (hd : ∃ d, t.dataHash T H = .ok d) (hk : (t.stub T H).KeepsSpecial T) :
    (t.stub T H).WellTyped T c := by
  obtain ⟨d, hd⟩ := hd
  unfold PTree.stub at hk ⊢
  rw [hd, PTree.KeepsSpecial] at hk
  rw [hd, PTree.WellTyped]
  cases t with
  | pruned c' d' =>
    rw [PTree.WellTyped] at h
    rw [PTree.dataHash] at hd
    cases hd
    exact h
  | node c' fs =>
    rw [PTree.WellTyped] at h
    rw [PTree.dataHash] at hd
    obtain ⟨b, _, hd⟩ := Except.bind_eq_ok hd
    cases hd
    refine ⟨?_, H.sha256_len _⟩
    have h1 := h.1
    cases hv : (T c).variants with
    | none => rw [hv] at h1; exact h1
    | some us =>
      rw [hv] at h1
      obtain ⟨i, _, h2, _⟩ := h1
      have := hk.1
      simp only [PTree.cls] at this
      rw [this] at h2; cases h2

mutual
theorem PTree.disclosed_typed (s : PState) : ∀ (t : PTree) (r c : Nat) (b : Bytes), t.WellTyped T c → t.encAt T H s r = .ok b →
    (t.disclosed T H s r).KeepsSpecial T → (t.disclosed T H s r).WellTyped T c
  | .pruned c' d, r, c, b, h, _, _ => by rw [PTree.disclosed]; exact h
  | .node c' fs, r, c, b, h, he, hk => by
    rw [PTree.encAt] at he
    rw [PTree.disclosed] at hk ⊢
    split at he
    · rename_i hf
      rw [if_pos hf] at hk ⊢
      obtain ⟨d, hd, _⟩ := Except.bind_eq_ok he
      exact PTree.stub_typed h ⟨d, hd⟩ hk
    · rename_i hf
      rw [if_neg hf] at hk ⊢
      obtain ⟨v, hv, he⟩ := Except.bind_eq_ok he
      obtain ⟨x, hx, he⟩ := Except.bind_eq_ok he
      rw [PTree.WellTyped] at h ⊢
      rw [PTree.KeepsSpecial] at hk
      exact ⟨h.1, PFields.disclosed_typed s fs r 0 _ x h.2 hx hk⟩
theorem PFields.disclosed_typed (s : PState) : ∀ (fs : PFields) (r i : Nat) (ks : List Kind) (b : Bytes), fs.WellTyped T ks → fs.encAt T H s r i ks = .ok b →
    (fs.disclosed T H s r i).KeepsSpecial T → (fs.disclosed T H s r i).WellTyped T ks
  | .nil, r, i, ks, b, h, _, _ => by rw [PFields.disclosed]; exact h
  | .prim v fs, r, i, .prim τ :: ks, b, h, he, hk => by
    rw [PFields.encAt_prim] at he
    rw [PFields.disclosed] at hk ⊢
    rw [PFields.KeepsSpecial] at hk
    rw [PFields.WellTyped] at h ⊢
    obtain ⟨a, ha, he⟩ := Except.bind_eq_ok he
    obtain ⟨x, hx, he⟩ := Except.bind_eq_ok he
    exact ⟨h.1, PFields.disclosed_typed s fs r (i + 1) ks x h.2 hx hk⟩
  | .sub t fs, r, i, .proof c :: ks, b, h, he, hk => by
    rw [PFields.encAt_sub] at he
    rw [PFields.disclosed_sub] at hk ⊢
    rw [PFields.KeepsSpecial] at hk
    rw [PFields.WellTyped] at h ⊢
    obtain ⟨a, ha, he⟩ := Except.bind_eq_ok he
    obtain ⟨x, hx, he⟩ := Except.bind_eq_ok he
    refine ⟨⟨?_, ?_⟩, PFields.disclosed_typed s fs r (i + 1) ks x h.2 hx hk.2⟩
    · have ha : t.encField T H s (s.field r i) = .ok a := ha
      have h2 := hk.1
      generalize s.field r i = f at ha h2
      rcases f with _ | (_ | q)
      · obtain ⟨d, hd, _⟩ := Except.bind_eq_ok ha
        exact PTree.stub_typed h.1.1 ⟨d, hd⟩ h2
      · obtain ⟨d, hd, _⟩ := Except.bind_eq_ok ha
        exact PTree.stub_typed h.1.1 ⟨d, hd⟩ h2
      · exact PTree.disclosed_typed s t q c a h.1.1 ha h2
    · have kcls : (t.discField T H s (s.field r i)).cls = t.cls := by
        unfold PTree.discField
        split
        · exact PTree.disclosed_cls ..
        · rfl
      rw [kcls]; exact h.1.2
  | .sub t fs, r, i, .union us :: ks, b, h, he, hk => by
    rw [PFields.encAt_sub] at he
    rw [PFields.disclosed_sub] at hk ⊢
    rw [PFields.KeepsSpecial] at hk
    rw [PFields.WellTyped] at h ⊢
    obtain ⟨a, ha, he⟩ := Except.bind_eq_ok he
    obtain ⟨x, hx, he⟩ := Except.bind_eq_ok he
    refine ⟨?_, PFields.disclosed_typed s fs r (i + 1) ks x h.2 hx hk.2⟩
    obtain ⟨⟨j, u, hu, hidx, htw⟩, _⟩ := h
    have kcls : (t.discField T H s (s.field r i)).cls = t.cls := by
      unfold PTree.discField
      split
      · exact PTree.disclosed_cls ..
      · rfl
    refine ⟨j, u, hu, by rw [kcls]; exact hidx, ?_⟩
    simp only [TVal.encAs] at ha
    obtain ⟨j', _, ha⟩ := Except.bind_eq_ok ha
    obtain ⟨y, hy, ha⟩ := Except.bind_eq_ok ha
    have h2 := hk.1
    generalize s.field r i = f at hy h2
    rcases f with _ | (_ | q)
    · obtain ⟨d, hd, _⟩ := Except.bind_eq_ok hy
      exact PTree.stub_typed htw ⟨d, hd⟩ h2
    · obtain ⟨d, hd, _⟩ := Except.bind_eq_ok hy
      exact PTree.stub_typed htw ⟨d, hd⟩ h2
    · exact PTree.disclosed_typed s t q u y htw hy h2
  | .prim _ _, _, _, [], _, h, _, _ => by simp [PFields.WellTyped] at h
  | .sub _ _, _, _, [], _, h, _, _ => by simp [PFields.WellTyped] at h
  | .prim _ _, _, _, .proof _ :: _, _, h, _, _ => by simp [PFields.WellTyped] at h
  | .prim _ _, _, _, .union _ :: _, _, h, _, _ => by simp [PFields.WellTyped] at h
  | .sub _ _, _, _, .prim _ :: _, _, h, _, _ => by simp [PFields.WellTyped] at h
end

end Verif
