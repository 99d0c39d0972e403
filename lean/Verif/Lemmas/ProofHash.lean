import Verif.Lemmas.Proof
/-! Hashes computed on the heap are the hashes of the trees. -/
namespace Verif
set_option linter.unusedSectionVars false
variable {T : Table} {H : HashFns}

theorem getAttr_spec {s : PState} {τ : List PTree} (hi : Inv T H s τ) {r : Nat} {t : PTree} (ht : τ[r]? = some t) (i : Nat) :
    HSpec T H ExtI (Prf.getAttr T r i) s τ (fun res s' τ' =>
      (∀ e, t.attr T s.inited i = .error e → res = .error e) ∧
      (∀ tv, t.attr T s.inited i = .ok tv → ∃ v, res = .ok v ∧ v.Is τ' tv ∧ s'.field r i = some v ∧
        ∃ o', s'.objs[r]? = some o' ∧ o'.isFullyPruned = false) ∧
      (∀ o, s.objs[r]? = some o → o.isFullyPruned = false → SerExt s s')) := by
  have hlt := get_lt ht
  rw [hi.len] at hlt
  exact HSpec.congr (y := Prf.getAttrF T (s.objs.length + 1) r i) rfl
    ((getAttrF_spec _ s τ r t i hi ht (by omega)).mono (fun _ h => h) (fun _ _ _ _ _ h => ⟨h.1, h.2.1, h.2.2.2⟩))

theorem HSpec.strengthen {α} {R R' : PState → PState → Prop} {x : HM α} {s : PState} {τ : List PTree}
    {Q : Py α → PState → List PTree → Prop} (h : HSpec T H R x s τ Q) (hR : ∀ res s' τ', R s s' → Q res s' τ' → R' s s') : HSpec T H R' x s τ Q := by
  obtain ⟨τ1, hi, hr, hq⟩ := h
  exact ⟨τ1, hi, hR _ _ _ hr hq, hq⟩

/-- Reading an attribute that is there from an object that is not fully pruned. -/
theorem getAttr_node {s : PState} {τ : List PTree} (hi : Inv T H s τ) {r : Nat} {t : PTree} (ht : τ[r]? = some t) {i : Nat}
    {o : Obj} (ho : s.objs[r]? = some o) (hf : o.isFullyPruned = false) {tv : TVal} (hg : t.get? i = some tv) :
    HSpec T H SerExtI (Prf.getAttr T r i) s τ (fun res s' τ' => ∃ v, res = .ok v ∧ v.Is τ' tv ∧ s'.field r i = some v) := by
  have h := (getAttr_spec hi ht i).strengthen (R' := SerExtI) (fun _ s' _ hr hq => ⟨hq.2.2 o ho hf, hr.2⟩)
  refine h.mono (fun _ h => h) (fun _ _ _ _ _ h => ?_)
  obtain ⟨v, h1, h2, h3, _⟩ := h.2.1 tv (by simp [PTree.attr, hg])
  exact ⟨v, h1, h2, h3⟩

theorem append_get {τ τ' : List PTree} {r : Nat} {t : PTree} (h : τ[r]? = some t) : (τ ++ τ')[r]? = some t := by
  rw [List.getElem?_append_left (get_lt h)]; exact h

theorem lift_spec {α} {s : PState} {τ : List PTree} (hi : Inv T H s τ) (x : Py α) :
    HSpec T H SerExtI (HM.lift x) s τ (fun res s' τ' => res = x ∧ s' = s ∧ τ' = τ) := .noop .refl rfl hi ⟨rfl, rfl, rfl⟩

/-- What an attribute contributes to the data hash. -/
def TVal.hashAs (T : Table) (H : HashFns) (tv : TVal) (k : Kind) : Py Bytes :=
  match k, tv with
  | .prim τ, .prim v => τ.ser v
  | .prim τ, .sub _ => τ.ser .other
  | _, .sub t => t.hash T H
  | _, .prim _ => .error .attributeError

theorem hashLoop_spec {hf : Nat → HM Bytes} {r : Nat} {t : PTree}
    (hhf : ∀ (s : PState) (τ : List PTree) (c : Nat) (t' : PTree), Inv T H s τ → c < r → τ[c]? = some t' →
      HSpec T H SerExtI (hf c) s τ (fun res _ _ => res = t'.hash T H)) :
    ∀ (ks : List Kind) (fs : PFields) (i : Nat) (s : PState) (τ : List PTree), Inv T H s τ → τ[r]? = some t →
      (∃ o, s.objs[r]? = some o ∧ o.isFullyPruned = false ∧ o.orig = none) →
      (∀ j, fs.get? j = t.get? (i + j)) → fs.length = ks.length →
      HSpec T H SerExtI (Prf.hashLoop T hf r i ks) s τ (fun res _ _ => res = fs.hashBytes T H ks) := by
  intro ks
  induction ks with
  | nil =>
    intro fs i s τ hi _ _ _ _
    refine .noop .refl rfl hi ?_
    cases fs <;> simp [PFields.hashBytes]
  | cons k ks ih =>
    intro fs i s τ hi ht ⟨o, ho, hfp, horig⟩ hget hlen
    have h0 := hget 0
    -- the attribute
    have hattr : ∃ (tv : TVal) (fs' : PFields), fs.get? 0 = some tv ∧ fs'.length = ks.length ∧ (∀ j, fs'.get? j = t.get? (i + 1 + j)) ∧
        fs.hashBytes T H (k :: ks) = (do
          let a ← tv.hashAs T H k
          let b ← fs'.hashBytes T H ks
          return a ++ b) := by
      cases fs with
      | nil => simp [PFields.length] at hlen
      | prim v fs =>
        refine ⟨.prim v, fs, rfl, by simpa [PFields.length] using hlen, fun j => ?_, ?_⟩
        · have := hget (j + 1)
          simp only [PFields.get?] at this
          rw [this]; congr 1; omega
        · cases k <;> simp [PFields.hashBytes, TVal.hashAs]
      | sub t' fs =>
        refine ⟨.sub t', fs, rfl, by simpa [PFields.length] using hlen, fun j => ?_, ?_⟩
        · have := hget (j + 1)
          simp only [PFields.get?] at this
          rw [this]; congr 1; omega
        · cases k <;> simp [PFields.hashBytes, TVal.hashAs]
    obtain ⟨tv, fs', hfs0, hlen', hget', heq⟩ := hattr
    rw [hfs0] at h0
    rw [heq]
    rw [Prf.hashLoop]
    refine HSpec.bind .trans (getAttr_node hi ht ho hfp h0.symm) ?_ ?_
    · rintro v s1 τ1 hi1 hr1 ⟨τx, rfl⟩ ⟨v', hv', his, hfld⟩
      cases hv'
      obtain ⟨o1, ho1, hc1, horig1, _, hfp1, _⟩ := hr1.1.obj r o ho
      have ht1 := append_get (τ' := τx) ht
      have hlt : ∀ c, v = .ref c → c < r := by
        have hok := hi1.obj r o1 t ho1 ht1
        rcases hok.base (horig1.trans horig) with ⟨_, _, _, hall, _⟩ | ⟨_, _, hx, _⟩
        · simp only [PState.field, ho1, Option.bind_some] at hfld
          have hfi : o1.fields[i]? = some (some v) := by
            cases hx : o1.fields[i]? with
            | none => rw [hx] at hfld; simp at hfld
            | some y => rw [hx] at hfld; simp at hfld; rw [hfld]
          obtain ⟨w, hw, hwc⟩ := hall i (get_lt hfi)
          rw [hfi] at hw; cases hw
          exact hwc
        · rw [hfp1 hfp] at hx; cases hx
      have hA : HSpec T H SerExtI (Prf.attrHash hf k v) s1 (τ ++ τx) (fun res _ _ => res = tv.hashAs T H k) := by
        cases v with
        | prim w =>
          cases tv with
          | sub _ => exact his.elim
          | prim w' =>
            have hw : w = w' := his
            subst hw
            cases k <;> exact .noop .refl rfl hi1 rfl
        | ref c =>
          cases tv with
          | prim _ => exact his.elim
          | sub t' =>
            have hc : (τ ++ τx)[c]? = some t' := his
            cases k with
            | prim τ' => exact .noop .refl rfl hi1 rfl
            | proof d => exact hhf s1 _ c t' hi1 (hlt c rfl) hc
            | union us => exact hhf s1 _ c t' hi1 (hlt c rfl) hc
      refine HSpec.bind .trans hA ?_ ?_
      · rintro a s2 τ2 hi2 hr2 ⟨τy, rfl⟩ ha
        rw [← ha, Except.bind_ok]
        obtain ⟨o2, ho2, hc2, horig2, _, hfp2, _⟩ := hr2.1.obj r o1 ho1
        refine HSpec.bind .trans (ih fs' (i + 1) s2 _ hi2 (append_get ht1)
          ⟨o2, ho2, hfp2 (hfp1 hfp), horig2.trans (horig1.trans horig)⟩ hget' hlen') ?_ ?_
        · rintro b s3 τ3 hi3 hr3 _ hb
          refine .noop .refl rfl hi3 ?_
          rw [← hb]; rfl
        · rintro e s3 τ3 hi3 hr3 hb
          rw [← hb]; rfl
      · rintro e s2 τ2 hi2 hr2 he
        rw [← he]; rfl
    · rintro e s1 τ1 hi1 hr1 ⟨v, hv, _⟩
      cases hv

/-- Filling the caches. -/
theorem cacheData_spec {s : PState} {τ : List PTree} (hi : Inv T H s τ) {r : Nat} {t : PTree} (ht : τ[r]? = some t) {d : Bytes}
    (hd : t.dataHash T H = .ok d) :
    HSpec T H SerExtI (do HM.upd r (fun o => { o with dataHash := some d }); return d) s τ (fun res _ _ => res = .ok d) := by
  obtain ⟨o, ho, hok⟩ := hi.some_obj ht
  refine ⟨[], ?_, ⟨SerExt.cache ho rfl rfl rfl rfl rfl, rfl⟩, rfl⟩
  rw [List.append_nil]
  refine hi.modify ho ht id ?_
  have hv : ∀ q, o.orig = some q → q ≠ r := fun q hq => by have := (hok.view q hq).1; omega
  exact { hok with
    base := fun hb => by
      rcases hok.base hb with h | ⟨d', h1, h2, h3, h4⟩
      · exact .inl h
      · refine .inr ⟨d', h1, h2, h3, ?_⟩
        have := hok.dh d' h4
        rw [hd] at this; cases this; rfl
    view := fun q hq => by
      obtain ⟨h1, h2, h3, h4⟩ := hok.view q hq
      refine ⟨h1, h2, h3, fun hf oq hoq => h4 hf oq ?_⟩
      simp only at hoq
      rw [modify_get_ne (hv q hq)] at hoq; exact hoq
    dh := fun d' hd' => by simp only [Option.some.injEq] at hd'; rw [← hd']; exact hd
    hh := hok.hh
    nfp := hok.nfp
    fmatch := hok.fmatch }

theorem cacheHash_spec {s : PState} {τ : List PTree} (hi : Inv T H s τ) {r : Nat} {t : PTree} (ht : τ[r]? = some t) {d : Bytes}
    (hd : t.hash T H = .ok d) :
    HSpec T H SerExtI (do HM.upd r (fun o => { o with hash := some d }); return d) s τ (fun res _ _ => res = .ok d) := by
  obtain ⟨o, ho, hok⟩ := hi.some_obj ht
  refine ⟨[], ?_, ⟨SerExt.cache ho rfl rfl rfl rfl rfl, rfl⟩, rfl⟩
  rw [List.append_nil]
  refine hi.modify ho ht id ?_
  have hv : ∀ q, o.orig = some q → q ≠ r := fun q hq => by have := (hok.view q hq).1; omega
  exact { hok with
    base := hok.base
    view := fun q hq => by
      obtain ⟨h1, h2, h3, h4⟩ := hok.view q hq
      refine ⟨h1, h2, h3, fun hf oq hoq => h4 hf oq ?_⟩
      simp only at hoq
      rw [modify_get_ne (hv q hq)] at hoq; exact hoq
    hh := fun d' hd' => by simp only [Option.some.injEq] at hd'; rw [← hd']; exact hd
    dh := hok.dh
    nfp := hok.nfp
    fmatch := hok.fmatch }

theorem hashF_spec (hT : T.WF) : ∀ n : Nat,
    (∀ (s : PState) (τ : List PTree) (r : Nat) (t : PTree), Inv T H s τ → τ[r]? = some t → 2 * r + 1 ≤ n →
      HSpec T H SerExtI (Prf.dataHashF T H n r) s τ (fun res _ _ => res = t.dataHash T H)) ∧
    (∀ (s : PState) (τ : List PTree) (r : Nat) (t : PTree), Inv T H s τ → τ[r]? = some t → 2 * r + 2 ≤ n →
      HSpec T H SerExtI (Prf.hashF T H n r) s τ (fun res _ _ => res = t.hash T H)) := by
  intro n
  induction n with
  | zero => exact ⟨fun _ _ _ _ _ _ h => by omega, fun _ _ _ _ _ _ h => by omega⟩
  | succ n ih =>
    obtain ⟨ihd, ihh⟩ := ih
    constructor
    · intro s τ r t hi ht hn
      obtain ⟨o, ho, hok⟩ := hi.some_obj ht
      rw [Prf.dataHashF]
      refine HSpec.congr (HM.bind_obj ho _) ?_
      cases hc : o.dataHash with
      | some d => exact .noop .refl rfl hi (hok.dh d hc).symm
      | none =>
        simp only
        have hA : HSpec T H SerExtI (match o.orig with
            | some q => Prf.dataHashF T H n q
            | none => do
              let b ← Prf.hashLoop T (Prf.hashF T H n) r 0 (T o.cls).attrs
              return H.sha256 b) s τ (fun res _ _ => res = t.dataHash T H) := by
          cases horig : o.orig with
          | some q =>
            obtain ⟨hqr, hq, _⟩ := hok.view q horig
            exact ihd s τ q t hi hq (by omega)
          | none =>
            simp only
            rcases hok.base horig with ⟨fs, hfs, hfp, _⟩ | ⟨d, _, _, _, hd⟩
            · subst hfs
              have hck := hi.chk _ (List.mem_of_getElem? ht)
              simp only [PTree.Checked] at hck
              refine HSpec.bind .trans (hashLoop_spec (t := .node o.cls fs) (fun s τ c t' hi hc hct => ihh s τ c t' hi hct (by omega)) _ fs 0 s τ hi ht
                ⟨o, ho, hfp, horig⟩ (fun j => by simp [PTree.get?]) hck.length) ?_ ?_
              · rintro b s1 τ1 hi1 _ _ hb
                refine .noop .refl rfl hi1 ?_
                rw [PTree.dataHash, ← hb]; rfl
              · rintro e s1 τ1 hi1 _ hb
                rw [PTree.dataHash, ← hb]; rfl
            · rw [hc] at hd; cases hd
        refine HSpec.bind .trans hA ?_ ?_
        · rintro d s1 τ1 hi1 hr1 ⟨τx, rfl⟩ hd
          exact (cacheData_spec hi1 (append_get ht) hd.symm).mono (fun _ h => h) (fun _ _ _ _ _ h => h.trans hd)
        · rintro e s1 τ1 _ _ he; exact he
    · intro s τ r t hi ht hn
      obtain ⟨o, ho, hok⟩ := hi.some_obj ht
      rw [Prf.hashF]
      refine HSpec.congr (HM.bind_obj ho _) ?_
      cases hc : o.hash with
      | some d => exact .noop .refl rfl hi (hok.hh d hc).symm
      | none =>
        simp only
        have hA : HSpec T H SerExtI (if (T o.cls).isTx = true ∧ o.isPruned = false then do
              let v ← Prf.getAttr T r 0
              HM.lift (Prf.txHash H v)
            else match o.orig with
              | some q => Prf.hashF T H n q
              | none => do
                let d ← Prf.dataHashF T H n r
                HM.lift (Prf.tagHash T H o.cls d)) s τ (fun res _ _ => res = t.hash T H) := by
          split
          · rename_i htx
            cases horig : o.orig with
            | some q => rw [(hok.view q horig).2.2.1] at htx; exact absurd htx.2 (by simp)
            | none =>
              rcases hok.base horig with ⟨fs, hfs, hfp, _⟩ | ⟨d, _, _, hp, _⟩
              · subst hfs
                have hck := hi.chk _ (List.mem_of_getElem? ht)
                simp only [PTree.Checked, hT _ htx.1] at hck
                cases fs with
                | nil => simp [PFields.Checked] at hck
                | sub t' fs => simp [PFields.Checked, PrimTy.check] at hck
                | prim w fs =>
                  refine HSpec.bind .trans (getAttr_node hi ht (i := 0) ho hfp (tv := .prim w) rfl) ?_ ?_
                  · rintro v s1 τ1 hi1 hr1 _ ⟨v', hv', his, _⟩
                    cases hv'
                    cases v with
                    | ref c => exact his.elim
                    | prim w' =>
                      have : w' = w := his
                      subst this
                      refine .noop .refl rfl hi1 ?_
                      rw [PTree.hash, if_pos htx.1]
                      rfl
                  · rintro e s1 τ1 _ _ ⟨v, hv, _⟩; cases hv
              · rw [hp] at htx; exact absurd htx.2 (by simp)
          · rename_i htx
            cases horig : o.orig with
            | some q =>
              obtain ⟨hqr, hq, _⟩ := hok.view q horig
              exact ihh s τ q t hi hq (by omega)
            | none =>
              simp only
              refine HSpec.bind .trans (ihd s τ r t hi ht (by omega)) ?_ ?_
              · rintro d s1 τ1 hi1 _ _ hd
                refine .noop .refl rfl hi1 ?_
                rcases hok.base horig with ⟨fs, hfs, hfp, _, hp, _⟩ | ⟨d', hfs, _, hp, hd'⟩
                · subst hfs
                  have hntx : ¬ (T o.cls).isTx = true := fun h => htx ⟨h, hp h⟩
                  rw [PTree.dataHash] at hd
                  rw [PTree.hash, if_neg hntx]
                  cases hb : fs.hashBytes T H (T o.cls).attrs with
                  | error e => rw [hb] at hd; cases hd
                  | ok b => rw [hb] at hd; cases hd; rfl
                · subst hfs
                  rw [PTree.dataHash] at hd
                  cases hd
                  rw [PTree.hash]
              · rintro e s1 τ1 hi1 _ hd
                rcases hok.base horig with ⟨fs, hfs, hfp, _, hp, _⟩ | ⟨d', hfs, _, hp, hd'⟩
                · subst hfs
                  have hntx : ¬ (T o.cls).isTx = true := fun h => htx ⟨h, hp h⟩
                  rw [PTree.dataHash] at hd
                  rw [PTree.hash, if_neg hntx]
                  cases hb : fs.hashBytes T H (T o.cls).attrs with
                  | error e => rw [hb] at hd; cases hd; rfl
                  | ok b => rw [hb] at hd; cases hd
                · subst hfs
                  rw [PTree.dataHash] at hd
                  cases hd
        refine HSpec.bind .trans hA ?_ ?_
        · rintro d s1 τ1 hi1 hr1 ⟨τx, rfl⟩ hd
          exact (cacheHash_spec hi1 (append_get ht) hd.symm).mono (fun _ h => h) (fun _ _ _ _ _ h => h.trans hd)
        · rintro e s1 τ1 _ _ he; exact he

theorem dataHash_spec (hT : T.WF) {s : PState} {τ : List PTree} (hi : Inv T H s τ) {r : Nat} {t : PTree} (ht : τ[r]? = some t) :
    HSpec T H SerExtI (Prf.dataHash T H r) s τ (fun res _ _ => res = t.dataHash T H) := by
  have hlt := get_lt ht
  rw [hi.len] at hlt
  exact HSpec.congr (y := Prf.dataHashF T H (2 * s.objs.length + 2) r) rfl ((hashF_spec hT _).1 s τ r t hi ht (by omega))

theorem hash_spec (hT : T.WF) {s : PState} {τ : List PTree} (hi : Inv T H s τ) {r : Nat} {t : PTree} (ht : τ[r]? = some t) :
    HSpec T H SerExtI (Prf.hash T H r) s τ (fun res _ _ => res = t.hash T H) := by
  have hlt := get_lt ht
  rw [hi.len] at hlt
  exact HSpec.congr (y := Prf.hashF T H (2 * s.objs.length + 2) r) rfl ((hashF_spec hT _).2 s τ r t hi ht (by omega))

end Verif
