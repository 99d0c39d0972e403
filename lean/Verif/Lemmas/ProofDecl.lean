import Verif.Lemmas.ProofRun
import Verif.Spec.ProofBind
import Verif.Spec.ProofShip
/-! What deserialization makes: proofs whose attributes are as declared, with no views among them. -/
namespace Verif
set_option linter.unusedSectionVars false
variable {T : Table} {H : HashFns}

/-- The object is not a view, nor are the proofs below; the flags are right. -/
inductive Deep (T : Table) (s : PState) (τ : List PTree) : Nat → Prop where
  | mk {r : Nat} {o : Obj} {t : PTree} : s.objs[r]? = some o → τ[r]? = some t → o.orig = none → o.isPruned = t.prunedFlag T →
      (∀ (i c : Nat), o.fields[i]? = some (some (.ref c)) → Deep T s τ c) → Deep T s τ r

theorem base_fields {s s' : PState} {τ τ' : List PTree} (hi : Inv T H s τ) (hi' : Inv T H s' τ') (he : Ext s s') {r : Nat} {o o' : Obj}
    {t : PTree} (ho : s.objs[r]? = some o) (ht : τ[r]? = some t) (ht' : τ'[r]? = some t) (ho' : s'.objs[r]? = some o') (horig : o.orig = none) :
    ∀ (i : Nat) (v : HVal), o'.fields[i]? = some (some v) → o.fields[i]? = some (some v) := by
  obtain ⟨o1, ho1, hc, hor, hp, hf, hv⟩ := he.obj r o ho
  rw [ho'] at ho1; cases ho1
  have hok := hi.obj r o t ho ht
  have hok' := hi'.obj r o' t ho' ht'
  intro i v hiv
  rcases hok.base horig with ⟨fs, rfl, _, hall, _⟩ | ⟨d, rfl, _⟩
  · have hlt : i < o.fields.length := by
      have := get_lt hiv
      rw [hok'.flen, hc, ← hok.flen] at this; exact this
    obtain ⟨w, hw, _⟩ := hall i hlt
    have := hv i w hw
    rw [hiv] at this; cases this; exact hw
  · rcases hok'.base (hor.trans horig) with ⟨fs, h, _⟩ | ⟨d, _, hf', _⟩
    · cases h
    · exact absurd hiv (hok'.fp hf' i v)

theorem Deep.mono {s s' : PState} {τ x : List PTree} (hi : Inv T H s τ) (hi' : Inv T H s' (τ ++ x)) (he : Ext s s') {r : Nat} (h : Deep T s τ r) :
    Deep T s' (τ ++ x) r := by
  induction h with
  | mk ho ht horig hp hf ih =>
    obtain ⟨o', ho', hc, hor, hp', _, _⟩ := he.obj _ _ ho
    refine .mk ho' (append_get ht) (hor.trans horig) (hp'.trans hp) fun i c hic => ih i c ?_
    exact base_fields hi hi' he ho ht (append_get ht) ho' horig i _ hic

/-- Attributes as declared, apart from what the constructor checks. -/
def PFields.Pre (T : Table) : PFields → List Kind → Prop
  | .nil, [] => True
  | .prim _ fs, .prim _ :: ks => fs.Pre T ks
  | .sub t fs, .proof c :: ks => (Kind.proof c).Allows T t.cls ∧ t.Declared T ∧ fs.Pre T ks
  | .sub t fs, .union _ :: ks => t.Declared T ∧ fs.Pre T ks
  | _, _ => False

theorem PFields.Pre.declared : ∀ {fs : PFields} {ks : List Kind}, fs.Pre T ks → fs.Checked T ks → fs.Declared T ks
  | .nil, [], _, _ => by simp [PFields.Declared]
  | .nil, _ :: _, h, _ => by simp [PFields.Pre] at h
  | .prim _ _, [], h, _ => by simp [PFields.Pre] at h
  | .prim _ _, .proof _ :: _, h, _ => by simp [PFields.Pre] at h
  | .prim _ _, .union _ :: _, h, _ => by simp [PFields.Pre] at h
  | .prim v fs, .prim τ :: ks, h, hc => by
    rw [PFields.Pre] at h
    rw [PFields.Checked] at hc
    rw [PFields.Declared]
    exact ⟨hc.1, h.declared hc.2⟩
  | .sub _ _, [], h, _ => by simp [PFields.Pre] at h
  | .sub _ _, .prim _ :: _, h, _ => by simp [PFields.Pre] at h
  | .sub t fs, .proof c :: ks, h, hc => by
    rw [PFields.Pre] at h
    rw [PFields.Checked] at hc
    rw [PFields.Declared]
    exact ⟨h.1, h.2.1, h.2.2.declared hc.2.2⟩
  | .sub t fs, .union us :: ks, h, hc => by
    rw [PFields.Pre] at h
    rw [PFields.Checked] at hc
    rw [PFields.Declared]
    exact ⟨hc.1, h.1, h.2.declared hc.2.2⟩

/-- The class a proof read as class `c` can have. -/
def ReadAs (T : Table) (c : Nat) (t : PTree) : Prop := (Kind.proof c).Allows T t.cls ∧ t.Declared T

theorem anyPruned_deep {s : PState} {τ : List PTree} : ∀ {ks : List Kind} {vs : List HVal} {fs : PFields}, AllIs τ vs fs → fs.Pre T ks →
    (∀ c, .ref c ∈ vs → Deep T s τ c) → anyPruned s ks vs = fs.prunedFlag T ks
  | [], _, _, .nil, _, _ => by simp [anyPruned, PFields.prunedFlag]
  | [], _, _, .prim _, h, _ => by simp [PFields.Pre] at h
  | [], _, _, .ref _ _, h, _ => by simp [PFields.Pre] at h
  | _ :: _, _, _, .nil, h, _ => by simp [PFields.Pre] at h
  | .prim τ' :: ks, _, _, .prim ha, h, hd => by
    rw [PFields.Pre] at h
    simp only [anyPruned, PFields.prunedFlag]
    exact anyPruned_deep ha h fun c hc => hd c (List.mem_cons_of_mem _ hc)
  | .proof _ :: _, _, _, .prim _, h, _ => by simp [PFields.Pre] at h
  | .union _ :: _, _, _, .prim _, h, _ => by simp [PFields.Pre] at h
  | .prim _ :: _, _, _, .ref _ _, h, _ => by simp [PFields.Pre] at h
  | .union us :: ks, _, _, .ref _ ha, h, hd => by
    rw [PFields.Pre] at h
    simp only [anyPruned, PFields.prunedFlag]
    exact anyPruned_deep ha h.2 fun c hc => hd c (List.mem_cons_of_mem _ hc)
  | .proof c :: ks, _, _, .ref (c := r) hr ha, h, hd => by
    rw [PFields.Pre] at h
    simp only [anyPruned, PFields.prunedFlag]
    rw [anyPruned_deep ha h.2.2 fun c hc => hd c (List.mem_cons_of_mem _ hc)]
    cases hd r (List.mem_cons_self) with
    | mk ho ht _ hp _ =>
      rw [hr] at ht; cases ht
      simp [ho, hp]

theorem deserLoop_own {df : Nat → Bytes → HM (Nat × Bytes)}
    (hdf : ∀ (s : PState) (τ : List PTree) (c : Nat) (b : Bytes), Inv T H s τ →
      HSpec T H SerExt (df c b) s τ (fun res s' τ' => ∀ r b', res = .ok (r, b') → Deep T s' τ' r ∧ ∃ t, τ'[r]? = some t ∧ ReadAs T c t)) :
    ∀ (ks : List Kind) (s : PState) (τ : List PTree) (b : Bytes), Inv T H s τ →
      HSpec T H SerExt (Prf.deserLoop df ks b) s τ (fun res s' τ' => ∀ vs b', res = .ok (vs, b') → (∀ c, .ref c ∈ vs → Deep T s' τ' c) ∧
        ∃ fs, AllIs τ' vs fs ∧ fs.Pre T ks) := by
  intro ks
  induction ks with
  | nil => intro s τ b hi; exact .noop .refl rfl hi (fun vs b' h => by cases h; exact ⟨fun c hc => (by simp at hc), .nil, .nil, by simp [PFields.Pre]⟩)
  | cons k ks ih =>
    intro s τ b hi
    have hA : HSpec T H SerExt (Prf.attrDeser df k b) s τ (fun res s' τ' => ∀ v b', res = .ok (v, b') → (∀ c, v = .ref c → Deep T s' τ' c) ∧
        ∃ tv, v.Is τ' tv ∧ match tv, k with
          | .prim _, .prim _ => True
          | .sub t, .proof c => ReadAs T c t
          | .sub t, .union _ => t.Declared T
          | _, _ => False) := by
      cases k with
      | prim τ' =>
        refine HSpec.bind .trans (read_spec hi τ'.deser b) ?_ ?_
        · rintro ⟨v, b1⟩ s1 τ1 hi1 _ _ _
          exact .noop .refl rfl hi1 (fun w b' h => by cases h; exact ⟨fun c hc => (by cases hc), .prim v, rfl, trivial⟩)
        · rintro e s1 τ1 _ _ _ v b' h; cases h
      | proof c =>
        refine HSpec.bind .trans (hdf s τ c b hi) ?_ ?_
        · rintro ⟨r, b1⟩ s1 τ1 hi1 _ _ h
          obtain ⟨hd, t, ht, hr⟩ := h r b1 rfl
          exact .noop .refl rfl hi1 (fun v b' h' => by cases h'; exact ⟨fun c hc => (by cases hc; exact hd), .sub t, ht, hr⟩)
        · rintro e s1 τ1 _ _ _ v b' h; cases h
      | union us =>
        refine HSpec.bind .trans (read_spec hi readVaruint b) ?_ ?_
        · rintro ⟨i, b1⟩ s1 τ1 hi1 _ _ _
          simp only
          cases us[i]? with
          | none => exact .noop .refl rfl hi1 (fun v b' h => by cases h)
          | some u =>
            refine HSpec.bind .trans (hdf s1 τ1 u b1 hi1) ?_ ?_
            · rintro ⟨r, b1⟩ s1 τ1 hi1 _ _ h
              obtain ⟨hd, t, ht, hr⟩ := h r b1 rfl
              exact .noop .refl rfl hi1 (fun v b' h' => by cases h'; exact ⟨fun c hc => (by cases hc; exact hd), .sub t, ht, hr.2⟩)
            · rintro e s1 τ1 _ _ _ v b' h; cases h
        · rintro e s1 τ1 _ _ _ v b' h; cases h
    refine HSpec.bind .trans hA ?_ ?_
    · rintro ⟨v, b1⟩ s1 τ1 hi1 _ _ hv
      refine HSpec.bind .trans (ih s1 τ1 b1 hi1) ?_ ?_
      · rintro ⟨vs, b2⟩ s2 τ2 hi2 he2 ⟨x, rfl⟩ hvs
        refine .noop .refl rfl hi2 (fun ws b' h => ?_)
        cases h
        obtain ⟨hd1, tv, his, htv⟩ := hv v b1 rfl
        obtain ⟨hd2, fs, hfs, hpre⟩ := hvs vs b2 rfl
        refine ⟨fun c hc => ?_, ?_⟩
        · rcases List.mem_cons.mp hc with h | h
          · exact (hd1 c h.symm).mono hi1 hi2 he2.toExt
          · exact hd2 c h
        · have his2 : v.Is (τ1 ++ x) tv := his.mono
          cases tv with
          | prim w =>
            cases v with
            | ref _ => exact his.elim
            | prim w' =>
              have : w' = w := his
              subst this
              refine ⟨.prim w' fs, .prim hfs, ?_⟩
              cases k with
              | prim _ => rw [PFields.Pre]; exact hpre
              | proof _ => exact htv.elim
              | union _ => exact htv.elim
          | sub t =>
            cases v with
            | prim _ => exact his.elim
            | ref r =>
              refine ⟨.sub t fs, .ref his2 hfs, ?_⟩
              cases k with
              | prim _ => exact htv.elim
              | proof _ => rw [PFields.Pre]; exact ⟨htv.1, htv.2, hpre⟩
              | union _ => rw [PFields.Pre]; exact ⟨htv, hpre⟩
      · rintro e s1 τ1 _ _ _ v b' h; cases h
    · rintro e s1 τ1 _ _ _ v b' h; cases h

theorem new_fields {s : PState} {c : Nat} {vs : List HVal} {r : Nat} {o : Obj} (h : (Prf.new T c vs s).1 = .ok r)
    (ho : (Prf.new T c vs s).2.objs[r]? = some o) : o.fields = (vs.take (T c).attrs.length).map some := by
  have hrun : Prf.new T c vs s = (do
      let p ← Prf.checkVals T (T c).attrs vs
      HM.alloc { cls := c, fields := (vs.take (T c).attrs.length).map some, isPruned := p } : HM Nat) (Prf.initClass c s).2 := rfl
  rw [hrun, HM.bind_apply] at h ho
  rcases hx : Prf.checkVals T (T c).attrs vs (Prf.initClass c s).2 with ⟨e | p, s1⟩
  · rw [hx] at h; cases h
  · rw [hx] at h ho
    simp only [HM.alloc, Except.ok.injEq] at h ho
    rw [← h, List.getElem?_concat_length] at ho
    cases ho; rfl

theorem new_spec' (hT : T.WF) {s : PState} {τ : List PTree} (hi : Inv T H s τ) (c : Nat) {vs : List HVal} {fs : PFields}
    (hfs : AllIs τ (vs.take (T c).attrs.length) fs) :
    HSpec T H SerExt (Prf.new T c vs) s τ (fun res s' τ' =>
      ((fs.Checked T (T c).attrs → ∃ r, res = .ok r) ∧
      ∀ r, res = .ok r → r = s.objs.length ∧ τ'[r]? = some (.node c fs) ∧
        ∃ o, s'.objs[r]? = some o ∧ o.orig = none ∧ o.cls = c ∧ o.isPruned = anyPruned s (T c).attrs vs ∧ o.isFullyPruned = false) ∧
      ∀ r o, res = .ok r → s'.objs[r]? = some o → o.fields = (vs.take (T c).attrs.length).map some) := by
  obtain ⟨τ', h1, h2, h3⟩ := new_spec hT hi c hfs
  exact ⟨τ', h1, h2, h3, fun r o => new_fields⟩

theorem deserF_own (hT : T.WF) : ∀ (n : Nat) (s : PState) (τ : List PTree) (c : Nat) (b : Bytes), Inv T H s τ →
    HSpec T H SerExt (Prf.deserF T n c b) s τ (fun res s' τ' => ∀ r b', res = .ok (r, b') → Deep T s' τ' r ∧ ∃ t, τ'[r]? = some t ∧ ReadAs T c t) := by
  intro n
  induction n with
  | zero => intro s τ c b hi; exact .noop .refl rfl hi (fun r b' h => by cases h)
  | succ n ih =>
    intro s τ c b hi
    rw [Prf.deserF]
    refine HSpec.bind .trans (read_spec hi readBool b) ?_ ?_
    · rintro ⟨pr, b1⟩ s1 τ1 hi1 _ _ _
      cases pr with
      | true =>
        simp only
        refine HSpec.bind .trans (read_spec hi1 (readBytes 32) b1) ?_ ?_
        · rintro ⟨d, b2⟩ s2 τ2 hi2 _ _ ⟨hd, rfl, rfl⟩
          have hdl : d.length = 32 := (fdRead_ok hd.symm).2
          refine HSpec.bind .trans (hashOnly_inv hi2 c hdl) ?_ ?_
          · rintro r s3 τ3 hi3 _ _ ⟨hr, ht, o, ho, hor, hcl, hp, hfp⟩
            refine .noop .refl rfl hi3 (fun r' b' h => ?_)
            cases h
            cases hr
            refine ⟨.mk ho ht hor ?_ fun i q hq => ?_, _, ht, .inl rfl, ?_⟩
            · rw [hp, PTree.prunedFlag]
            · exact absurd hq ((hi3.obj _ _ _ ho ht).fp hfp i _)
            · rw [PTree.Declared]; exact hdl
          · rintro e s1 τ1 _ _ _ v b' h; cases h
        · rintro e s1 τ1 _ _ _ v b' h; cases h
      | false =>
        simp only
        have hV : HSpec T H SerExt (Prf.variantOf T c b1) s1 τ1 (fun res _ _ => ∀ u b', res = .ok (u, b') → (Kind.proof c).Allows T u) := by
          unfold Prf.variantOf
          cases hvar : (T c).variants with
          | none => exact .noop .refl rfl hi1 (fun u b' h => by cases h; exact .inl rfl)
          | some us =>
            simp only
            refine HSpec.bind .trans (read_spec hi1 readVaruint b1) ?_ ?_
            · rintro ⟨i, b2⟩ s2 τ2 hi2 _ _ _
              simp only
              cases hu : us[i]? with
              | none => exact .noop .refl rfl hi2 (fun u b' h => by cases h)
              | some u => exact .noop .refl rfl hi2 (fun u b' h => by cases h; exact .inr ⟨us, hvar, List.mem_of_getElem? hu⟩)
            · rintro e s1 τ1 _ _ _ u b' h; cases h
        refine HSpec.bind .trans hV ?_ ?_
        · rintro ⟨u, b2⟩ s2 τ2 hi2 _ _ hu
          refine HSpec.bind .trans (deserLoop_own ih (T u).attrs s2 τ2 b2 hi2) ?_ ?_
          · rintro ⟨vs, b3⟩ s3 τ3 hi3 _ _ hvs
            obtain ⟨hdeep, fs, hfs, hpre⟩ := hvs vs b3 rfl
            have hlen : fs.length = (T u).attrs.length := by
              have : ∀ (fs : PFields) (ks : List Kind), fs.Pre T ks → fs.length = ks.length := by
                intro fs ks
                induction ks generalizing fs with
                | nil => intro h; cases fs <;> simp [PFields.Pre] at h; rfl
                | cons k ks ih =>
                  intro h
                  cases fs <;> cases k <;> simp only [PFields.Pre, PFields.length, List.length_cons] at h ⊢
                  · rw [ih _ h]
                  · rw [ih _ h.2.2]
                  · rw [ih _ h.2]
              exact this _ _ hpre
            have htk : vs.take (T u).attrs.length = vs := List.take_of_length_le (by rw [← hlen, hfs.length]; exact Nat.le_refl _)
            refine HSpec.bind .trans (new_spec' hT hi3 u (by rw [htk]; exact hfs)) ?_ ?_
            · rintro r s4 τ4 hi4 he4 ⟨x, rfl⟩ ⟨⟨_, h⟩, hflds⟩
              refine .noop .refl rfl hi4 (fun r' b' h' => ?_)
              cases h'
              obtain ⟨hr, ht, o, ho, hor, hcl, hp, hfp⟩ := h r rfl
              have hck := hi4.chk _ (List.mem_of_getElem? ht)
              rw [PTree.Checked] at hck
              refine ⟨.mk ho ht hor ?_ fun i q hq => ?_, _, ht, hu u b2 rfl, ?_⟩
              · rw [hp, PTree.prunedFlag]
                exact anyPruned_deep hfs hpre hdeep
              · rw [hflds r o rfl ho, htk] at hq
                simp only [List.getElem?_map, Option.map_eq_some_iff, Option.some.injEq] at hq
                obtain ⟨w, hw, rfl⟩ := hq
                exact (hdeep q (List.mem_of_getElem? hw)).mono hi3 hi4 he4.toExt
              · rw [PTree.Declared]; exact hpre.declared hck
            · rintro e s1 τ1 _ _ _ v b' h; cases h
          · rintro e s1 τ1 _ _ _ v b' h; cases h
        · rintro e s1 τ1 _ _ _ v b' h; cases h
    · rintro e s1 τ1 _ _ _ v b' h; cases h

theorem deserialize_own (hT : T.WF) {s : PState} {τ : List PTree} (hi : Inv T H s τ) (c : Nat) (b : Bytes) :
    HSpec T H SerExt (Prf.ctxDeserialize T c b) s τ (fun res s' τ' => ∀ r b', res = .ok (r, b') → Deep T s' τ' r ∧ ∃ t, τ'[r]? = some t ∧ ReadAs T c t) :=
  deserF_own hT _ s τ c b hi

mutual
theorem PTree.full_prunedFlag : ∀ {t : PTree}, t.full = true → t.prunedFlag T = false
  | .node c fs, h => by rw [PTree.prunedFlag]; rw [PTree.full] at h; exact PFields.full_prunedFlag h
  | .pruned _ _, h => by simp [PTree.full] at h
theorem PFields.full_prunedFlag : ∀ {fs : PFields} {ks : List Kind}, fs.full = true → fs.prunedFlag T ks = false
  | .nil, ks, _ => by cases ks <;> simp [PFields.prunedFlag]
  | .prim v fs, [], _ => by simp [PFields.prunedFlag]
  | .prim v fs, k :: ks, h => by rw [PFields.full] at h; simp only [PFields.prunedFlag]; exact PFields.full_prunedFlag h
  | .sub t fs, [], _ => by simp [PFields.prunedFlag]
  | .sub t fs, k :: ks, h => by
    rw [PFields.full, Bool.and_eq_true] at h
    cases k <;> simp [PFields.prunedFlag, PFields.full_prunedFlag h.2, PTree.full_prunedFlag h.1]
end

theorem WholeFields.of_get {s : PState} {τ : List PTree} : ∀ (os : List (Option HVal)) (fs : PFields), fs.length = os.length →
    (∀ i v, os[i]? = some v → ∃ w tv, v = some w ∧ fs.get? i = some tv ∧ w.Is τ tv ∧ ∀ c t, w = .ref c → tv = .sub t → Whole s c t) → WholeFields s os fs
  | [], .nil, _, _ => .nil
  | [], .prim _ _, h, _ => by simp [PFields.length] at h
  | [], .sub _ _, h, _ => by simp [PFields.length] at h
  | _ :: _, .nil, h, _ => by simp [PFields.length] at h
  | o :: os, .prim v fs, hl, hm => by
    obtain ⟨w, tv, rfl, hg, his, _⟩ := hm 0 o rfl
    simp only [PFields.get?, Option.some.injEq] at hg
    subst hg
    cases w with
    | ref _ => exact his.elim
    | prim w =>
      have : w = v := his
      subst this
      exact .prim (WholeFields.of_get os fs (by simpa [PFields.length] using hl) fun i v hv => by
        simpa [PFields.get?] using hm (i + 1) v (by simpa using hv))
  | o :: os, .sub t fs, hl, hm => by
    obtain ⟨w, tv, rfl, hg, his, hw⟩ := hm 0 o rfl
    simp only [PFields.get?, Option.some.injEq] at hg
    subst hg
    cases w with
    | prim _ => exact his.elim
    | ref c =>
      exact .sub (hw c t rfl rfl) (WholeFields.of_get os fs (by simpa [PFields.length] using hl) fun i v hv => by
        simpa [PFields.get?] using hm (i + 1) v (by simpa using hv))

theorem PFields.full_get : ∀ {fs : PFields} {i : Nat} {t : PTree}, fs.full = true → fs.get? i = some (.sub t) → t.full = true
  | .nil, _, _, _, h => by simp [PFields.get?] at h
  | .prim _ fs, 0, _, _, h => by simp [PFields.get?] at h
  | .prim _ fs, i + 1, _, hf, h => by rw [PFields.full] at hf; exact PFields.full_get (i := i) hf h
  | .sub t fs, 0, _, hf, h => by
    rw [PFields.full, Bool.and_eq_true] at hf
    simp only [PFields.get?, Option.some.injEq, TVal.sub.injEq] at h
    subst h; exact hf.1
  | .sub t fs, i + 1, _, hf, h => by
    rw [PFields.full, Bool.and_eq_true] at hf
    exact PFields.full_get (i := i) hf.2 h

theorem Deep.whole {s : PState} {τ : List PTree} (hi : Inv T H s τ) {r : Nat} (h : Deep T s τ r) : ∀ {t : PTree}, τ[r]? = some t → t.full = true → Whole s r t := by
  induction h with
  | @mk r o t0 ho ht horig hp hf ih =>
    intro t ht' hfull
    rw [ht] at ht'; cases ht'
    have hok := hi.obj _ _ _ ho ht
    rcases hok.base horig with ⟨fs, rfl, hfp, hall, _⟩ | ⟨d, rfl, _⟩
    · refine .node ho horig hfp (hp.trans (PTree.full_prunedFlag hfull)) (WholeFields.of_get (τ := τ) _ _ ?_ fun i v hv => ?_)
      · have := hi.chk _ (List.mem_of_getElem? ht)
        rw [PTree.Checked] at this
        rw [this.length, hok.flen]
      · obtain ⟨w, hw, _⟩ := hall i (get_lt hv)
        rw [hv] at hw; cases hw
        obtain ⟨tv, htv, his⟩ := hok.fmatch i w hv
        refine ⟨w, tv, rfl, htv, his, fun c t hc htt => ?_⟩
        subst hc; subst htt
        rw [PTree.full] at hfull
        exact ih i c hv his (PFields.full_get hfull htv)
    · simp [PTree.full] at hfull

mutual
theorem Whole.represents {s : PState} : ∀ {r : Nat} {t : PTree}, Whole s r t → Represents s r t
  | _, _, .node ho h1 h2 _ hf => .node ho h1 h2 hf.represents
theorem WholeFields.represents {s : PState} : ∀ {vs : List (Option HVal)} {fs : PFields}, WholeFields s vs fs → RepFields s vs fs
  | _, _, .nil => .nil
  | _, _, .prim hf => .prim hf.represents
  | _, _, .sub ht hf => .sub ht.represents hf.represents
end

end Verif
