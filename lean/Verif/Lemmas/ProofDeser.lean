import Verif.Lemmas.ProofSer
import Verif.Spec.ProofTyped
/-! Construction and deserialization. -/
namespace Verif
set_option linter.unusedSectionVars false
variable {T : Table} {H : HashFns}

/-- The values stand for the fields. -/
inductive AllIs (τ : List PTree) : List HVal → PFields → Prop where
  | nil : AllIs τ [] .nil
  | prim {v vs fs} : AllIs τ vs fs → AllIs τ (.prim v :: vs) (.prim v fs)
  | ref {c t vs fs} : τ[c]? = some t → AllIs τ vs fs → AllIs τ (.ref c :: vs) (.sub t fs)

theorem AllIs.exists {τ : List PTree} : ∀ (vs : List HVal), (∀ r, .ref r ∈ vs → r < τ.length) → ∃ fs, AllIs τ vs fs
  | [], _ => ⟨.nil, .nil⟩
  | .prim v :: vs, h => by
    obtain ⟨fs, hfs⟩ := AllIs.exists vs (fun r hr => h r (List.mem_cons_of_mem _ hr))
    exact ⟨_, .prim hfs⟩
  | .ref c :: vs, h => by
    obtain ⟨fs, hfs⟩ := AllIs.exists vs (fun r hr => h r (List.mem_cons_of_mem _ hr))
    have hc := h c (List.mem_cons_self)
    exact ⟨_, .ref (List.getElem?_eq_getElem hc) hfs⟩

theorem AllIs.mono {τ τ' : List PTree} : ∀ {vs : List HVal} {fs : PFields}, AllIs τ vs fs → AllIs (τ ++ τ') vs fs
  | _, _, .nil => .nil
  | _, _, .prim h => .prim h.mono
  | _, _, .ref hc h => .ref (append_get hc) h.mono

theorem AllIs.get {τ : List PTree} : ∀ {vs : List HVal} {fs : PFields}, AllIs τ vs fs → ∀ (i : Nat) (v : HVal), vs[i]? = some v →
    ∃ tv, fs.get? i = some tv ∧ v.Is τ tv
  | _, _, .nil, i, v, h => by simp at h
  | _, _, .prim (v := w) h, 0, v, hv => by
    simp at hv; subst hv; exact ⟨.prim w, rfl, rfl⟩
  | _, _, .ref (t := t) hc h, 0, v, hv => by
    simp at hv; subst hv; exact ⟨.sub t, rfl, hc⟩
  | _, _, .prim h, i + 1, v, hv => by
    simp at hv; exact h.get i v hv
  | _, _, .ref hc h, i + 1, v, hv => by
    simp at hv; exact h.get i v hv

theorem AllIs.ref_lt {τ : List PTree} : ∀ {vs : List HVal} {fs : PFields}, AllIs τ vs fs → ∀ c, .ref c ∈ vs → c < τ.length
  | _, _, .nil, c, h => by simp at h
  | _, _, .prim h, c, hc => by
    rcases List.mem_cons.mp hc with h' | h'
    · cases h'
    · exact h.ref_lt c h'
  | _, _, .ref hc h, c, hm => by
    rcases List.mem_cons.mp hm with h' | h'
    · cases h'; exact get_lt hc
    · exact h.ref_lt c h'

/-- Is one of the values for a proof class pruned? -/
def anyPruned (s : PState) : List Kind → List HVal → Bool
  | .proof _ :: ks, .ref r :: vs => (s.objs[r]?).any (·.isPruned) || anyPruned s ks vs
  | _ :: ks, _ :: vs => anyPruned s ks vs
  | _, _ => false

def prunedArg (s : PState) (k : Kind) (v : HVal) : Bool :=
  match k, v with
  | .proof _, .ref r => (s.objs[r]?).any (·.isPruned)
  | _, _ => false

theorem pure_iff {s : PState} {b p : Bool} {X : Prop} (hX : X) : ((Pure.pure b : HM Bool) s = (.ok p, s)) ↔ X ∧ p = b := by
  rw [HM.pure_apply]
  constructor
  · intro h; cases h; exact ⟨hX, rfl⟩
  · rintro ⟨_, rfl⟩; rfl

theorem fail_iff {s : PState} {b p : Bool} {e : PyErr} {X : Prop} (hX : ¬ X) : ((HM.fail e : HM Bool) s = (.ok p, s)) ↔ X ∧ p = b := by
  rw [HM.fail_apply]
  constructor
  · intro h; cases h
  · rintro ⟨h, _⟩; exact absurd h hX

theorem checkVal_state (k : Kind) (v : HVal) (s : PState) : (Prf.checkVal T k v s).2 = s := by
  cases k with
  | prim τ =>
    cases v with
    | prim w => simp only [Prf.checkVal]; rw [HM.bind_apply, HM.lift_apply]; cases τ.check w <;> rfl
    | ref w => simp only [Prf.checkVal]; rw [HM.bind_apply, HM.lift_apply]; cases τ.check .other <;> rfl
  | proof c =>
    cases v with
    | prim w => rfl
    | ref r =>
      simp only [Prf.checkVal]
      rw [HM.bind_apply]
      unfold HM.obj
      cases s.objs[r]? with
      | none => rfl
      | some o =>
        simp only
        cases (T c).variants with
        | none => rfl
        | some us => simp only; split <;> rfl
  | union us =>
    cases v with
    | prim w => rfl
    | ref r =>
      simp only [Prf.checkVal]
      rw [HM.bind_apply]
      unfold HM.obj
      cases s.objs[r]? with
      | none => rfl
      | some o => simp only; split <;> rfl

theorem checkVals_state : ∀ (ks : List Kind) (vs : List HVal) (s : PState), (Prf.checkVals T ks vs s).2 = s
  | [], vs, s => by cases vs <;> rfl
  | k :: ks, [], s => rfl
  | k :: ks, v :: vs, s => by
    rw [Prf.checkVals, HM.bind_apply]
    have h1 := checkVal_state (T := T) k v s
    rcases hx : Prf.checkVal T k v s with ⟨_ | a, s1⟩
    · rw [hx] at h1; exact h1
    · rw [hx] at h1
      simp only at h1 ⊢
      subst h1
      rw [HM.bind_apply]
      have h2 := checkVals_state ks vs s1
      rcases hy : Prf.checkVals T ks vs s1 with ⟨_ | b, s2⟩
      · rw [hy] at h2; exact h2
      · rw [hy] at h2; exact h2

/-- Does the value pass `check_instance`? -/
def KindOK (T : Table) (k : Kind) (tv : TVal) : Prop :=
  match k, tv with
  | .prim τ, .prim v => τ.check v = .ok ()
  | .prim τ, .sub _ => τ.check .other = .ok ()
  | .proof c, .sub t => ∀ us, (T c).variants = some us → us.any (T.isInst t.cls) = true
  | .union us, .sub t => us.any (T.isInst t.cls) = true
  | _, .prim _ => False

theorem checkVal_iff {s : PState} {τ : List PTree} (hi : Inv T H s τ) {k : Kind} {v : HVal} {tv : TVal} (his : v.Is τ tv) (p : Bool) :
    Prf.checkVal T k v s = (.ok p, s) ↔ KindOK T k tv ∧ p = prunedArg s k v := by
  cases v with
  | prim w =>
    cases tv with
    | sub _ => exact his.elim
    | prim w' =>
      have hw : w = w' := his
      subst hw
      cases k with
      | prim τ' =>
        simp only [Prf.checkVal, KindOK]
        rw [HM.bind_apply, HM.lift_apply]
        cases hc : τ'.check w with
        | error e => exact fail_iff (by simp)
        | ok u => cases u; exact pure_iff rfl
      | proof c => exact fail_iff id
      | union us => exact fail_iff id
  | ref r =>
    cases tv with
    | prim _ => exact his.elim
    | sub t =>
      have hr : τ[r]? = some t := his
      obtain ⟨o, ho, hok⟩ := hi.some_obj hr
      cases k with
      | prim τ' =>
        simp only [Prf.checkVal, KindOK]
        rw [HM.bind_apply, HM.lift_apply]
        cases hc : τ'.check .other with
        | error e => exact fail_iff (by simp)
        | ok u => cases u; exact pure_iff rfl
      | proof c =>
        simp only [Prf.checkVal, KindOK, prunedArg, ho, Option.any_some]
        rw [HM.bind_obj ho, hok.cls]
        cases hv : (T c).variants with
        | none => exact pure_iff (by simp)
        | some us =>
          simp only
          split
          · rename_i h; exact pure_iff (by rintro us' h'; cases h'; exact h)
          · rename_i h; exact fail_iff (fun h' => h (h' us rfl))
      | union us =>
        simp only [Prf.checkVal, KindOK, prunedArg]
        rw [HM.bind_obj ho, hok.cls]
        split
        · rename_i h; exact pure_iff h
        · rename_i h; exact fail_iff h

theorem checked_cons_prim {v : PVal} {fs : PFields} {k : Kind} {ks : List Kind} :
    (PFields.prim v fs).Checked T (k :: ks) ↔ KindOK T k (.prim v) ∧ fs.Checked T ks := by
  cases k <;> simp [PFields.Checked, KindOK]

theorem checked_cons_sub {t : PTree} {fs : PFields} {k : Kind} {ks : List Kind} :
    (PFields.sub t fs).Checked T (k :: ks) ↔ KindOK T k (.sub t) ∧ t.Checked T ∧ fs.Checked T ks := by
  cases k <;> simp [PFields.Checked, KindOK]

theorem checkVals_iff {s : PState} {τ : List PTree} (hi : Inv T H s τ) : ∀ {ks : List Kind} {vs : List HVal} {fs : PFields},
    AllIs τ (vs.take ks.length) fs → ∀ p, Prf.checkVals T ks vs s = (.ok p, s) ↔ fs.Checked T ks ∧ p = anyPruned s ks vs
  | [], vs, fs, h, p => by
    simp only [List.length_nil, List.take_zero] at h
    cases h
    cases vs <;> simp [Prf.checkVals, HM.pure_apply, PFields.Checked, anyPruned, eq_comm]
  | k :: ks, [], fs, h, p => by
    simp only [List.take_nil] at h
    cases h
    simp [Prf.checkVals, HM.fail_apply, PFields.Checked]
  | k :: ks, v :: vs, fs, h, p => by
    simp only [List.length_cons, List.take_succ_cons] at h
    have main : ∀ (tv : TVal) (fs' : PFields), v.Is τ tv → AllIs τ (vs.take ks.length) fs' →
        (Prf.checkVals T (k :: ks) (v :: vs) s = (.ok p, s) ↔ (KindOK T k tv ∧ fs'.Checked T ks) ∧ p = anyPruned s (k :: ks) (v :: vs)) := by
      intro tv fs' his hfs'
      rw [Prf.checkVals, HM.bind_apply]
      have hst := checkVal_state (T := T) k v s
      have hany : anyPruned s (k :: ks) (v :: vs) = (prunedArg s k v || anyPruned s ks vs) := by
        cases k <;> cases v <;> simp [anyPruned, prunedArg]
      rw [hany]
      rcases hx : Prf.checkVal T k v s with ⟨_ | a, s1⟩
      · simp only [Prod.mk.injEq, reduceCtorEq, false_and, false_iff]
        rintro ⟨⟨hk, _⟩, _⟩
        have := (checkVal_iff hi his _).mpr ⟨hk, rfl⟩
        rw [hx] at this
        cases this
      · rw [hx] at hst
        simp only at hst ⊢
        subst hst
        obtain ⟨hk, ha⟩ := (checkVal_iff hi his a).mp hx
        rw [HM.bind_apply]
        have hst2 := checkVals_state (T := T) ks vs s1
        rcases hy : Prf.checkVals T ks vs s1 with ⟨_ | b, s2⟩
        · simp only [Prod.mk.injEq, reduceCtorEq, false_and, false_iff]
          rintro ⟨⟨_, hc⟩, _⟩
          have := (checkVals_iff hi hfs' _).mpr ⟨hc, rfl⟩
          rw [hy] at this; cases this
        · rw [hy] at hst2
          simp only at hst2 ⊢
          subst hst2
          obtain ⟨hc, hb⟩ := (checkVals_iff hi hfs' b).mp hy
          rw [← ha, ← hb]
          exact pure_iff ⟨hk, hc⟩
    cases h with
    | prim h => rw [main (.prim _) _ rfl h, checked_cons_prim]
    | ref hc h =>
      rw [main (.sub _) _ hc h, checked_cons_sub]
      have := hi.chk _ (List.mem_of_getElem? hc)
      simp [this]

theorem anyPruned_prims {s : PState} : ∀ {ks : List Kind} {vs : List HVal}, (∀ k ∈ ks, ∃ τ, k = .prim τ) → anyPruned s ks vs = false
  | [], _, _ => by simp [anyPruned]
  | k :: ks, [], h => by obtain ⟨τ, rfl⟩ := h k (List.mem_cons_self); simp [anyPruned]
  | k :: ks, v :: vs, h => by
    obtain ⟨τ, rfl⟩ := h k (List.mem_cons_self)
    simp only [anyPruned]
    exact anyPruned_prims (fun k hk => h k (List.mem_cons_of_mem _ hk))

theorem AllIs.length {τ : List PTree} : ∀ {vs : List HVal} {fs : PFields}, AllIs τ vs fs → fs.length = vs.length
  | _, _, .nil => rfl
  | _, _, .prim h => by simp [PFields.length, h.length]
  | _, _, .ref _ h => by simp [PFields.length, h.length]

theorem initClass_inv {s : PState} {τ : List PTree} (hi : Inv T H s τ) (c : Nat) : Inv T H (Prf.initClass c s).2 τ ∧ SerExt s (Prf.initClass c s).2 ∧ c ∈ (Prf.initClass c s).2.inited ∧
    (Prf.initClass c s).2.objs = s.objs := by
  have hsub : ∀ x ∈ s.inited, x ∈ (if c ∈ s.inited then s.inited else c :: s.inited) := by
    intro x hx; split
    · exact hx
    · exact List.mem_cons_of_mem _ hx
  have hself : c ∈ (if c ∈ s.inited then s.inited else c :: s.inited) := by
    split
    · assumption
    · exact List.mem_cons_self
  refine ⟨⟨hi.len, hi.chk, fun r o t ho ht => ?_⟩, ?_, hself, rfl⟩
  · have h := hi.obj r o t ho ht
    exact { h with
      base := fun hb => by
        rcases h.base hb with ⟨fs, h1, h2, h3, h4, h5⟩ | h
        · exact .inl ⟨fs, h1, h2, h3, h4, hsub _ h5⟩
        · exact .inr h
      view := h.view
      fmatch := h.fmatch
      nfp := h.nfp
      dh := h.dh
      hh := h.hh }
  · exact { len := Nat.le_refl _, inited := hsub, obj := (Ext.refl s).obj, fp := (SerExt.refl s).fp, fld := (SerExt.refl s).fld }

theorem new_spec (hT : T.WF) {s : PState} {τ : List PTree} (hi : Inv T H s τ) (c : Nat) {vs : List HVal} {fs : PFields}
    (hfs : AllIs τ (vs.take (T c).attrs.length) fs) :
    HSpec T H SerExt (Prf.new T c vs) s τ (fun res s' τ' =>
      (fs.Checked T (T c).attrs → ∃ r, res = .ok r) ∧
      ∀ r, res = .ok r → r = s.objs.length ∧ τ'[r]? = some (.node c fs) ∧
        ∃ o, s'.objs[r]? = some o ∧ o.orig = none ∧ o.cls = c ∧ o.isPruned = anyPruned s (T c).attrs vs ∧ o.isFullyPruned = false) := by
  obtain ⟨hi0, he0, hc0, hobj0⟩ := initClass_inv hi c
  have hrun : Prf.new T c vs s = (do
      let p ← Prf.checkVals T (T c).attrs vs
      HM.alloc { cls := c, fields := (vs.take (T c).attrs.length).map some, isPruned := p } : HM Nat) (Prf.initClass c s).2 := rfl
  generalize (Prf.initClass c s).2 = s0 at *
  have hany : anyPruned s0 (T c).attrs vs = anyPruned s (T c).attrs vs := by
    have : ∀ ks vs, anyPruned s0 ks vs = anyPruned s ks vs := by
      intro ks
      induction ks with
      | nil => intro vs; cases vs <;> simp [anyPruned]
      | cons k ks ih =>
        intro vs
        cases vs with
        | nil => cases k <;> simp [anyPruned]
        | cons v vs => cases k <;> cases v <;> simp [anyPruned, ih, hobj0]
    exact this _ _
  unfold HSpec
  rw [hrun, HM.bind_apply]
  have hst := checkVals_state (T := T) (T c).attrs vs s0
  rcases hx : Prf.checkVals T (T c).attrs vs s0 with ⟨e | p, s1⟩
  · rw [hx] at hst
    simp only at hst
    subst hst
    refine ⟨[], by simpa using hi0, he0, fun hck => ?_, fun r h => by cases h⟩
    have := (checkVals_iff hi0 hfs _).mpr ⟨hck, rfl⟩
    rw [hx] at this; cases this
  · rw [hx] at hst
    simp only at hst
    subst hst
    obtain ⟨hck, hp⟩ := (checkVals_iff hi0 hfs p).mp hx
    have hlen : (vs.take (T c).attrs.length).length = (T c).attrs.length := by
      rw [← hfs.length, hck.length]
    simp only
    have htake : ∀ (i : Nat) (v : HVal), ((vs.take (T c).attrs.length).map some)[i]? = some (some v) → (vs.take (T c).attrs.length)[i]? = some v := by
      intro i v h
      simp only [List.getElem?_map, Option.map_eq_some_iff, Option.some.injEq] at h
      obtain ⟨w, hw, rfl⟩ := h
      exact hw
    refine ⟨[.node c fs], ?_, ?_, fun _ => ⟨_, rfl⟩, ?_⟩
    · refine hi0.alloc (by simpa [PTree.Checked] using hck) ?_
      exact {
        cls := rfl
        flen := by simp only [List.length_map]; exact hlen
        fmatch := fun i v hv => by
          obtain ⟨tv, h1, h2⟩ := hfs.get i v (htake i v hv)
          exact ⟨tv, h1, h2.mono⟩
        fp := fun h => by simp at h
        nfp := fun _ => ⟨fs, rfl⟩
        base := fun _ => .inl ⟨fs, rfl, rfl, fun i hi' => by
            simp only [List.length_map] at hi'
            refine ⟨_, by rw [List.getElem?_map, List.getElem?_eq_getElem hi']; rfl, fun k hk => ?_⟩
            have : .ref k ∈ vs.take (T c).attrs.length := by rw [← hk]; exact List.getElem_mem _
            have := hfs.ref_lt k this
            rw [hi0.len] at this; exact this, fun htx => by
            simp only at htx
            simp only
            rw [hp, hT c htx]
            exact anyPruned_prims (by simp), hc0⟩
        view := fun q hq => by simp at hq
        dh := fun d h => by simp at h
        hh := fun d h => by simp at h }
    · exact he0.trans (SerExt.alloc _ _)
    · intro r hr
      have hr : s1.objs.length = r := by simpa [HM.alloc] using hr
      rw [hobj0] at hr
      refine ⟨hr.symm, ?_, { cls := c, fields := (vs.take (T c).attrs.length).map some, isPruned := p }, ?_, rfl, rfl, ?_, rfl⟩
      · rw [← hr, ← hi.len]; simp
      · show (s1.objs ++ _)[r]? = _
        rw [← hr, hobj0]; exact List.getElem?_concat_length
      · exact hp.trans hany

/-- Reading from the stream does not touch the heap. -/
theorem read_spec {α} {s : PState} {τ : List PTree} (hi : Inv T H s τ) (p : P α) (b : Bytes) :
    HSpec T H SerExt (HM.read p b) s τ (fun res s' τ' => res = p b ∧ s' = s ∧ τ' = τ) := .noop .refl rfl hi ⟨rfl, rfl, rfl⟩

theorem hashOnly_inv {s : PState} {τ : List PTree} (hi : Inv T H s τ) (c : Nat) {d : Bytes} (hd : d.length = 32) :
    HSpec T H SerExt (HM.alloc { cls := c, fields := List.replicate (T c).attrs.length none, isPruned := true, isFullyPruned := true, dataHash := some d })
      s τ (fun res s' τ' => res = .ok s.objs.length ∧ τ'[s.objs.length]? = some (.pruned c d) ∧
        ∃ o, s'.objs[s.objs.length]? = some o ∧ o.orig = none ∧ o.cls = c ∧ o.isPruned = true ∧ o.isFullyPruned = true) := by
  refine ⟨[.pruned c d], hi.alloc (by simpa [PTree.Checked] using hd) ?_, SerExt.alloc _ _, rfl, ?_, _, List.getElem?_concat_length, rfl, rfl, rfl, rfl⟩
  · exact {
      cls := rfl
      flen := by simp
      fmatch := fun i v hv => by
        rw [List.getElem?_replicate] at hv; split at hv <;> simp at hv
      fp := fun _ i v hv => by
        rw [List.getElem?_replicate] at hv; split at hv <;> simp at hv
      nfp := fun hf => by simp at hf
      base := fun _ => .inr ⟨d, rfl, rfl, rfl, rfl⟩
      view := fun q hq => by simp at hq
      dh := fun d' hd' => by simp only [Option.some.injEq] at hd'; subst hd'; simp [PTree.dataHash]
      hh := fun d hd => by simp at hd }
  · rw [← hi.len]; simp

/-- Deserialization never breaks the heap. -/
theorem deserLoop_inv {df : Nat → Bytes → HM (Nat × Bytes)}
    (hdf : ∀ (s : PState) (τ : List PTree) (c : Nat) (b : Bytes), Inv T H s τ →
      HSpec T H SerExt (df c b) s τ (fun res _ τ' => ∀ r b', res = .ok (r, b') → r < τ'.length)) :
    ∀ (ks : List Kind) (s : PState) (τ : List PTree) (b : Bytes), Inv T H s τ →
      HSpec T H SerExt (Prf.deserLoop df ks b) s τ (fun res _ τ' => ∀ vs b', res = .ok (vs, b') → ∀ c, .ref c ∈ vs → c < τ'.length) := by
  intro ks
  induction ks with
  | nil => intro s τ b hi; exact .noop .refl rfl hi (fun vs b' h c hc => by cases h; simp at hc)
  | cons k ks ih =>
    intro s τ b hi
    have hA : HSpec T H SerExt (Prf.attrDeser df k b) s τ (fun res _ τ' => ∀ v b', res = .ok (v, b') → ∀ c, v = .ref c → c < τ'.length) := by
      cases k with
      | prim τ' =>
        refine HSpec.bind .trans (read_spec hi τ'.deser b) ?_ ?_
        · rintro ⟨v, b1⟩ s1 τ1 hi1 _ _ _
          exact .noop .refl rfl hi1 (fun v b' h c hc => by cases h; cases hc)
        · rintro e s1 τ1 _ _ _ v b' h; cases h
      | proof c =>
        refine HSpec.bind .trans (hdf s τ c b hi) ?_ ?_
        · rintro ⟨r, b1⟩ s1 τ1 hi1 _ _ h
          exact .noop .refl rfl hi1 (fun v b' h' c hc => by cases h'; cases hc; exact h _ _ rfl)
        · rintro e s1 τ1 _ _ _ v b' h; cases h
      | union us =>
        refine HSpec.bind .trans (read_spec hi readVaruint b) ?_ ?_
        · rintro ⟨i, b1⟩ s1 τ1 hi1 _ _ _
          simp only
          cases us[i]? with
          | none => exact .noop .refl rfl hi1 (fun v b' h => by cases h)
          | some u =>
            refine HSpec.bind .trans (hdf s1 τ1 u b1 hi1) ?_ ?_
            · rintro ⟨r, b1⟩ s1 τ1 hi1 _ _ h
              exact .noop .refl rfl hi1 (fun v b' h' c hc => by cases h'; cases hc; exact h _ _ rfl)
            · rintro e s1 τ1 _ _ _ v b' h; cases h
        · rintro e s1 τ1 _ _ _ v b' h; cases h
    refine HSpec.bind .trans hA ?_ ?_
    · rintro ⟨v, b1⟩ s1 τ1 hi1 _ _ hv
      refine HSpec.bind .trans (ih s1 τ1 b1 hi1) ?_ ?_
      · rintro ⟨vs, b2⟩ s2 τ2 hi2 _ ⟨x, rfl⟩ hvs
        refine .noop .refl rfl hi2 (fun ws b' h c hc => ?_)
        cases h
        rcases List.mem_cons.mp hc with h | h
        · have := hv v b1 rfl c h.symm
          rw [List.length_append]; omega
        · exact hvs vs _ rfl c h
      · rintro e s1 τ1 _ _ _ v b' h; cases h
    · rintro e s1 τ1 _ _ _ v b' h; cases h

theorem deserF_inv (hT : T.WF) : ∀ (n : Nat) (s : PState) (τ : List PTree) (c : Nat) (b : Bytes), Inv T H s τ →
    HSpec T H SerExt (Prf.deserF T n c b) s τ (fun res _ τ' => ∀ r b', res = .ok (r, b') → r < τ'.length) := by
  intro n
  induction n with
  | zero => intro s τ c b hi; exact .noop .refl rfl hi (fun r b' h => by cases h)
  | succ n ih =>
    intro s τ c b hi
    rw [Prf.deserF]
    refine HSpec.bind .trans (read_spec hi readBool b) ?_ ?_
    · rintro ⟨pr, b1⟩ s1 τ1 hi1 _ _ _
      cases pr with
      | true =>
        simp only
        refine HSpec.bind .trans (read_spec hi1 (readBytes 32) b1) ?_ ?_
        · rintro ⟨d, b2⟩ s2 τ2 hi2 _ _ ⟨hd, rfl, rfl⟩
          have hdl : d.length = 32 := (fdRead_ok hd.symm).2
          refine HSpec.bind .trans (hashOnly_inv hi2 c hdl) ?_ ?_
          · rintro r s3 τ3 hi3 _ _ ⟨hr, ht, _⟩
            refine .noop .refl rfl hi3 (fun r' b' h => ?_)
            cases h
            cases hr
            exact get_lt ht
          · rintro e s1 τ1 _ _ _ v b' h; cases h
        · rintro e s1 τ1 _ _ _ v b' h; cases h
      | false =>
        simp only
        have hV : HSpec T H SerExt (Prf.variantOf T c b1) s1 τ1 (fun _ _ _ => True) := by
          unfold Prf.variantOf
          cases (T c).variants with
          | none => exact .noop .refl rfl hi1 trivial
          | some us =>
            simp only
            refine HSpec.bind .trans (read_spec hi1 readVaruint b1) ?_ ?_
            · rintro ⟨i, b2⟩ s2 τ2 hi2 _ _ _
              simp only
              cases us[i]? with
              | none => exact .noop .refl rfl hi2 trivial
              | some u => exact .noop .refl rfl hi2 trivial
            · rintro e s1 τ1 _ _ _; trivial
        refine HSpec.bind .trans hV ?_ ?_
        · rintro ⟨u, b2⟩ s2 τ2 hi2 _ _ _
          refine HSpec.bind .trans (deserLoop_inv ih (T u).attrs s2 τ2 b2 hi2) ?_ ?_
          · rintro ⟨vs, b3⟩ s3 τ3 hi3 _ _ hvs
            obtain ⟨fs, hfs⟩ := AllIs.exists (τ := τ3) (vs.take (T u).attrs.length) (fun r hr => hvs vs b3 rfl r (List.mem_of_mem_take hr))
            refine HSpec.bind .trans (new_spec hT hi3 u hfs) ?_ ?_
            · rintro r s4 τ4 hi4 _ _ ⟨_, h⟩
              refine .noop .refl rfl hi4 (fun r' b' h' => ?_)
              cases h'
              exact get_lt (h r rfl).2.1
            · rintro e s1 τ1 _ _ _ v b' h; cases h
          · rintro e s1 τ1 _ _ _ v b' h; cases h
        · rintro e s1 τ1 _ _ _ v b' h; cases h
    · rintro e s1 τ1 _ _ _ v b' h; cases h

end Verif
