import Verif.Lemmas.ProofDeser
/-! Reachable heaps, what objects represent, running computations, and reading back what was written. -/
namespace Verif
set_option linter.unusedSectionVars false
variable {T : Table} {H : HashFns}

/-! ### Reachable states satisfy the invariant -/

theorem HM.obj_none {s : PState} {r : Nat} (h : s.objs[r]? = none) : HM.obj r s = (.error .other, s) := by
  unfold HM.obj; rw [h]
theorem HM.bind_obj_none {α} {s : PState} {r : Nat} (h : s.objs[r]? = none) (f : Obj → HM α) :
    (HM.obj r >>= f) s = (.error .other, s) := by
  rw [HM.bind_apply, HM.obj_none h]

theorem HSpec.toExists {α} {R : PState → PState → Prop} {f : HM α} {s : PState} {τ : List PTree}
    {Q : Py α → PState → List PTree → Prop} (h : HSpec T H R f s τ Q) (hR : ∀ s', R s s' → Ext s s') :
    ∃ τ', Inv T H (f s).2 (τ ++ τ') ∧ Ext s (f s).2 := by
  obtain ⟨τ', h1, h2, _⟩ := h
  exact ⟨τ', h1, hR _ h2⟩

theorem Step.inv (hT : T.WF) {s s' : PState} {τ : List PTree} (hi : Inv T H s τ) (h : Step T H s s') :
    ∃ τ', Inv T H s' (τ ++ τ') ∧ Ext s s' := by
  have hnoop : ∀ {α} {f : HM α} {e}, f s = (.error e, s) → ∃ τ', Inv T H (f s).2 (τ ++ τ') ∧ Ext s (f s).2 := by
    intro α f e h
    rw [h]
    exact ⟨[], by simpa using hi, .refl s⟩
  have hobj : ∀ r : Nat, (∃ o, s.objs[r]? = some o) ∨ s.objs[r]? = none := by
    intro r; cases s.objs[r]? <;> simp
  cases h with
  | new c vs hv =>
    obtain ⟨fs, hfs⟩ := AllIs.exists (τ := τ) (vs.take (T c).attrs.length) (fun r hr => by
      rw [hi.len]; exact hv r (List.mem_of_mem_take hr))
    exact (new_spec hT hi c hfs).toExists (fun _ h => h.toExt)
  | prune r =>
    rcases hobj r with ⟨o, ho⟩ | hn
    · obtain ⟨t, ht, _⟩ := hi.some_tree ho
      exact (prune_spec hi ht).toExists (fun _ h => h.1.toExt)
    · exact hnoop (HM.bind_obj_none hn _)
  | getAttr r i =>
    rcases hobj r with ⟨o, ho⟩ | hn
    · obtain ⟨t, ht, _⟩ := hi.some_tree ho
      exact (getAttr_spec hi ht i).toExists (fun _ h => h.1)
    · refine hnoop (e := .other) ?_
      show Prf.getAttrF T (s.objs.length + 1) r i s = _
      rw [Prf.getAttrF]; exact HM.bind_obj_none hn _
  | dataHash r =>
    rcases hobj r with ⟨o, ho⟩ | hn
    · obtain ⟨t, ht, _⟩ := hi.some_tree ho
      exact (dataHash_spec hT hi ht).toExists (fun _ h => h.1.toExt)
    · refine hnoop (e := .other) ?_
      show Prf.dataHashF T H (2 * s.objs.length + 2) r s = _
      rw [Prf.dataHashF]; exact HM.bind_obj_none hn _
  | hash r =>
    rcases hobj r with ⟨o, ho⟩ | hn
    · obtain ⟨t, ht, _⟩ := hi.some_tree ho
      exact (hash_spec hT hi ht).toExists (fun _ h => h.1.toExt)
    · refine hnoop (e := .other) ?_
      show Prf.hashF T H (2 * s.objs.length + 2) r s = _
      rw [Prf.hashF]; exact HM.bind_obj_none hn _
  | serialize r =>
    rcases hobj r with ⟨o, ho⟩ | hn
    · obtain ⟨t, ht, _⟩ := hi.some_tree ho
      exact (serialize_spec hT hi ht).toExists (fun _ h => h.1.toExt)
    · refine hnoop (e := .other) ?_
      show Prf.serF T H (s.objs.length + 1) r s = _
      rw [Prf.serF]; exact HM.bind_obj_none hn _
  | deserialize c b =>
    have : HSpec T H SerExt (Prf.deserialize T c b) s τ (fun _ _ _ => True) := by
      refine HSpec.bind .trans (deserF_inv hT _ s τ c b hi) ?_ ?_
      · rintro ⟨r, b'⟩ s1 τ1 hi1 _ _ _
        exact .noop .refl rfl hi1 trivial
      · rintro e s1 τ1 _ _ _; trivial
    exact this.toExists (fun _ h => h.toExt)

theorem Steps.inv (hT : T.WF) {s s' : PState} {τ : List PTree} (hi : Inv T H s τ) (h : Steps T H s s') :
    ∃ τ', Inv T H s' (τ ++ τ') ∧ Ext s s' := by
  induction h with
  | refl => exact ⟨[], by simpa using hi, .refl _⟩
  | tail _ hs ih =>
    obtain ⟨τ1, h1, e1⟩ := ih
    obtain ⟨τ2, h2, e2⟩ := hs.inv hT h1
    exact ⟨τ1 ++ τ2, by rw [← List.append_assoc]; exact h2, e1.trans e2⟩

theorem Inv.empty : Inv T H {} [] where
  len := rfl
  chk := by simp
  obj r o t h := by simp at h

theorem Reachable.inv (hT : T.WF) {s : PState} (h : Reachable T H s) : ∃ τ, Inv T H s τ := by
  obtain ⟨τ, h, _⟩ := Steps.inv hT Inv.empty h
  exact ⟨_, h⟩

/-! ### What objects represent -/

theorem RepFields.of_get {s : PState} {τ : List PTree} : ∀ (os : List (Option HVal)) (fs : PFields), fs.length = os.length →
    (∀ i v, os[i]? = some v → ∃ w tv, v = some w ∧ fs.get? i = some tv ∧ w.Is τ tv) →
    (∀ c t, .some (.ref c) ∈ os → τ[c]? = some t → Represents s c t) → RepFields s os fs
  | [], .nil, _, _, _ => .nil
  | [], .prim _ _, h, _, _ => by simp [PFields.length] at h
  | [], .sub _ _, h, _, _ => by simp [PFields.length] at h
  | _ :: _, .nil, h, _, _ => by simp [PFields.length] at h
  | o :: os, .prim v fs, hl, hg, hr => by
    obtain ⟨w, tv, rfl, htv, his⟩ := hg 0 o rfl
    cases htv
    cases w with
    | ref c => exact his.elim
    | prim x =>
      have : x = v := his
      subst this
      exact .prim (RepFields.of_get os fs (by simpa [PFields.length] using hl) (fun i v hv => hg (i + 1) v hv)
        (fun c t hc => hr c t (List.mem_cons_of_mem _ hc)))
  | o :: os, .sub t fs, hl, hg, hr => by
    obtain ⟨w, tv, rfl, htv, his⟩ := hg 0 o rfl
    cases htv
    cases w with
    | prim c => exact his.elim
    | ref c =>
      exact .sub (hr c t (List.mem_cons_self) his) (RepFields.of_get os fs (by simpa [PFields.length] using hl) (fun i v hv => hg (i + 1) v hv)
        (fun c t hc => hr c t (List.mem_cons_of_mem _ hc)))

theorem Inv.represents {s : PState} {τ : List PTree} (hi : Inv T H s τ) : ∀ (r : Nat) (t : PTree), τ[r]? = some t → Represents s r t := by
  intro r
  induction r using Nat.strongRecOn with
  | _ r ih =>
    intro t ht
    obtain ⟨o, ho, hok⟩ := hi.some_obj ht
    cases horig : o.orig with
    | some q =>
      obtain ⟨hqr, hq, _⟩ := hok.view q horig
      exact .view ho horig (ih q hqr t hq)
    | none =>
      rcases hok.base horig with ⟨fs, hfs, hf, hall, _⟩ | ⟨d, hd, hf, _, hdh⟩
      · subst hfs
        have hck := hi.chk _ (List.mem_of_getElem? ht)
        simp only [PTree.Checked] at hck
        refine .node ho horig hf (RepFields.of_get (τ := τ) _ _ (by rw [hck.length, hok.flen]) ?_ ?_)
        · intro i v hv
          obtain ⟨w, hw, _⟩ := hall i (get_lt hv)
          rw [hv] at hw; cases hw
          obtain ⟨tv, h1, h2⟩ := hok.fmatch i w hv
          exact ⟨w, tv, rfl, h1, h2⟩
        · intro c t' hc hct
          obtain ⟨i, hlt, hi'⟩ := List.mem_iff_getElem.mp hc
          obtain ⟨w, hw, hwc⟩ := hall i hlt
          rw [List.getElem?_eq_getElem hlt, hi'] at hw
          cases hw
          exact ih c (hwc c rfl) t' hct
      · subst hd
        exact .hashOnly ho horig hf hdh

mutual
theorem Inv.of_represents {s : PState} {τ : List PTree} (hi : Inv T H s τ) {r : Nat} {t : PTree} : Represents s r t → τ[r]? = some t
  | .node ho horig hf hfs => by
    obtain ⟨t', ht', hok⟩ := hi.some_tree ho
    rcases hok.base horig with ⟨fs', hfs', hf', hall, _⟩ | ⟨d, hd, hf', _, hdh⟩
    · subst hfs'
      rw [ht']
      have hck := hi.chk _ (List.mem_of_getElem? ht')
      simp only [PTree.Checked] at hck
      have := Inv.of_repFields hi hfs (by rw [hck.length, hok.flen]) hok.fmatch
      rw [this]
    · rw [hf] at hf'; cases hf'
  | .hashOnly ho horig hf hd => by
    obtain ⟨t', ht', hok⟩ := hi.some_tree ho
    rcases hok.base horig with ⟨fs', hfs', hf', hall, _⟩ | ⟨d', hd', hf', _, hdh⟩
    · rw [hf] at hf'; cases hf'
    · rw [hd] at hdh; cases hdh; rw [ht', hd']
  | .view ho horig hq => by
    obtain ⟨t', ht', hok⟩ := hi.some_tree ho
    obtain ⟨hqr, hq', _⟩ := hok.view _ horig
    have := Inv.of_represents hi hq
    rw [this] at hq'
    cases hq'
    exact ht'
theorem Inv.of_repFields {s : PState} {τ : List PTree} (hi : Inv T H s τ) {os : List (Option HVal)} {fs fs' : PFields} : RepFields s os fs →
    fs'.length = os.length → (∀ (i : Nat) (v : HVal), os[i]? = some (some v) → ∃ tv, fs'.get? i = some tv ∧ v.Is τ tv) → fs' = fs
  | .nil, hl, _ => by cases fs' <;> simp [PFields.length] at hl; rfl
  | .prim (v := v) (vs := vs) h, hl, hm => by
    obtain ⟨tv, htv, his⟩ := hm 0 (.prim v) rfl
    cases fs' with
    | nil => simp [PFields.length] at hl
    | sub t fs' => simp only [PFields.get?, Option.some.injEq] at htv; subst htv; exact his.elim
    | prim w fs' =>
      simp only [PFields.get?, Option.some.injEq] at htv
      subst htv
      have : v = w := his
      subst this
      rw [Inv.of_repFields hi h (by simpa [PFields.length] using hl) (fun i v hv => hm (i + 1) v hv)]
  | .sub (r := c) (t := t0) (vs := vs) hr h, hl, hm => by
    obtain ⟨tv, htv, his⟩ := hm 0 (.ref c) rfl
    cases fs' with
    | nil => simp [PFields.length] at hl
    | prim w fs' => simp only [PFields.get?, Option.some.injEq] at htv; subst htv; exact his.elim
    | sub t fs' =>
      simp only [PFields.get?, Option.some.injEq] at htv
      subst htv
      have h1 : τ[c]? = some t := his
      have h2 := Inv.of_represents hi hr
      rw [h1] at h2
      cases h2
      rw [Inv.of_repFields hi h (by simpa [PFields.length] using hl) (fun i v hv => hm (i + 1) v hv)]
end

/-! ### Computations -/

theorem walk_spec : ∀ (π : List Nat) (s : PState) (τ : List PTree) (v : HVal) (tv : TVal), Inv T H s τ → v.Is τ tv →
    HSpec T H ExtI (Prog.walk T v π) s τ (fun res _ τ' =>
      (∀ e, tv.walk T s.inited π = .error e → res = .error e) ∧
      (∀ tv', tv.walk T s.inited π = .ok tv' → ∃ v', res = .ok v' ∧ v'.Is τ' tv')) := by
  intro π
  induction π with
  | nil =>
    intro s τ v tv hi his
    refine .noop .refl rfl hi ⟨fun e h => by simp [TVal.walk] at h, fun tv' h => ?_⟩
    simp only [TVal.walk, Except.ok.injEq] at h
    subst h
    exact ⟨v, rfl, his⟩
  | cons i π ih =>
    intro s τ v tv hi his
    cases v with
    | prim w =>
      cases tv with
      | sub _ => exact his.elim
      | prim w' =>
        refine .noop .refl rfl hi ⟨fun e h => ?_, fun tv' h => ?_⟩
        · simp only [TVal.walk, Except.error.injEq] at h; rw [← h]
        · simp [TVal.walk] at h
    | ref r =>
      cases tv with
      | prim _ => exact his.elim
      | sub t =>
        have hr : τ[r]? = some t := his
        simp only [Prog.walk, TVal.walk]
        refine HSpec.bind .trans (getAttr_spec hi hr i) ?_ ?_
        · rintro w s1 τ1 hi1 hr1 _ ⟨herr, hok, _⟩
          cases hta : t.attr T s.inited i with
          | error e => exact absurd (herr e hta) (by simp)
          | ok tv1 =>
            obtain ⟨v1, hv1, his1, _⟩ := hok tv1 hta
            cases hv1
            have := ih s1 τ1 w tv1 hi1 his1
            rw [hr1.2] at this
            exact this
        · rintro e s1 τ1 hi1 hr1 ⟨herr, hok, _⟩
          cases hta : t.attr T s.inited i with
          | error e' =>
            have := herr e' hta
            cases this
            exact ⟨fun e' h => by cases h; rfl, fun tv' h => by cases h⟩
          | ok tv1 =>
            obtain ⟨v1, hv1, _⟩ := hok tv1 hta
            cases hv1

theorem run_spec (hT : T.WF) {α} : ∀ (p : Prog α) (s : PState) (τ : List PTree) (r : Nat) (t : PTree), Inv T H s τ → τ[r]? = some t →
    HSpec T H ExtI (p.run T H r) s τ (fun res _ _ => res = p.eval T H s.inited t) := by
  intro p
  induction p with
  | ret a => intro s τ r t hi ht; exact .noop .refl rfl hi rfl
  | read π k ih =>
    intro s τ r t hi ht
    rw [Prog.run, Prog.eval]
    refine HSpec.bind .trans (walk_spec π s τ (.ref r) (.sub t) hi ht) ?_ ?_
    · rintro v s1 τ1 hi1 hr1 ⟨x, rfl⟩ ⟨herr, hok⟩
      cases hw : (TVal.sub t).walk T s.inited π with
      | error e => exact absurd (herr e hw) (by simp)
      | ok tv =>
        obtain ⟨v', hv', his⟩ := hok tv hw
        cases hv'
        rw [Except.bind_ok]
        cases v with
        | prim w =>
          cases tv with
          | sub _ => exact his.elim
          | prim w' =>
            have : w = w' := his
            subst this
            rw [← hr1.2]
            exact ih _ s1 _ r t hi1 (append_get ht)
        | ref q =>
          cases tv with
          | prim _ => exact his.elim
          | sub t' =>
            rw [← hr1.2]
            exact ih _ s1 _ r t hi1 (append_get ht)
    · rintro e s1 τ1 hi1 hr1 ⟨herr, hok⟩
      cases hw : (TVal.sub t).walk T s.inited π with
      | error e' => have := herr e' hw; cases this; rfl
      | ok tv => obtain ⟨v', hv', _⟩ := hok tv hw; cases hv'
  | cls π k ih =>
    intro s τ r t hi ht
    rw [Prog.run, Prog.eval]
    refine HSpec.bind .trans (walk_spec π s τ (.ref r) (.sub t) hi ht) ?_ ?_
    · rintro v s1 τ1 hi1 hr1 ⟨x, rfl⟩ ⟨herr, hok⟩
      cases hw : (TVal.sub t).walk T s.inited π with
      | error e => exact absurd (herr e hw) (by simp)
      | ok tv =>
        obtain ⟨v', hv', his⟩ := hok tv hw
        cases hv'
        rw [Except.bind_ok]
        cases v with
        | prim w =>
          cases tv with
          | sub _ => exact his.elim
          | prim _ => exact .noop .refl rfl hi1 rfl
        | ref q =>
          cases tv with
          | prim _ => exact his.elim
          | sub t' =>
            obtain ⟨o, ho, hok'⟩ := hi1.some_obj (show (τ ++ x)[q]? = some t' from his)
            refine HSpec.congr (y := (k o.cls).run T H r) ?_ ?_
            · show (HM.obj q >>= fun o => (k o.cls).run T H r) s1 = _
              rw [HM.bind_obj ho]
            · simp only [TVal.asProof, Except.bind_ok]
              rw [hok'.cls, ← hr1.2]
              exact ih _ s1 _ r t hi1 (append_get ht)
    · rintro e s1 τ1 hi1 hr1 ⟨herr, hok⟩
      cases hw : (TVal.sub t).walk T s.inited π with
      | error e' => have := herr e' hw; cases this; rfl
      | ok tv => obtain ⟨v', hv', _⟩ := hok tv hw; cases hv'
  | hash π k ih =>
    intro s τ r t hi ht
    rw [Prog.run, Prog.eval]
    refine HSpec.bind .trans (walk_spec π s τ (.ref r) (.sub t) hi ht) ?_ ?_
    · rintro v s1 τ1 hi1 hr1 ⟨x, rfl⟩ ⟨herr, hok⟩
      cases hw : (TVal.sub t).walk T s.inited π with
      | error e => exact absurd (herr e hw) (by simp)
      | ok tv =>
        obtain ⟨v', hv', his⟩ := hok tv hw
        cases hv'
        rw [Except.bind_ok]
        cases v with
        | prim w =>
          cases tv with
          | sub _ => exact his.elim
          | prim _ => exact .noop .refl rfl hi1 rfl
        | ref q =>
          cases tv with
          | prim _ => exact his.elim
          | sub t' =>
            refine HSpec.congr (y := do let h ← Prf.hash T H q; (k h).run T H r) rfl ?_
            simp only [TVal.asProof, Except.bind_ok]
            refine HSpec.bind .trans ((hash_spec hT hi1 (show (τ ++ x)[q]? = some t' from his)).mono (fun _ h => h.toExtI) (fun _ _ _ _ _ h => h)) ?_ ?_
            · rintro h s2 τ2 hi2 hr2 ⟨y, rfl⟩ hh
              rw [← hh, Except.bind_ok, ← hr1.2, ← hr2.2]
              exact ih _ s2 _ r t hi2 (append_get (append_get ht))
            · rintro e s2 τ2 hi2 hr2 hh
              rw [← hh]; rfl
    · rintro e s1 τ1 hi1 hr1 ⟨herr, hok⟩
      cases hw : (TVal.sub t).walk T s.inited π with
      | error e' => have := herr e' hw; cases this; rfl
      | ok tv => obtain ⟨v', hv', _⟩ := hok tv hw; cases hv'
  | dataHash π k ih =>
    intro s τ r t hi ht
    rw [Prog.run, Prog.eval]
    refine HSpec.bind .trans (walk_spec π s τ (.ref r) (.sub t) hi ht) ?_ ?_
    · rintro v s1 τ1 hi1 hr1 ⟨x, rfl⟩ ⟨herr, hok⟩
      cases hw : (TVal.sub t).walk T s.inited π with
      | error e => exact absurd (herr e hw) (by simp)
      | ok tv =>
        obtain ⟨v', hv', his⟩ := hok tv hw
        cases hv'
        rw [Except.bind_ok]
        cases v with
        | prim w =>
          cases tv with
          | sub _ => exact his.elim
          | prim _ => exact .noop .refl rfl hi1 rfl
        | ref q =>
          cases tv with
          | prim _ => exact his.elim
          | sub t' =>
            refine HSpec.congr (y := do let h ← Prf.dataHash T H q; (k h).run T H r) rfl ?_
            simp only [TVal.asProof, Except.bind_ok]
            refine HSpec.bind .trans ((dataHash_spec hT hi1 (show (τ ++ x)[q]? = some t' from his)).mono (fun _ h => h.toExtI) (fun _ _ _ _ _ h => h)) ?_ ?_
            · rintro h s2 τ2 hi2 hr2 ⟨y, rfl⟩ hh
              rw [← hh, Except.bind_ok, ← hr1.2, ← hr2.2]
              exact ih _ s2 _ r t hi2 (append_get (append_get ht))
            · rintro e s2 τ2 hi2 hr2 hh
              rw [← hh]; rfl
    · rintro e s1 τ1 hi1 hr1 ⟨herr, hok⟩
      cases hw : (TVal.sub t).walk T s.inited π with
      | error e' => have := herr e' hw; cases this; rfl
      | ok tv => obtain ⟨v', hv', _⟩ := hok tv hw; cases hv'

/-! ### Reading back -/

theorem unionIndex_any {us : List Nat} {c i : Nat} (h : Prf.unionIndex T us c = .ok i) : us.any (T.isInst c) = true := by
  unfold Prf.unionIndex at h
  split at h
  · rename_i j hj
    obtain ⟨hlt, hp, _⟩ := List.findIdx?_eq_some_iff_getElem.mp hj
    exact List.any_eq_true.mpr ⟨us[j], List.getElem_mem hlt, hp⟩
  · cases h

/-- The number the model writes is the first. -/
theorem Table.First.unionIndex {us : List Nat} {c i : Nat} (h : T.First us c i) : Prf.unionIndex T us c = .ok i := by
  obtain ⟨h1, h2⟩ := h
  have h3 : us.findIdx? (T.isInst c) = some i := by
    cases hu : us[i]? with
    | none => rw [hu] at h1; cases h1
    | some u =>
      rw [hu] at h1
      obtain ⟨hlt, hui⟩ := List.getElem?_eq_some_iff.mp hu
      refine List.findIdx?_eq_some_iff_getElem.mpr ⟨hlt, by rw [hui]; exact h1, fun j hj => ?_⟩
      have := h2 j hj
      rw [List.getElem?_eq_getElem (by omega)] at this
      simpa using this
  rw [Prf.unionIndex, h3]

mutual
theorem PTree.WellTyped.checked : ∀ {t : PTree} {c : Nat}, t.WellTyped T c → t.Checked T
  | .node c' fs, c, h => by
    rw [PTree.WellTyped] at h
    rw [PTree.Checked]
    exact PFields.WellTyped.checked h.2
  | .pruned c' d, c, h => by
    rw [PTree.WellTyped] at h
    rw [PTree.Checked]; exact h.2
theorem PFields.WellTyped.checked : ∀ {fs : PFields} {ks : List Kind}, fs.WellTyped T ks → fs.Checked T ks
  | .nil, [], _ => by simp [PFields.Checked]
  | .prim v fs, .prim τ :: ks, h => by
    rw [PFields.WellTyped] at h
    rw [PFields.Checked]
    exact ⟨h.1.1, h.2.checked⟩
  | .sub t fs, .proof c :: ks, h => by
    rw [PFields.WellTyped] at h
    rw [checked_cons_sub]
    exact ⟨h.1.2, h.1.1.checked, h.2.checked⟩
  | .sub t fs, .union us :: ks, h => by
    rw [PFields.WellTyped] at h
    obtain ⟨⟨i, u, _, hx, ht⟩, hfs⟩ := h
    rw [checked_cons_sub]
    exact ⟨unionIndex_any hx.unionIndex, ht.checked, hfs.checked⟩
  | .nil, _ :: _, h => by simp [PFields.WellTyped] at h
  | .prim _ _, [], h => by simp [PFields.WellTyped] at h
  | .sub _ _, [], h => by simp [PFields.WellTyped] at h
  | .prim _ _, .proof _ :: _, h => by simp [PFields.WellTyped] at h
  | .prim _ _, .union _ :: _, h => by simp [PFields.WellTyped] at h
  | .sub _ _, .prim _ :: _, h => by simp [PFields.WellTyped] at h
end

/-- `is_fully_pruned` of a deserialized proof. -/
def PTree.isPruned : PTree → Bool
  | .node _ _ => false
  | .pruned _ _ => true

/-- A freshly deserialized object standing for `t`. -/
def Fresh (T : Table) (s : PState) (τ : List PTree) (r : Nat) (t : PTree) : Prop :=
  τ[r]? = some t ∧ ∃ o, s.objs[r]? = some o ∧ o.orig = none ∧ o.isPruned = t.prunedFlag T ∧ o.isFullyPruned = t.isPruned

theorem anyPruned_ext {s s' : PState} {τ : List PTree} (hi : Inv T H s τ) (he : Ext s s') : ∀ {ks : List Kind} {vs : List HVal}, (∀ c, .ref c ∈ vs → c < τ.length) →
    anyPruned s' ks vs = anyPruned s ks vs
  | [], vs, _ => by cases vs <;> simp [anyPruned]
  | k :: ks, [], _ => by cases k <;> simp [anyPruned]
  | k :: ks, v :: vs, h => by
    have ih := anyPruned_ext hi he (ks := ks) (vs := vs) (fun c hc => h c (List.mem_cons_of_mem _ hc))
    cases k <;> cases v <;> simp only [anyPruned, ih]
    rename_i r
    have := h r (List.mem_cons_self)
    rw [hi.len] at this
    obtain ⟨o', ho', _, _, hp, _⟩ := he.obj r _ (List.getElem?_eq_getElem this)
    rw [ho', List.getElem?_eq_getElem this]
    simp [hp]

theorem deserLoop_rt {df : Nat → Bytes → HM (Nat × Bytes)} {m : Nat}
    (hdf : ∀ (s : PState) (τ : List PTree) (c : Nat) (t : PTree) (b rest : Bytes), Inv T H s τ → t.WellTyped T c → t.enc T = .ok b → t.depth ≤ m →
      HSpec T H SerExt (df c (b ++ rest)) s τ (fun res s' τ' => ∃ r, res = .ok (r, rest) ∧ Fresh T s' τ' r t)) :
    ∀ (ks : List Kind) (fs : PFields) (s : PState) (τ : List PTree) (b rest : Bytes), Inv T H s τ → fs.WellTyped T ks → fs.enc T ks = .ok b → fs.depth ≤ m →
      HSpec T H SerExt (Prf.deserLoop df ks (b ++ rest)) s τ (fun res s' τ' => ∃ vs, res = .ok (vs, rest) ∧ AllIs τ' vs fs ∧
        anyPruned s' ks vs = fs.prunedFlag T ks) := by
  intro ks
  induction ks with
  | nil =>
    intro fs s τ b rest hi hw he _
    cases fs with
    | nil =>
      simp only [PFields.enc, Except.ok.injEq] at he
      subst he
      exact .noop .refl rfl hi ⟨[], rfl, .nil, by simp [anyPruned, PFields.prunedFlag]⟩
    | prim _ _ => simp [PFields.WellTyped] at hw
    | sub _ _ => simp [PFields.WellTyped] at hw
  | cons k ks ih =>
    intro fs s τ b rest hi hw he hd
    rw [Prf.deserLoop]
    cases fs with
    | nil => simp [PFields.WellTyped] at hw
    | prim v fs =>
      cases k with
      | proof c => simp [PFields.WellTyped] at hw
      | union us => simp [PFields.WellTyped] at hw
      | prim τ' =>
        rw [PFields.WellTyped] at hw
        rw [PFields.enc_prim] at he
        obtain ⟨a, ha, he⟩ := Except.bind_eq_ok he
        obtain ⟨x, hx, he⟩ := Except.bind_eq_ok he
        cases he
        have hread := (RT.prim hw.1.1 ha hw.1.2.1).reads (x ++ rest)
        rw [PFields.depth] at hd
        have hA : HSpec T H SerExt (Prf.attrDeser df (.prim τ') (a ++ x ++ rest)) s τ (fun res s' τ1 => res = .ok (.prim v, x ++ rest)) := by
          refine .noop .refl ?_ hi rfl
          rw [Prf.attrDeser, HM.bind_apply]
          unfold HM.read
          rw [List.append_assoc, hread]; rfl
        refine HSpec.bind .trans hA ?_ ?_
        · rintro ⟨v1, b1⟩ s1 τ1 hi1 _ _ hv1
          cases hv1
          refine HSpec.bind .trans (ih fs s1 τ1 x rest hi1 hw.2 hx hd) ?_ ?_
          · rintro ⟨vs, b2⟩ s2 τ2 hi2 _ _ ⟨vs', hvs, hall, hp⟩
            cases hvs
            refine .noop .refl rfl hi2 ⟨_, rfl, .prim hall, ?_⟩
            simp [anyPruned, PFields.prunedFlag, hp]
          · rintro e s2 τ2 _ _ ⟨vs', hvs, _⟩; cases hvs
        · rintro e s1 τ1 _ _ h; cases h
    | sub t fs =>
      rw [PFields.depth] at hd
      rw [PFields.enc_sub] at he
      obtain ⟨a, ha, he⟩ := Except.bind_eq_ok he
      obtain ⟨x, hx, he⟩ := Except.bind_eq_ok he
      cases he
      have hA : HSpec T H SerExt (Prf.attrDeser df k (a ++ x ++ rest)) s τ (fun res s' τ1 => ∃ r, res = .ok (.ref r, x ++ rest) ∧ Fresh T s' τ1 r t) := by
        cases k with
        | prim τ' => simp [PFields.WellTyped] at hw
        | proof c =>
          rw [PFields.WellTyped] at hw
          rw [Prf.attrDeser]
          have ha : t.enc T = .ok a := ha
          rw [List.append_assoc]
          refine HSpec.bind .trans (hdf s τ c t a (x ++ rest) hi hw.1.1 ha (by omega)) ?_ ?_
          · rintro ⟨r, b1⟩ s1 τ1 hi1 _ _ ⟨r', hr', hf⟩
            cases hr'
            exact .noop .refl rfl hi1 ⟨_, rfl, hf⟩
          · rintro e s1 τ1 _ _ ⟨r', hr', _⟩; cases hr'
        | union us =>
          rw [PFields.WellTyped] at hw
          obtain ⟨⟨i, u, hu, hidx, htw⟩, _⟩ := hw
          have hidx := hidx.unionIndex
          simp only [TVal.enc] at ha
          obtain ⟨j, hj, ha⟩ := Except.bind_eq_ok ha
          obtain ⟨y, hy, ha⟩ := Except.bind_eq_ok ha
          rw [hidx] at hj
          cases hj
          cases ha
          rw [Prf.attrDeser]
          refine HSpec.bind .trans (read_spec hi readVaruint _) ?_ ?_
          · rintro ⟨i', b1⟩ s1 τ1 hi1 _ _ ⟨hrd, rfl, rfl⟩
            rw [List.append_assoc, List.append_assoc, readVaruint_write] at hrd
            cases hrd
            simp only [hu]
            refine HSpec.bind .trans (hdf s1 τ1 u t y (x ++ rest) hi1 htw hy (by omega)) ?_ ?_
            · rintro ⟨r, b1⟩ s2 τ2 hi2 _ _ ⟨r', hr', hf⟩
              cases hr'
              exact .noop .refl rfl hi2 ⟨_, rfl, hf⟩
            · rintro e s1 τ1 _ _ ⟨r', hr', _⟩; cases hr'
          · rintro e s1 τ1 _ _ ⟨hrd, _⟩
            rw [List.append_assoc, List.append_assoc, readVaruint_write] at hrd
            cases hrd
      have hws : fs.WellTyped T ks := by
        cases k with
        | prim τ' => simp [PFields.WellTyped] at hw
        | proof c => rw [PFields.WellTyped] at hw; exact hw.2
        | union us => rw [PFields.WellTyped] at hw; exact hw.2
      refine HSpec.bind .trans hA ?_ ?_
      · rintro ⟨v1, b1⟩ s1 τ1 hi1 _ _ ⟨r, hr, hf⟩
        cases hr
        refine HSpec.bind .trans (ih fs s1 τ1 x rest hi1 hws hx (by omega)) ?_ ?_
        · rintro ⟨vs, b2⟩ s2 τ2 hi2 he2 ⟨z, rfl⟩ ⟨vs', hvs, hall, hp⟩
          cases hvs
          obtain ⟨hτr, o, ho, _, hpf, _⟩ := hf
          refine .noop .refl rfl hi2 ⟨_, rfl, .ref (append_get hτr) hall, ?_⟩
          obtain ⟨o', ho', _, _, hp', _⟩ := he2.obj r o ho
          cases k with
          | prim τ' => simp [PFields.WellTyped] at hw
          | proof c => simp [anyPruned, PFields.prunedFlag, hp, ho', hp', hpf]
          | union us => simp [anyPruned, PFields.prunedFlag, hp]
        · rintro e s2 τ2 _ _ ⟨vs', hvs, _⟩; cases hvs
      · rintro e s1 τ1 _ _ ⟨r, h, _⟩; cases h

theorem deserF_rt (hT : T.WF) : ∀ (n : Nat) (s : PState) (τ : List PTree) (c : Nat) (t : PTree) (b rest : Bytes), Inv T H s τ → t.WellTyped T c →
    t.enc T = .ok b → t.depth ≤ n →
    HSpec T H SerExt (Prf.deserF T n c (b ++ rest)) s τ (fun res s' τ' => ∃ r, res = .ok (r, rest) ∧ Fresh T s' τ' r t) := by
  intro n
  induction n with
  | zero => intro s τ c t b rest _ _ _ h; cases t <;> simp [PTree.depth] at h
  | succ n ih =>
    intro s τ c t b rest hi hw he hd
    rw [Prf.deserF]
    cases t with
    | pruned c' d =>
      rw [PTree.WellTyped] at hw
      obtain ⟨rfl, hdl⟩ := hw
      simp only [PTree.enc, Except.ok.injEq] at he
      subst he
      refine HSpec.bind .trans (read_spec hi readBool _) ?_ ?_
      · rintro ⟨pr, b1⟩ s1 τ1 hi1 _ _ ⟨hrd, rfl, rfl⟩
        have := readBool_write true (d ++ rest)
        change _ = readBool (writeBool true ++ (d ++ rest)) at hrd
        rw [this] at hrd
        cases hrd
        simp only
        refine HSpec.bind .trans (read_spec hi1 (readBytes 32) _) ?_ ?_
        · rintro ⟨d', b2⟩ s2 τ2 hi2 _ _ ⟨hrd, rfl, rfl⟩
          rw [readBytes, fdRead_append hdl] at hrd
          cases hrd
          refine HSpec.bind .trans (hashOnly_inv hi2 c' hdl) ?_ ?_
          · rintro r s3 τ3 hi3 _ _ ⟨hr, ht, o, ho, h1, h2, h3, h4⟩
            cases hr
            refine .noop .refl rfl hi3 ⟨_, rfl, ht, o, ho, h1, ?_, ?_⟩
            · rw [h3, PTree.prunedFlag]
            · rw [h4, PTree.isPruned]
          · rintro e s1 τ1 _ _ ⟨h, _⟩; cases h
        · rintro e s1 τ1 _ _ ⟨h, _⟩
          rw [readBytes, fdRead_append hdl] at h; cases h
      · rintro e s1 τ1 _ _ ⟨hrd, _⟩
        have := readBool_write true (d ++ rest)
        change _ = readBool (writeBool true ++ (d ++ rest)) at hrd
        rw [this] at hrd
        cases hrd
    | node c' fs =>
      rw [PTree.depth] at hd
      rw [PTree.WellTyped] at hw
      rw [PTree.enc] at he
      obtain ⟨vb, hvb, he⟩ := Except.bind_eq_ok he
      obtain ⟨x, hx, he⟩ := Except.bind_eq_ok he
      cases he
      have hrb : readBool (0x00#8 :: (vb ++ x) ++ rest) = .ok (false, vb ++ x ++ rest) := readBool_write false (vb ++ x ++ rest)
      refine HSpec.bind .trans (read_spec hi readBool _) ?_ ?_
      · rintro ⟨pr, b1⟩ s1 τ1 hi1 _ _ ⟨hrd, rfl, rfl⟩
        rw [hrb] at hrd
        cases hrd
        simp only
        have hV : HSpec T H SerExt (Prf.variantOf T c (vb ++ x ++ rest)) s1 τ1 (fun res _ _ => res = .ok (c', x ++ rest)) := by
          unfold Prf.variantOf
          cases hv : (T c).variants with
          | none =>
            rw [hv] at hw
            simp only at hw
            rw [hw.1] at hvb
            rw [Prf.variantBytes, hv] at hvb
            cases hvb
            rw [hw.1]
            exact .noop .refl rfl hi1 rfl
          | some us =>
            rw [hv] at hw
            simp only at hw
            obtain ⟨⟨i, hui, hvc, hidx⟩, _⟩ := hw
            have hidx := hidx.unionIndex
            rw [Prf.variantBytes, hvc] at hvb
            simp only [hidx] at hvb
            cases hvb
            simp only
            refine HSpec.bind .trans (read_spec hi1 readVaruint _) ?_ ?_
            · rintro ⟨i', b2⟩ s2 τ2 hi2 _ _ ⟨hrd, rfl, rfl⟩
              rw [List.append_assoc, readVaruint_write] at hrd
              cases hrd
              simp only [hui]
              exact .noop .refl rfl hi2 rfl
            · rintro e s2 τ2 _ _ ⟨hrd, _⟩
              rw [List.append_assoc, readVaruint_write] at hrd; cases hrd
        refine HSpec.bind .trans hV ?_ ?_
        · rintro ⟨u, b2⟩ s2 τ2 hi2 _ _ hu
          cases hu
          refine HSpec.bind .trans (deserLoop_rt ih _ fs s2 τ2 x rest hi2 hw.2 hx (by omega)) ?_ ?_
          · rintro ⟨vs, b3⟩ s3 τ3 hi3 _ _ ⟨vs', hvs, hall, hp⟩
            cases hvs
            have hwl := hw.2.checked
            have htake : vs.take (T c').attrs.length = vs := by
              apply List.take_of_length_le
              rw [← hall.length, hwl.length]; exact Nat.le_refl _
            refine HSpec.bind .trans (new_spec hT hi3 c' (by rw [htake]; exact hall)) ?_ ?_
            · rintro r s4 τ4 hi4 _ _ ⟨_, h⟩
              obtain ⟨_, ht, o, ho, h1, h2, h3, h4⟩ := h r rfl
              refine .noop .refl rfl hi4 ⟨r, rfl, ht, o, ho, h1, ?_, ?_⟩
              · rw [h3, hp, PTree.prunedFlag]
              · rw [h4, PTree.isPruned]
            · rintro e s4 τ4 _ _ ⟨h, _⟩
              obtain ⟨r, hr⟩ := h hwl
              cases hr
          · rintro e s3 τ3 _ _ ⟨vs', hvs, _⟩; cases hvs
        · rintro e s2 τ2 _ _ h; cases h
      · rintro e s1 τ1 _ _ ⟨hrd, _⟩
        rw [hrb] at hrd; cases hrd

mutual
theorem PTree.depth_le_enc : ∀ {t : PTree} {c : Nat} {b : Bytes}, t.WellTyped T c → t.enc T = .ok b → t.depth ≤ b.length
  | .node c fs, _, b, hw, h => by
    rw [PTree.WellTyped] at hw
    rw [PTree.enc] at h
    obtain ⟨v, _, h⟩ := Except.bind_eq_ok h
    obtain ⟨x, hx, h⟩ := Except.bind_eq_ok h
    cases h
    have := PFields.depth_le_enc hw.2 hx
    rw [PTree.depth]
    simp only [List.length_cons, List.length_append]
    omega
  | .pruned c d, _, b, _, h => by
    rw [PTree.enc] at h
    cases h
    simp [PTree.depth]
theorem PFields.depth_le_enc : ∀ {fs : PFields} {ks : List Kind} {b : Bytes}, fs.WellTyped T ks → fs.enc T ks = .ok b → fs.depth ≤ b.length
  | .nil, [], _, _, _ => by simp [PFields.depth]
  | .prim v fs, .prim τ :: ks, b, hw, h => by
    rw [PFields.WellTyped] at hw
    rw [PFields.enc_prim] at h
    obtain ⟨a, ha, h⟩ := Except.bind_eq_ok h
    obtain ⟨x, hx, h⟩ := Except.bind_eq_ok h
    cases h
    have := PFields.depth_le_enc hw.2 hx
    rw [PFields.depth, List.length_append]
    omega
  | .sub t fs, .proof c :: ks, b, hw, h => by
    rw [PFields.WellTyped] at hw
    rw [PFields.enc_sub] at h
    obtain ⟨a, ha, h⟩ := Except.bind_eq_ok h
    obtain ⟨x, hx, h⟩ := Except.bind_eq_ok h
    cases h
    have := PFields.depth_le_enc hw.2 hx
    have := PTree.depth_le_enc hw.1.1 (show t.enc T = .ok a from ha)
    rw [PFields.depth, List.length_append]
    omega
  | .sub t fs, .union us :: ks, b, hw, h => by
    rw [PFields.WellTyped] at hw
    rw [PFields.enc_sub] at h
    obtain ⟨a, ha, h⟩ := Except.bind_eq_ok h
    obtain ⟨x, hx, h⟩ := Except.bind_eq_ok h
    cases h
    have := PFields.depth_le_enc hw.2 hx
    obtain ⟨⟨i, u, hu, hidx, htw⟩, _⟩ := hw
    simp only [TVal.enc] at ha
    obtain ⟨j, hj, ha⟩ := Except.bind_eq_ok ha
    obtain ⟨y, hy, ha⟩ := Except.bind_eq_ok ha
    cases ha
    have := PTree.depth_le_enc htw hy
    rw [PFields.depth, List.length_append, List.length_append]
    omega
  | .nil, _ :: _, _, h, _ => by simp [PFields.WellTyped] at h
  | .prim _ _, [], _, h, _ => by simp [PFields.WellTyped] at h
  | .sub _ _, [], _, h, _ => by simp [PFields.WellTyped] at h
  | .prim _ _, .proof _ :: _, _, h, _ => by simp [PFields.WellTyped] at h
  | .prim _ _, .union _ :: _, _, h, _ => by simp [PFields.WellTyped] at h
  | .sub _ _, .prim _ :: _, _, h, _ => by simp [PFields.WellTyped] at h
end

mutual
/-- Proofs that are what they should be can be serialized. -/
theorem PTree.WellTyped.enc : ∀ {t : PTree} {c : Nat}, t.WellTyped T c → ∃ b, t.enc T = .ok b
  | .node c' fs, c, hw => by
    rw [PTree.WellTyped] at hw
    obtain ⟨x, hx⟩ := PFields.WellTyped.enc hw.2
    have : ∃ v, Prf.variantBytes T c' = .ok v := by
      unfold Prf.variantBytes
      cases hv : (T c).variants with
      | none =>
        rw [hv] at hw
        have := hw.1
        simp only at this
        rw [this, hv]; exact ⟨_, rfl⟩
      | some us =>
        rw [hv] at hw
        obtain ⟨⟨i, hui, hvc, hidx⟩, _⟩ := hw
        simp only [hvc, hidx.unionIndex]; exact ⟨_, rfl⟩
    obtain ⟨v, hv⟩ := this
    rw [PTree.enc, hv, hx]; exact ⟨_, rfl⟩
  | .pruned c d, _, _ => by rw [PTree.enc]; exact ⟨_, rfl⟩
theorem PFields.WellTyped.enc : ∀ {fs : PFields} {ks : List Kind}, fs.WellTyped T ks → ∃ b, fs.enc T ks = .ok b
  | .nil, [], _ => by rw [PFields.enc]; exact ⟨_, rfl⟩
  | .prim v fs, .prim τ :: ks, hw => by
    rw [PFields.WellTyped] at hw
    obtain ⟨x, hx⟩ := PFields.WellTyped.enc hw.2
    obtain ⟨e, he⟩ := hw.1.2.2
    rw [PFields.enc_prim, hx]
    exact ⟨e ++ x, by simp [TVal.enc, he]; rfl⟩
  | .sub t fs, .proof c :: ks, hw => by
    rw [PFields.WellTyped] at hw
    obtain ⟨x, hx⟩ := PFields.WellTyped.enc hw.2
    obtain ⟨e, he⟩ := PTree.WellTyped.enc hw.1.1
    rw [PFields.enc_sub, hx]
    exact ⟨e ++ x, by simp [TVal.enc, he]; rfl⟩
  | .sub t fs, .union us :: ks, hw => by
    rw [PFields.WellTyped] at hw
    obtain ⟨x, hx⟩ := PFields.WellTyped.enc hw.2
    obtain ⟨⟨i, u, hu, hidx, htw⟩, _⟩ := hw
    obtain ⟨e, he⟩ := PTree.WellTyped.enc htw
    rw [PFields.enc_sub, hx]
    exact ⟨_, by simp [TVal.enc, he, hidx.unionIndex]; rfl⟩
  | .nil, _ :: _, h => by simp [PFields.WellTyped] at h
  | .prim _ _, [], h => by simp [PFields.WellTyped] at h
  | .sub _ _, [], h => by simp [PFields.WellTyped] at h
  | .prim _ _, .proof _ :: _, h => by simp [PFields.WellTyped] at h
  | .prim _ _, .union _ :: _, h => by simp [PFields.WellTyped] at h
  | .sub _ _, .prim _ :: _, h => by simp [PFields.WellTyped] at h
end

theorem deserialize_rt (hT : T.WF) {s : PState} {τ : List PTree} {c : Nat} {t : PTree} {b : Bytes} (hi : Inv T H s τ) (hw : t.WellTyped T c)
    (he : t.enc T = .ok b) :
    HSpec T H SerExt (Prf.deserialize T c b) s τ (fun res s' τ' => ∃ r, res = .ok r ∧ Fresh T s' τ' r t) := by
  have hd := PTree.depth_le_enc hw he
  unfold Prf.deserialize Prf.ctxDeserialize
  have := deserF_rt hT (b.length + 1) s τ c t b [] hi hw he (by omega)
  rw [List.append_nil] at this
  refine HSpec.bind .trans this ?_ ?_
  · rintro ⟨r, x⟩ s1 τ1 hi1 _ _ ⟨r', hr, hf⟩
    cases hr
    exact .noop .refl rfl hi1 ⟨_, rfl, hf⟩
  · rintro e s1 τ1 hi1 _ ⟨r', hr, hf⟩; cases hr

end Verif
