import Verif.Spec.Proof
import Verif.Lemmas.Prim
/-! The heap always represents trees; every operation on the heap is the same operation on trees. -/
namespace Verif
set_option linter.unusedSectionVars false

theorem HM.bind_apply {α β} (x : HM α) (f : α → HM β) (s : PState) :
    (x >>= f) s = match x s with
      | (.ok a, s') => f a s'
      | (.error e, s') => (.error e, s') := rfl
theorem HM.pure_apply {α} (a : α) (s : PState) : (Pure.pure a : HM α) s = (.ok a, s) := rfl
theorem HM.fail_apply {α} (e : PyErr) (s : PState) : (HM.fail e : HM α) s = (.error e, s) := rfl
theorem HM.lift_apply {α} (e : Py α) (s : PState) : (HM.lift e : HM α) s = (e, s) := rfl

variable (T : Table) (H : HashFns)

/-- The value stands for the tree value, given what each object stands for. -/
def HVal.Is (τ : List PTree) : HVal → TVal → Prop
  | .prim v, .prim w => v = w
  | .ref c, .sub t => τ[c]? = some t
  | _, _ => False

mutual
/-- The attribute values passed `check_instance`. -/
def PTree.Checked : PTree → Prop
  | .node c fs => PFields.Checked fs (T c).attrs
  | .pruned _ d => d.length = 32
def PFields.Checked : PFields → List Kind → Prop
  | .nil, [] => True
  | .prim v fs, .prim τ :: ks => τ.check v = .ok () ∧ PFields.Checked fs ks
  | .sub t fs, k :: ks => (match k with
      | .prim τ => τ.check .other = .ok ()
      | .proof c => ∀ us, (T c).variants = some us → us.any (T.isInst t.cls) = true
      | .union us => us.any (T.isInst t.cls) = true) ∧ PTree.Checked t ∧ PFields.Checked fs ks
  | _, _ => False
end

structure ObjOK (s : PState) (τ : List PTree) (r : Nat) (o : Obj) (t : PTree) : Prop where
  cls : t.cls = o.cls
  flen : o.fields.length = (T o.cls).attrs.length
  fmatch : ∀ (i : Nat) (v : HVal), o.fields[i]? = some (some v) → ∃ tv, t.get? i = some tv ∧ v.Is τ tv
  fp : o.isFullyPruned = true → ∀ (i : Nat) (v : HVal), o.fields[i]? ≠ some (some v)
  nfp : o.isFullyPruned = false → ∃ fs, t = .node o.cls fs
  base : o.orig = none →
    (∃ fs, t = .node o.cls fs ∧ o.isFullyPruned = false ∧
      (∀ i, i < o.fields.length → ∃ v, o.fields[i]? = some (some v) ∧ ∀ c, v = .ref c → c < r) ∧
      ((T o.cls).isTx = true → o.isPruned = false) ∧ o.cls ∈ s.inited) ∨
    (∃ d, t = .pruned o.cls d ∧ o.isFullyPruned = true ∧ o.isPruned = true ∧ o.dataHash = some d)
  view : ∀ q, o.orig = some q → q < r ∧ τ[q]? = some t ∧ o.isPruned = true ∧
    (o.isFullyPruned = false → ∀ oq, s.objs[q]? = some oq → oq.isFullyPruned = false)
  dh : ∀ d, o.dataHash = some d → t.dataHash T H = .ok d
  hh : ∀ h, o.hash = some h → t.hash T H = .ok h

structure Inv (s : PState) (τ : List PTree) : Prop where
  len : τ.length = s.objs.length
  chk : ∀ t ∈ τ, t.Checked T
  obj : ∀ r o t, s.objs[r]? = some o → τ[r]? = some t → ObjOK T H s τ r o t

theorem PFields.Checked.length : ∀ {fs : PFields} {ks : List Kind}, fs.Checked T ks → fs.length = ks.length
  | .nil, [], _ => rfl
  | .prim _ fs, .prim _ :: ks, h => by
    simp only [PFields.Checked] at h; simp [PFields.length, PFields.Checked.length h.2]
  | .prim _ _, .proof _ :: _, h => by simp [PFields.Checked] at h
  | .prim _ _, .union _ :: _, h => by simp [PFields.Checked] at h
  | .sub _ fs, k :: ks, h => by
    simp only [PFields.Checked] at h; simp [PFields.length, PFields.Checked.length h.2.2]
  | .nil, _ :: _, h => by simp [PFields.Checked] at h
  | .prim _ _, [], h => by simp [PFields.Checked] at h
  | .sub _ _, [], h => by simp [PFields.Checked] at h

theorem PFields.get?_isSome : ∀ (fs : PFields) (i : Nat), (fs.get? i).isSome = decide (i < fs.length)
  | .nil, i => by simp [get?, length]
  | .prim v fs, 0 => by simp [get?, length]
  | .sub t fs, 0 => by simp [get?, length]
  | .prim v fs, i + 1 => by simp [get?, length, get?_isSome fs i]
  | .sub t fs, i + 1 => by simp [get?, length, get?_isSome fs i]

/-- Nothing is forgotten. -/
structure Ext (s s' : PState) : Prop where
  len : s.objs.length ≤ s'.objs.length
  inited : ∀ c ∈ s.inited, c ∈ s'.inited
  obj : ∀ (r : Nat) (o : Obj), s.objs[r]? = some o → ∃ o' : Obj, s'.objs[r]? = some o' ∧ o'.cls = o.cls ∧ o'.orig = o.orig ∧ o'.isPruned = o.isPruned ∧
    (o.isFullyPruned = false → o'.isFullyPruned = false) ∧ (∀ (i : Nat) (v : HVal), o.fields[i]? = some (some v) → o'.fields[i]? = some (some v))

/-- Nothing is revealed: attributes that are filled in are fresh fully pruned views (or plain values). -/
structure SerExt (s s' : PState) : Prop extends Ext s s' where
  fp : ∀ (r : Nat) (o o' : Obj), s.objs[r]? = some o → s'.objs[r]? = some o' → o'.isFullyPruned = o.isFullyPruned
  fld : ∀ (r : Nat) (o o' : Obj), s.objs[r]? = some o → s'.objs[r]? = some o' → ∀ (i : Nat) (v : HVal), o'.fields[i]? = some (some v) →
    o.fields[i]? = some (some v) ∨ ∀ c, v = .ref c → s.objs.length ≤ c ∧ ∃ oc, s'.objs[c]? = some oc ∧ oc.isFullyPruned = true

theorem Ext.refl (s : PState) : Ext s s := ⟨Nat.le_refl _, fun _ h => h, fun _ o h => ⟨o, h, rfl, rfl, rfl, id, fun _ _ h => h⟩⟩
theorem Ext.trans {a b c : PState} (h : Ext a b) (h' : Ext b c) : Ext a c where
  len := Nat.le_trans h.len h'.len
  inited x hx := h'.inited x (h.inited x hx)
  obj r o ho := by
    obtain ⟨o1, h1, hc, ho1, hp, hf, hv⟩ := h.obj r o ho
    obtain ⟨o2, h2, hc', ho2, hp', hf', hv'⟩ := h'.obj r o1 h1
    exact ⟨o2, h2, hc'.trans hc, ho2.trans ho1, hp'.trans hp, fun x => hf' (hf x), fun i v x => hv' i v (hv i v x)⟩

theorem SerExt.refl (s : PState) : SerExt s s where
  toExt := Ext.refl s
  fp r o o' h h' := by rw [h] at h'; cases h'; rfl
  fld r o o' h h' := by rw [h] at h'; cases h'; exact fun _ _ h => .inl h

theorem SerExt.trans {a b c : PState} (h : SerExt a b) (h' : SerExt b c) : SerExt a c where
  toExt := h.toExt.trans h'.toExt
  fp r o o' ho ho' := by
    obtain ⟨o1, h1, _⟩ := h.obj r o ho
    rw [h'.fp r o1 o' h1 ho', h.fp r o o1 ho h1]
  fld r o o' ho ho' i v hv := by
    obtain ⟨o1, h1, _⟩ := h.obj r o ho
    rcases h'.fld r o1 o' h1 ho' i v hv with hv1 | hf
    · rcases h.fld r o o1 ho h1 i v hv1 with hv2 | hf
      · exact .inl hv2
      · refine .inr fun k hk => ?_
        obtain ⟨hl, oc, hoc, hfp⟩ := hf k hk
        obtain ⟨oc', hoc', _⟩ := h'.obj k oc hoc
        exact ⟨hl, oc', hoc', (h'.fp k oc oc' hoc hoc').trans hfp⟩
    · refine .inr fun k hk => ?_
      obtain ⟨hl, oc, hoc, hfp⟩ := hf k hk
      exact ⟨Nat.le_trans h.len hl, oc, hoc, hfp⟩

/-- Running `f` keeps the invariant, relates the states by `R` and satisfies `Q`. -/
def HSpec {α} (R : PState → PState → Prop) (f : HM α) (s : PState) (τ : List PTree)
    (Q : Py α → PState → List PTree → Prop) : Prop :=
  ∃ τ', Inv T H (f s).2 (τ ++ τ') ∧ R s (f s).2 ∧ Q (f s).1 (f s).2 (τ ++ τ')

variable {T H}

theorem HSpec.bind {α β} {R : PState → PState → Prop} (hR : ∀ {a b c}, R a b → R b c → R a c) {x : HM α} {f : α → HM β}
    {s : PState} {τ : List PTree} {Q : Py α → PState → List PTree → Prop} {Q' : Py β → PState → List PTree → Prop}
    (hx : HSpec T H R x s τ Q)
    (hok : ∀ a s' τ', Inv T H s' τ' → R s s' → (∃ τ1, τ' = τ ++ τ1) → Q (.ok a) s' τ' → HSpec T H R (f a) s' τ' Q')
    (herr : ∀ e s' τ', Inv T H s' τ' → R s s' → Q (.error e) s' τ' → Q' (.error e) s' τ') :
    HSpec T H R (x >>= f) s τ Q' := by
  obtain ⟨τ1, hi, hr, hq⟩ := hx
  unfold HSpec
  rw [HM.bind_apply]
  rcases hxs : x s with ⟨res, s'⟩
  rw [hxs] at hi hr hq
  cases res with
  | error e => exact ⟨τ1, hi, hr, herr e s' _ hi hr hq⟩
  | ok a =>
    obtain ⟨τ2, hi2, hr2, hq2⟩ := hok a s' _ hi hr ⟨τ1, rfl⟩ hq
    refine ⟨τ1 ++ τ2, ?_, hR hr hr2, ?_⟩
    · rw [← List.append_assoc]; exact hi2
    · rw [← List.append_assoc]; exact hq2

theorem HSpec.noop {α} {R : PState → PState → Prop} (hR : ∀ s, R s s) {x : HM α} {s : PState} {τ : List PTree}
    {Q : Py α → PState → List PTree → Prop} {res : Py α} (hx : x s = (res, s)) (hi : Inv T H s τ) (hq : Q res s τ) :
    HSpec T H R x s τ Q := by
  refine ⟨[], ?_, ?_, ?_⟩
  · rw [hx, List.append_nil]; exact hi
  · rw [hx]; exact hR s
  · rw [hx, List.append_nil]; exact hq

theorem HSpec.mono {α} {R R' : PState → PState → Prop} {x : HM α} {s : PState} {τ : List PTree}
    {Q Q' : Py α → PState → List PTree → Prop} (h : HSpec T H R x s τ Q) (hR : ∀ s', R s s' → R' s s')
    (hQ : ∀ res s' τ', Inv T H s' τ' → R s s' → Q res s' τ' → Q' res s' τ') : HSpec T H R' x s τ Q' := by
  obtain ⟨τ1, hi, hr, hq⟩ := h
  exact ⟨τ1, hi, hR _ hr, hQ _ _ _ hi hr hq⟩

theorem HSpec.congr {α} {R : PState → PState → Prop} {x y : HM α} {s : PState} {τ : List PTree}
    {Q : Py α → PState → List PTree → Prop} (hxy : x s = y s) (h : HSpec T H R y s τ Q) : HSpec T H R x s τ Q := by
  unfold HSpec at *; rw [hxy]; exact h

theorem HVal.Is.mono {τ τ' : List PTree} {v : HVal} {tv : TVal} (h : v.Is τ tv) : v.Is (τ ++ τ') tv := by
  cases v <;> cases tv <;> simp only [HVal.Is] at *
  · exact h
  · rename_i c t
    rw [List.getElem?_append_left]
    · exact h
    · exact (List.getElem?_eq_some_iff.mp h).1

theorem get_lt {α} {l : List α} {i : Nat} {a : α} (h : l[i]? = some a) : i < l.length := (List.getElem?_eq_some_iff.mp h).1

theorem Inv.some_obj {s : PState} {τ : List PTree} (hi : Inv T H s τ) {r : Nat} {t : PTree} (h : τ[r]? = some t) :
    ∃ o, s.objs[r]? = some o ∧ ObjOK T H s τ r o t := by
  have hlt := get_lt h
  rw [hi.len] at hlt
  have := List.getElem?_eq_getElem hlt
  exact ⟨_, this, hi.obj r _ t this h⟩

theorem Inv.some_tree {s : PState} {τ : List PTree} (hi : Inv T H s τ) {r : Nat} {o : Obj} (h : s.objs[r]? = some o) :
    ∃ t, τ[r]? = some t ∧ ObjOK T H s τ r o t := by
  have hlt := get_lt h
  rw [← hi.len] at hlt
  have := List.getElem?_eq_getElem hlt
  exact ⟨_, this, hi.obj r o _ h this⟩

/-- Allocation of a new object. -/
theorem Inv.alloc {s : PState} {τ : List PTree} (hi : Inv T H s τ) {o : Obj} {t : PTree} (ht : t.Checked T)
    (hok : ObjOK T H { s with objs := s.objs ++ [o] } (τ ++ [t]) s.objs.length o t) :
    Inv T H { s with objs := s.objs ++ [o] } (τ ++ [t]) where
  len := by simp [hi.len]
  chk := by
    intro x hx
    rcases List.mem_append.mp hx with h | h
    · exact hi.chk x h
    · rw [List.mem_singleton.mp h]; exact ht
  obj r o' t' ho ht' := by
    simp only at ho
    by_cases hlt : r < s.objs.length
    · rw [List.getElem?_append_left hlt] at ho
      rw [List.getElem?_append_left (by rw [hi.len]; exact hlt)] at ht'
      have h := hi.obj r o' t' ho ht'
      exact { cls := h.cls, flen := h.flen, fp := h.fp, nfp := h.nfp, base := h.base, dh := h.dh, hh := h.hh,
              fmatch := fun i v hv => by
                obtain ⟨tv, h1, h2⟩ := h.fmatch i v hv
                exact ⟨tv, h1, h2.mono⟩
              view := fun q hq => by
                obtain ⟨h1, h2, h3, h4⟩ := h.view q hq
                refine ⟨h1, ?_, h3, fun hf oq hoq => ?_⟩
                · rw [List.getElem?_append_left (by rw [hi.len]; omega)]; exact h2
                · simp only at hoq
                  rw [List.getElem?_append_left (by omega)] at hoq
                  exact h4 hf oq hoq }
    · have hr : r = s.objs.length := by
        have := get_lt ho
        simp at this; omega
      subst hr
      simp at ho
      rw [← hi.len] at ht'
      simp at ht'
      subst ho; subst ht'
      exact hok

theorem SerExt.alloc (s : PState) (o : Obj) : SerExt s { s with objs := s.objs ++ [o] } where
  len := by simp
  inited _ h := h
  obj r o' h := ⟨o', by simp only; rw [List.getElem?_append_left (get_lt h)]; exact h, rfl, rfl, rfl, id, fun _ _ h => h⟩
  fp r o1 o2 h h' := by
    simp only at h'; rw [List.getElem?_append_left (get_lt h), h] at h'; cases h'; rfl
  fld r o1 o2 h h' := by
    simp only at h'; rw [List.getElem?_append_left (get_lt h), h] at h'; cases h'; exact fun _ _ h => .inl h

/-- The relations used. -/
def ExtI (s s' : PState) : Prop := Ext s s' ∧ s'.inited = s.inited
def SerExtI (s s' : PState) : Prop := SerExt s s' ∧ s'.inited = s.inited
theorem ExtI.trans {a b c : PState} (h : ExtI a b) (h' : ExtI b c) : ExtI a c := ⟨h.1.trans h'.1, h'.2.trans h.2⟩
theorem SerExtI.trans {a b c : PState} (h : SerExtI a b) (h' : SerExtI b c) : SerExtI a c := ⟨h.1.trans h'.1, h'.2.trans h.2⟩
theorem ExtI.refl (s : PState) : ExtI s s := ⟨.refl s, rfl⟩
theorem SerExtI.refl (s : PState) : SerExtI s s := ⟨.refl s, rfl⟩
theorem SerExtI.toExtI {a b : PState} (h : SerExtI a b) : ExtI a b := ⟨h.1.toExt, h.2⟩

theorem HM.obj_apply {s : PState} {r : Nat} {o : Obj} (h : s.objs[r]? = some o) : HM.obj r s = (.ok o, s) := by
  unfold HM.obj; rw [h]

theorem HM.bind_obj {α} {s : PState} {r : Nat} {o : Obj} (h : s.objs[r]? = some o) (f : Obj → HM α) :
    (HM.obj r >>= f) s = f o s := by
  rw [HM.bind_apply, HM.obj_apply h]

theorem Prf.prune_apply {s : PState} {r : Nat} {o : Obj} (h : s.objs[r]? = some o) :
    Prf.prune T r s = (.ok s.objs.length, { s with objs := s.objs ++ [{ cls := o.cls, fields := List.replicate (T o.cls).attrs.length none, orig := some r, isPruned := true, isFullyPruned := true }] }) := by
  unfold Prf.prune
  rw [HM.bind_obj h]; rfl

theorem prune_spec {s : PState} {τ : List PTree} (hi : Inv T H s τ) {r : Nat} {t : PTree} (h : τ[r]? = some t) :
    HSpec T H SerExtI (Prf.prune T r) s τ (fun res s' τ' => res = .ok s.objs.length ∧ τ'[s.objs.length]? = some t ∧
      ∃ o', s'.objs[s.objs.length]? = some o' ∧ o'.isFullyPruned = true ∧ o'.orig = some r ∧
        s'.objs.length = s.objs.length + 1 ∧ ∀ k, k < s.objs.length → s'.objs[k]? = s.objs[k]?) := by
  obtain ⟨o, ho, hok⟩ := hi.some_obj h
  refine ⟨[t], ?_⟩
  rw [Prf.prune_apply ho]
  have hlt := get_lt ho
  refine ⟨hi.alloc (hi.chk t (List.mem_of_getElem? h)) ?_, ⟨SerExt.alloc _ _, rfl⟩, rfl, ?_, _, List.getElem?_concat_length, rfl, rfl,
    by simp, ?_⟩
  · exact {
      cls := hok.cls
      flen := by simp
      fmatch := fun i v hv => by
        rw [List.getElem?_replicate] at hv; split at hv <;> simp at hv
      fp := fun _ i v hv => by
        rw [List.getElem?_replicate] at hv; split at hv <;> simp at hv
      nfp := fun hf => by simp at hf
      base := fun hf => by simp at hf
      view := fun q hq => by
        simp only [Option.some.injEq] at hq
        subst hq
        refine ⟨hlt, ?_, rfl, fun hf => by simp at hf⟩
        rw [List.getElem?_append_left (by rw [hi.len]; exact hlt)]; exact h
      dh := fun d hd => by simp at hd
      hh := fun d hd => by simp at hd }
  · rw [← hi.len]; simp
  · intro k hk; simp only; rw [List.getElem?_append_left hk]


theorem modify_get {s : PState} {r : Nat} {o : Obj} {f : Obj → Obj} (h : s.objs[r]? = some o) : (s.objs.modify r f)[r]? = some (f o) := by
  rw [List.getElem?_modify]; simp [h]
theorem modify_get_ne {s : PState} {r k : Nat} {f : Obj → Obj} (h : k ≠ r) : (s.objs.modify r f)[k]? = s.objs[k]? := by
  rw [List.getElem?_modify]; simp [Ne.symm h]

theorem Inv.modify {s : PState} {τ : List PTree} (hi : Inv T H s τ) {r : Nat} {o : Obj} {t : PTree} {f : Obj → Obj}
    (ho : s.objs[r]? = some o) (ht : τ[r]? = some t) (hfp : o.isFullyPruned = false → (f o).isFullyPruned = false)
    (hok : ObjOK T H { s with objs := s.objs.modify r f } τ r (f o) t) :
    Inv T H { s with objs := s.objs.modify r f } τ where
  len := by simp [hi.len]
  chk := hi.chk
  obj k o' t' ho' ht' := by
    by_cases hk : k = r
    · subst hk
      simp only at ho'
      rw [modify_get ho] at ho'
      cases ho'
      rw [ht] at ht'; cases ht'
      exact hok
    · simp only at ho'
      rw [modify_get_ne hk] at ho'
      have h := hi.obj k o' t' ho' ht'
      exact { cls := h.cls, flen := h.flen, fp := h.fp, nfp := h.nfp, base := h.base, dh := h.dh, hh := h.hh,
              fmatch := h.fmatch
              view := fun q hq => by
                obtain ⟨h1, h2, h3, h4⟩ := h.view q hq
                refine ⟨h1, h2, h3, fun hf oq hoq => ?_⟩
                simp only at hoq
                by_cases hqr : q = r
                · subst hqr
                  rw [modify_get ho] at hoq
                  cases hoq
                  exact hfp (h4 hf o ho)
                · rw [modify_get_ne hqr] at hoq
                  exact h4 hf oq hoq }

theorem Ext.modify {s : PState} {r : Nat} {o : Obj} {f : Obj → Obj} (ho : s.objs[r]? = some o) (h1 : (f o).cls = o.cls) (h2 : (f o).orig = o.orig)
    (h3 : (f o).isPruned = o.isPruned) (h4 : o.isFullyPruned = false → (f o).isFullyPruned = false)
    (h5 : ∀ (i : Nat) (v : HVal), o.fields[i]? = some (some v) → (f o).fields[i]? = some (some v)) :
    Ext s { s with objs := s.objs.modify r f } where
  len := by simp
  inited _ h := h
  obj k o' hk := by
    by_cases hkr : k = r
    · subst hkr
      rw [ho] at hk; cases hk
      exact ⟨f o, modify_get ho, h1, h2, h3, h4, h5⟩
    · exact ⟨o', by simp only; rw [modify_get_ne hkr]; exact hk, rfl, rfl, rfl, id, fun _ _ h => h⟩

/-- Changing only the caches. -/
theorem SerExt.cache {s : PState} {r : Nat} {o : Obj} {f : Obj → Obj} (ho : s.objs[r]? = some o) (h1 : (f o).cls = o.cls) (h2 : (f o).orig = o.orig)
    (h3 : (f o).isPruned = o.isPruned) (h4 : (f o).isFullyPruned = o.isFullyPruned) (h5 : (f o).fields = o.fields) :
    SerExt s { s with objs := s.objs.modify r f } where
  toExt := Ext.modify ho h1 h2 h3 (fun h => h4.trans h) (fun i v h => h5 ▸ h)
  fp k o1 o2 hk hk' := by
    simp only at hk'
    by_cases hkr : k = r
    · subst hkr
      rw [ho] at hk; cases hk
      rw [modify_get ho] at hk'; cases hk'; exact h4
    · rw [modify_get_ne hkr, hk] at hk'; cases hk'; rfl
  fld k o1 o2 hk hk' i v hv := by
    simp only at hk'
    by_cases hkr : k = r
    · subst hkr
      rw [ho] at hk; cases hk
      rw [modify_get ho] at hk'; cases hk'
      rw [h5] at hv; exact .inl hv
    · rw [modify_get_ne hkr, hk] at hk'; cases hk'; exact .inl hv

/-- Filling in an attribute by a fresh view. -/
theorem SerExt.fill {s s2 : PState} (h : SerExt s s2) {r i : Nat} {o : Obj} {v : HVal} (ho : s.objs[r]? = some o)
    (ho2 : s2.objs[r]? = some o) (hf : o.isFullyPruned = false)
    (hn : ∀ v, o.fields[i]? ≠ some (some v))
    (hv : ∀ c, v = .ref c → s.objs.length ≤ c ∧ ∃ oc, s2.objs[c]? = some oc ∧ oc.isFullyPruned = true) :
    SerExt s { s2 with objs := s2.objs.modify r fun o => { o with fields := o.fields.set i (some v), isFullyPruned := false } } where
  toExt := h.toExt.trans (Ext.modify ho2 rfl rfl rfl (fun _ => rfl) (fun j w hj => by
    simp only
    rw [List.getElem?_set]
    split
    · subst_vars; exact absurd hj (hn w)
    · exact hj))
  fp k o1 o2 hk hk' := by
    simp only at hk'
    by_cases hkr : k = r
    · subst hkr
      rw [ho] at hk; cases hk
      rw [modify_get ho2] at hk'; cases hk'; exact hf.symm
    · rw [modify_get_ne hkr] at hk'; exact h.fp k o1 o2 hk hk'
  fld k o1 o2 hk hk' j w hw := by
    simp only at hk'
    have key : ∀ c oc, s2.objs[c]? = some oc → s.objs.length ≤ c → oc.isFullyPruned = true →
        ∃ oc', (s2.objs.modify r fun o => { o with fields := o.fields.set i (some v), isFullyPruned := false })[c]? = some oc' ∧
          oc'.isFullyPruned = true := by
      intro c oc hoc hl hfp
      have hcr : c ≠ r := by have := get_lt ho; omega
      exact ⟨oc, by rw [modify_get_ne hcr]; exact hoc, hfp⟩
    by_cases hkr : k = r
    · subst hkr
      rw [ho] at hk; cases hk
      rw [modify_get ho2] at hk'; cases hk'
      simp only at hw
      rw [List.getElem?_set] at hw
      split at hw
      · split at hw
        · simp only [Option.some.injEq] at hw
          subst hw
          refine .inr fun c hc => ?_
          obtain ⟨hl, oc, hoc, hfp⟩ := hv c hc
          exact ⟨hl, key c oc hoc hl hfp⟩
        · cases hw
      · exact .inl hw
    · rw [modify_get_ne hkr] at hk'
      rcases h.fld k o1 o2 hk hk' j w hw with h1 | h1
      · exact .inl h1
      · refine .inr fun c hc => ?_
        obtain ⟨hl, oc, hoc, hfp⟩ := h1 c hc
        exact ⟨hl, key c oc hoc hl hfp⟩

theorem Is_prune {s : PState} {τ : List PTree} (hi : Inv T H s τ) {v : HVal} {tv : TVal} (h : v.Is τ tv) :
    HSpec T H SerExtI (Prf.pruneVal T v) s τ (fun res s' τ' => ∃ w, res = .ok w ∧ w.Is τ' tv ∧
      (∀ k, k < s.objs.length → s'.objs[k]? = s.objs[k]?) ∧
      ∀ c, w = .ref c → c = s.objs.length ∧ ∃ oc, s'.objs[c]? = some oc ∧ oc.isFullyPruned = true) := by
  cases v with
  | prim v => exact .noop .refl rfl hi ⟨.prim v, rfl, h, fun _ _ => rfl, fun _ hc => by cases hc⟩
  | ref r =>
    cases tv with
    | prim w => exact h.elim
    | sub t =>
      refine HSpec.bind .trans (prune_spec hi h) ?_ ?_
      · rintro a s' τ' hi' hr hτ ⟨ha, ht, o', ho', hf, _, _, hk⟩
        cases ha
        refine .noop .refl rfl hi' ⟨.ref _, rfl, ht, hk, fun c hc => ?_⟩
        cases hc
        exact ⟨rfl, o', ho', hf⟩
      · rintro e s' τ' _ _ ⟨h, _⟩; cases h

theorem getAttrF_spec : ∀ (n : Nat) (s : PState) (τ : List PTree) (r : Nat) (t : PTree) (i : Nat), Inv T H s τ →
    τ[r]? = some t → r < n →
    HSpec T H ExtI (Prf.getAttrF T n r i) s τ (fun res s' τ' =>
      (∀ e, t.attr T s.inited i = .error e → res = .error e) ∧
      (∀ tv, t.attr T s.inited i = .ok tv → ∃ v, res = .ok v ∧ v.Is τ' tv ∧ s'.field r i = some v ∧
        ∃ o', s'.objs[r]? = some o' ∧ o'.isFullyPruned = false) ∧
      (∀ k, r < k → k < s.objs.length → s'.objs[k]? = s.objs[k]?) ∧
      (∀ o, s.objs[r]? = some o → o.isFullyPruned = false → SerExt s s')) := by
  intro n
  induction n with
  | zero => intro s τ r t i _ _ h; omega
  | succ n ih =>
    intro s τ r t i hi ht hrn
    obtain ⟨o, ho, hok⟩ := hi.some_obj ht
    have hunf : Prf.getAttrF T (n + 1) r i s = (match o.fields[i]? with
      | some (some v) => (return v : HM HVal)
      | _ =>
        match o.orig with
        | none => fun s => (.error (Prf.missing T s.inited o.cls i), s)
        | some q => do
          HM.lift (pyAssert o.isPruned)
          let v ← Prf.getAttrF T n q i
          let v ← Prf.pruneVal T v
          HM.upd r (fun o => { o with fields := o.fields.set i (some v), isFullyPruned := false })
          return v) s := by
      rw [Prf.getAttrF, HM.bind_obj ho]
      rfl
    refine HSpec.congr hunf ?_
    by_cases hset : ∃ v, o.fields[i]? = some (some v)
    · obtain ⟨v, hv⟩ := hset
      rw [hv]
      obtain ⟨tv, hg, his⟩ := hok.fmatch i v hv
      have hat : t.attr T s.inited i = .ok tv := by simp [PTree.attr, hg]
      have hnf : o.isFullyPruned = false := by
        cases hf : o.isFullyPruned with
        | false => rfl
        | true => exact absurd hv (hok.fp hf i v)
      refine .noop .refl rfl hi ⟨?_, ?_, fun _ _ _ => rfl, fun _ _ _ => .refl s⟩
      · intro e he; rw [hat] at he; cases he
      · intro tv' h'
        rw [hat] at h'; cases h'
        refine ⟨v, rfl, his, ?_, o, ho, hnf⟩
        show s.field r i = some v
        simp [PState.field, ho, hv]
    · have hnone : ∀ v, o.fields[i]? ≠ some (some v) := fun v hv => hset ⟨v, hv⟩
      have hm : ∀ (X : HVal → HM HVal) (Y : HM HVal), (match o.fields[i]? with | some (some v) => X v | _ => Y) = Y := by
        intro X Y
        rcases hh : o.fields[i]? with _ | _ | v
        · rfl
        · rfl
        · exact absurd hh (hnone v)
      rw [hm]
      cases horig : o.orig with
      | none =>
        simp only
        have hatt : t.attr T s.inited i = .error (Prf.missing T s.inited o.cls i) := by
          rcases hok.base horig with ⟨fs, hfs, _, hall, _, hin⟩ | ⟨d, hd, _⟩
          · subst hfs
            have hge : ¬ i < o.fields.length := fun hlt => by
              obtain ⟨v, hv, _⟩ := hall i hlt
              exact hnone v hv
            have hck := hi.chk _ (List.mem_of_getElem? ht)
            simp only [PTree.Checked] at hck
            have hl := hck.length
            have hg : fs.get? i = none := by
              have := PFields.get?_isSome fs i
              rw [hl, ← hok.flen] at this
              cases hx : fs.get? i with
              | none => rfl
              | some v => rw [hx] at this; simp [hge] at this
            rw [hok.flen] at hge
            simp [PTree.attr, PTree.get?, hg, Prf.missing, hin, hge]
          · subst hd
            simp [PTree.attr, PTree.get?]
        rw [hatt]
        refine .noop .refl rfl hi ⟨fun e he => ?_, fun tv h => ?_, fun _ _ _ => rfl, fun _ _ _ => .refl s⟩
        · cases he; rfl
        · cases h
      | some q =>
        simp only
        obtain ⟨hqr, hq, hp, hfq⟩ := hok.view q horig
        have IH := ih s τ q t i hi hq (by omega)
        have hlift : ∀ (X : HM HVal), (do HM.lift (pyAssert o.isPruned); X) s = X s := by
          intro X; rw [HM.bind_apply, HM.lift_apply, hp]; rfl
        refine HSpec.congr (hlift _) ?_
        refine HSpec.bind .trans IH ?_ ?_
        · rintro v s1 τ1 hi1 hr1 ⟨τx, hτ1⟩ ⟨he1, hok1, hk1, hs1⟩
          cases hta : t.attr T s.inited i with
          | error e => exact absurd (he1 e hta) (by simp)
          | ok tv =>
            obtain ⟨v', hv', his, hfield, oq, hoq, hoqf⟩ := hok1 tv hta
            cases hv'
            -- the pruned value, then the update
            obtain ⟨τ2, hi2, hr2, w, hw, hwis, hkw, hwf⟩ := Is_prune hi1 his
            refine ⟨τ2, ?_⟩
            rcases hpv : Prf.pruneVal T v s1 with ⟨res2, s2⟩
            rw [hpv] at hi2 hr2 hw hkw hwf
            simp only at hw; subst hw
            have hrun : (do
                let v ← Prf.pruneVal T v
                HM.upd r (fun o => { o with fields := o.fields.set i (some v), isFullyPruned := false })
                return v) s1 =
              (.ok w, { s2 with objs := s2.objs.modify r fun o => { o with fields := o.fields.set i (some w), isFullyPruned := false } }) := by
              rw [HM.bind_apply, hpv]; rfl
            rw [hrun]
            have hl1 : s.objs.length ≤ s1.objs.length := hr1.1.len
            have hrl := get_lt ho
            have ho1 : s1.objs[r]? = some o := by rw [hk1 r hqr hrl]; exact ho
            have ho2 : s2.objs[r]? = some o := by rw [hkw r (by omega)]; exact ho1
            have hoq2 : s2.objs[q]? = some oq := by rw [hkw q (by omega)]; exact hoq
            have ht1 : τ1[r]? = some t := by
              rw [hτ1, List.getElem?_append_left (get_lt ht)]; exact ht
            have ht2 : (τ1 ++ τ2)[r]? = some t := by
              rw [List.getElem?_append_left (get_lt ht1)]; exact ht1
            have hq1 : τ1[q]? = some t := by
              rw [hτ1, List.getElem?_append_left (get_lt hq)]; exact hq
            have hq2 : (τ1 ++ τ2)[q]? = some t := by
              rw [List.getElem?_append_left (get_lt hq1)]; exact hq1
            have hgt : t.get? i = some tv := by
              unfold PTree.attr at hta
              split at hta
              · cases hta; assumption
              · cases hta
            have hilt : i < o.fields.length := by
              have hck := hi.chk _ (List.mem_of_getElem? ht)
              have hcls := hok.cls
              cases t with
              | pruned c d => simp [PTree.get?] at hgt
              | node c fs =>
                simp only [PTree.get?] at hgt
                simp only [PTree.Checked] at hck
                simp only [PTree.cls] at hcls
                have := PFields.get?_isSome fs i
                rw [hgt, hck.length, hcls, ← hok.flen] at this
                simpa using this
            have hok2 := hi2.obj r o t ho2 ht2
            refine ⟨?_, ⟨?_, ?_⟩, ?_, ?_, ?_, ?_⟩
            · refine hi2.modify ho2 ht2 (fun _ => rfl) ?_
              exact {
                cls := hok2.cls
                flen := by simp [hok2.flen]
                fmatch := fun j u hu => by
                  simp only at hu
                  rw [List.getElem?_set] at hu
                  split at hu
                  · rename_i hij
                    subst hij
                    simp only [Option.some.injEq] at hu
                    subst hu
                    exact ⟨tv, hgt, hwis⟩
                  · exact hok2.fmatch j u hu
                fp := fun hf => by simp at hf
                nfp := fun _ => by
                  cases t with
                  | pruned c d => simp [PTree.get?] at hgt
                  | node c fs => exact ⟨fs, by have := hok.cls; simp only [PTree.cls] at this; simp [this]⟩
                base := fun hb => by simp only at hb; rw [horig] at hb; cases hb
                view := fun q' hq' => by
                  simp only at hq'; rw [horig] at hq'; cases hq'
                  refine ⟨hqr, hq2, hp, fun _ oq' hoq' => ?_⟩
                  simp only at hoq'
                  rw [modify_get_ne (by omega), hoq2] at hoq'
                  cases hoq'; exact hoqf
                dh := hok2.dh
                hh := hok2.hh }
            · refine hr2.1.toExt.trans (Ext.modify ho2 rfl rfl rfl (fun _ => rfl) (fun j w' hj => ?_))
              simp only
              rw [List.getElem?_set]
              split
              · subst_vars; exact absurd hj (hnone w')
              · exact hj
            · exact hr2.2
            · intro e he; cases he
            · intro tv' h'
              cases h'
              refine ⟨w, rfl, hwis, ?_, _, modify_get ho2, rfl⟩
              simp only [PState.field]
              rw [modify_get ho2]
              simp [hilt]
            · intro k hk hkl
              simp only
              rw [modify_get_ne (by omega), hkw k (by omega), hk1 k (by omega) hkl]
            · intro o' ho' hf
              rw [ho] at ho'; cases ho'
              have hse : SerExt s s2 := by
                obtain ⟨oq0, hoq0, _⟩ := hi.some_obj hq
                exact (hs1 oq0 hoq0 (hfq hf oq0 hoq0)).trans hr2.1
              refine hse.fill ho ho2 hf hnone (fun c hc => ?_)
              obtain ⟨hcl, oc, hoc, hfp⟩ := hwf c hc
              exact ⟨by omega, oc, hoc, hfp⟩
        · rintro e s1 τ1 hi1 hr1 ⟨he1, hok1, hk1, hs1⟩
          refine ⟨?_, ?_, ?_, ?_⟩
          · intro e' he'; exact he1 e' he' 
          · intro tv htv
            obtain ⟨v, hv, _⟩ := hok1 tv htv
            cases hv
          · intro k hk hkl; exact hk1 k (by omega) hkl
          · intro o' ho' hf
            rw [ho] at ho'; cases ho'
            obtain ⟨oq0, hoq0, _⟩ := hi.some_obj hq
            exact hs1 oq0 hoq0 (hfq hf oq0 hoq0)

end Verif
