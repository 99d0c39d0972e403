import Verif.Spec.GuMap
import Verif.Lemmas.SealMk
import Verif.Lemmas.ProofFrame
/-! # Lemmas about maps -/
namespace Verif
open Seal

section
variable {T : Table} {H : HashFns} {ini : List Nat} {t : PTree}

theorem Prog.eval_at {α} {ρ : List Nat} {q : PTree} (h : (TVal.sub t).walk T ini ρ = .ok (.sub q)) (p : Prog α) :
    (p.at ρ).eval T H ini t = p.eval T H ini q := by
  induction p with
  | ret a => rfl
  | read π k ih => simp only [Prog.at, Prog.eval, walk_append, h, Except.bind_ok, ih]
  | cls π k ih => simp only [Prog.at, Prog.eval, walk_append, h, Except.bind_ok, ih]
  | hash π k ih => simp only [Prog.at, Prog.eval, walk_append, h, Except.bind_ok, ih]
  | dataHash π k ih => simp only [Prog.at, Prog.eval, walk_append, h, Except.bind_ok, ih]

theorem sub?_eq {i : Nat} {q : PTree} : t.sub? i = some q ↔ t.get? i = some (.sub q) := by
  unfold PTree.sub?
  rcases t.get? i with _ | _ | _ <;> simp

theorem walk1 {i : Nat} {v : TVal} : (TVal.sub t).walk T ini [i] = .ok v ↔ t.get? i = some v :=
  walk_snoc (π := []) rfl

theorem walk2 {i j : Nat} {v : TVal} : (TVal.sub t).walk T ini [i, j] = .ok v ↔ ∃ q, t.sub? i = some q ∧ q.get? j = some v := by
  constructor
  · intro h
    have h' : (TVal.sub t).walk T ini ([i] ++ [j]) = .ok v := h
    rw [walk_append] at h'
    obtain ⟨w, hw, h'⟩ := Except.bind_eq_ok h'
    cases w with
    | prim _ => cases h'
    | sub q => exact ⟨q, sub?_eq.mpr (walk1.mp hw), walk1.mp h'⟩
  · rintro ⟨q, hq, hv⟩
    exact (walk_snoc (π := [i]) (walk1.mpr (sub?_eq.mp hq))).mpr hv

/-- The result of a computation that succeeds does not depend on which classes were used before. -/
theorem eval_inited {α} (ini' : List Nat) (p : Prog α) {x : Py α} (h : p.eval T H ini t = .ok x) : p.eval T H ini' t = .ok x := by
  induction p with
  | ret a => exact h
  | read π k ih =>
    simp only [Prog.eval] at h ⊢
    obtain ⟨v, hv, h⟩ := Except.bind_eq_ok h
    rw [TVal.walk_inited ini ini' _ _ _ hv]; exact ih _ h
  | cls π k ih =>
    simp only [Prog.eval] at h ⊢
    obtain ⟨v, hv, h⟩ := Except.bind_eq_ok h
    obtain ⟨q, hq, h⟩ := Except.bind_eq_ok h
    rw [TVal.walk_inited ini ini' _ _ _ hv, Except.bind_ok, hq]; exact ih _ h
  | hash π k ih =>
    simp only [Prog.eval] at h ⊢
    obtain ⟨v, hv, h⟩ := Except.bind_eq_ok h
    obtain ⟨q, hq, h⟩ := Except.bind_eq_ok h
    obtain ⟨d, hd, h⟩ := Except.bind_eq_ok h
    rw [TVal.walk_inited ini ini' _ _ _ hv, Except.bind_ok, hq, Except.bind_ok, hd]; exact ih _ h
  | dataHash π k ih =>
    simp only [Prog.eval] at h ⊢
    obtain ⟨v, hv, h⟩ := Except.bind_eq_ok h
    obtain ⟨q, hq, h⟩ := Except.bind_eq_ok h
    obtain ⟨d, hd, h⟩ := Except.bind_eq_ok h
    rw [TVal.walk_inited ini ini' _ _ _ hv, Except.bind_ok, hq, Except.bind_ok, hd]; exact ih _ h

theorem PFields.Checked.getSub {i : Nat} {q : PTree} : ∀ {fs : PFields} {ks : List Kind}, fs.Checked T ks → ∀ {i : Nat}, fs.get? i = some (.sub q) → q.Checked T
  | .nil, _, _, i, h => by cases i <;> cases h
  | .prim v fs, [], hk, _, _ => by simp [PFields.Checked] at hk
  | .sub v fs, [], hk, _, _ => by simp [PFields.Checked] at hk
  | .prim v fs, k :: ks, hk, 0, h => by cases h
  | .prim v fs, k :: ks, hk, i + 1, h => by
    have hk' : fs.Checked T ks := by cases k <;> simp only [PFields.Checked] at hk; exact hk.2
    exact PFields.Checked.getSub (i := i) hk' h
  | .sub v fs, k :: ks, hk, 0, h => by
    simp only [PFields.Checked] at hk
    simp only [PFields.get?, Option.some.injEq, TVal.sub.injEq] at h
    rw [← h]; exact hk.2.1
  | .sub v fs, k :: ks, hk, i + 1, h => by
    simp only [PFields.Checked] at hk
    exact PFields.Checked.getSub (i := i) hk.2.2 h

theorem PTree.Checked.sub {i : Nat} {q : PTree} (hk : t.Checked T) (h : t.sub? i = some q) : q.Checked T := by
  rw [sub?_eq] at h
  cases t with
  | pruned c d => cases h
  | node c fs => exact PFields.Checked.getSub (i := i) hk h

/-! ## Objects and trees -/

/-- The value stands for a value of a tree. -/
def HVal.Rep (s : PState) : HVal → TVal → Prop
  | .prim v, .prim w => v = w
  | .ref r, .sub t => Represents s r t
  | _, _ => False

theorem HVal.Is.rep {s : PState} {τ : List PTree} (hi : Inv T H s τ) {v : HVal} {tv : TVal} (h : v.Is τ tv) : v.Rep s tv := by
  cases v <;> cases tv <;> simp only [HVal.Is, HVal.Rep] at h ⊢
  · exact h
  · exact hi.represents _ _ h

theorem HVal.Rep.is {s : PState} {τ : List PTree} (hi : Inv T H s τ) {v : HVal} {tv : TVal} (h : v.Rep s tv) : v.Is τ tv := by
  cases v <;> cases tv <;> simp only [HVal.Is, HVal.Rep] at h ⊢
  · exact h
  · exact hi.of_represents h

theorem HVal.Rep.steps (hT : T.WF) {s s' : PState} {v : HVal} {tv : TVal} (hs : Reachable T H s) (hst : Steps T H s s') (h : v.Rep s tv) : v.Rep s' tv := by
  cases v <;> cases tv <;> simp only [HVal.Rep] at h ⊢
  · exact h
  · exact hst.represents hT hs h

theorem walk_rep {s : PState} {r : Nat} (hT : T.WF) (hs : Reachable T H s) (hr : Represents s r t) (π : List Nat) :
    Steps T H s (Prog.walk T (.ref r) π s).2 ∧
    (∀ e, (TVal.sub t).walk T s.inited π = .error e → (Prog.walk T (.ref r) π s).1 = .error e) ∧
    (∀ tv, (TVal.sub t).walk T s.inited π = .ok tv → ∃ v, (Prog.walk T (.ref r) π s).1 = .ok v ∧ v.Rep (Prog.walk T (.ref r) π s).2 tv) := by
  obtain ⟨τ, hi⟩ := hs.inv hT
  obtain ⟨x, hi', _, h1, h2⟩ := walk_spec (T := T) (H := H) π s τ (.ref r) (.sub t) hi (hi.of_represents hr)
  refine ⟨walk_steps _ _ _, h1, fun tv h => ?_⟩
  obtain ⟨v, hv, his⟩ := h2 tv h
  exact ⟨v, hv, his.rep hi'⟩

/-- The attribute values stand for those of a tree. -/
inductive RepVals (s : PState) : List HVal → PFields → Prop where
  | nil : RepVals s [] .nil
  | prim {v vs fs} : RepVals s vs fs → RepVals s (.prim v :: vs) (.prim v fs)
  | ref {r t vs fs} : Represents s r t → RepVals s vs fs → RepVals s (.ref r :: vs) (.sub t fs)

theorem RepVals.is {s : PState} {τ : List PTree} (hi : Inv T H s τ) : ∀ {vs : List HVal} {fs : PFields}, RepVals s vs fs → AllIs τ vs fs
  | _, _, .nil => .nil
  | _, _, .prim h => .prim (h.is hi)
  | _, _, .ref hr h => .ref (hi.of_represents hr) (h.is hi)

theorem RepVals.refs (hT : T.WF) {s : PState} (hs : Reachable T H s) : ∀ {vs : List HVal} {fs : PFields}, RepVals s vs fs → ∀ r, .ref r ∈ vs → r < s.objs.length
  | _, _, .nil, _, h => by cases h
  | _, _, .prim h, r, hr => h.refs hT hs r (by simpa using hr)
  | _, _, .ref hq h, r, hr => by
    rcases List.mem_cons.mp hr with hr | hr
    · cases hr
      obtain ⟨τ, hi⟩ := hs.inv hT
      have := get_lt (hi.of_represents hq)
      rwa [hi.len] at this
    · exact h.refs hT hs r hr

/-- Constructing a proof. -/
theorem new_rep (hT : T.WF) {s : PState} (hs : Reachable T H s) (c : Nat) {vs : List HVal} {fs : PFields} (hv : RepVals s vs fs)
    (hl : vs.length = (T c).attrs.length) :
    Steps T H s (Prf.new T c vs s).2 ∧ (fs.Checked T (T c).attrs → ∃ r, (Prf.new T c vs s).1 = .ok r) ∧
    ∀ r, (Prf.new T c vs s).1 = .ok r → Represents (Prf.new T c vs s).2 r (.node c fs) := by
  obtain ⟨τ, hi⟩ := hs.inv hT
  obtain ⟨x, hi', _, ⟨h1, h2⟩, _⟩ := new_spec' hT hi c (vs := vs) (fs := fs) (by rw [← hl, List.take_length]; exact hv.is hi)
  exact ⟨.tail .refl (.new c vs (hv.refs hT hs)), h1, fun r hr => hi'.represents _ _ (h2 r hr).2.1⟩

theorem hash_rep (hT : T.WF) {s : PState} {r : Nat} (hs : Reachable T H s) (hr : Represents s r t) : (Prf.hash T H r s).1 = t.hash T H := by
  obtain ⟨τ, hi⟩ := hs.inv hT
  obtain ⟨_, _, _, h⟩ := hash_spec hT hi (hi.of_represents hr)
  exact h

theorem obj_rep (hT : T.WF) {s : PState} {r : Nat} (hs : Reachable T H s) (hr : Represents s r t) : ∃ o, s.objs[r]? = some o ∧ o.cls = t.cls := by
  obtain ⟨τ, hi⟩ := hs.inv hT
  have ht := hi.of_represents hr
  have := get_lt ht
  rw [hi.len] at this
  have ho := List.getElem?_eq_getElem this
  exact ⟨_, ho, ((hi.obj r _ t ho ht).cls).symm⟩

theorem runM_eq (hT : T.WF) {α} (p : Prog α) {s : PState} {r : Nat} (hs : Reachable T H s) (hr : Represents s r t) :
    Steps T H s (p.runM T H r s).2 ∧ ∀ a, (p.runM T H r s).1 = .ok a ↔ p.eval T H s.inited t = .ok (.ok a) := by
  have h1 := run_steps (T := T) (H := H) p r s
  have h2 := run_eq hT p hs hr
  unfold Prog.runM
  rw [HM.bind_apply]
  rcases hh : p.run T H r s with ⟨e | x, s'⟩ <;> rw [hh] at h1 h2
  · refine ⟨h1, fun a => ?_⟩
    rw [← h2]
    constructor <;> intro h <;> cases h
  · refine ⟨h1, fun a => ?_⟩
    rw [← h2]
    simp only [HM.lift_apply, Except.ok.injEq]
end

namespace GuMap
section
variable {H : HashFns} {g : GuMapDecl} {ini : List Nat} {t : PTree}
local notation "C" => classes H g

theorem eval_cls_nil {T : Table} {α} {k : Nat → Prog α} : (Prog.cls [] k).eval T H ini t = (k t.cls).eval T H ini t := rfl

theorem sealHash_ok {T : Table} {h : Bytes} : sealHash.eval T H ini t = .ok (.ok h) ↔ SealHashIs T H t h := by
  unfold sealHash SealHashIs sealOf witnessOf
  rw [eval_cls_nil]
  unfold sealPath
  have key : ∀ π, Prog.eval T H ini (Prog.hash π fun h => .ret (.ok h)) t = .ok (.ok h) ↔ ∃ q, (TVal.sub t).walk T ini π = .ok (.sub q) ∧ q.hash T H = .ok h := by
    intro π
    rw [eval_hash_ok]
    constructor
    · rintro ⟨q, d, h1, h2, h3⟩; simp only [Prog.eval, Except.ok.injEq] at h3; subst h3; exact ⟨q, h1, h2⟩
    · rintro ⟨q, h1, h2⟩; exact ⟨q, h, h1, h2, rfl⟩
  have two : ∀ i q, (TVal.sub t).walk T ini [i, 0] = .ok (.sub q) ↔ (t.sub? i).bind (·.sub? 0) = some q := by
    intro i q
    rw [walk2]
    constructor
    · rintro ⟨w, h1, h2⟩; rw [h1]; exact sub?_eq.mpr h2
    · intro h
      cases h1 : t.sub? i with
      | none => rw [h1] at h; cases h
      | some w => rw [h1] at h; exact ⟨w, rfl, sub?_eq.mp h⟩
  by_cases h1 : t.cls = Cls.unusedPrefix
  · simp only [h1, if_true]
    rw [key]
    exact exists_congr fun q => by rw [walk1, sub?_eq]
  · by_cases h2 : t.cls = Cls.leafPrefix
    · simp only [h1, h2, if_false, if_true]
      rw [if_neg (by decide), key]
      exact exists_congr fun q => by rw [two, if_neg (by decide)]
    · by_cases h3 : t.cls = Cls.innerPrefix
      · simp only [h1, h2, h3, if_false, if_true]
        rw [if_neg (by decide), if_neg (by decide), key]
        exact exists_congr fun q => by rw [two, if_neg (by decide), if_neg (by decide)]
      · simp only [h1, h2, h3, if_false]
        constructor
        · intro h; cases h
        · rintro ⟨q, h, _⟩; cases h

theorem ser_other {τ : PrimTy} {d : Bytes} : ¬ τ.ser .other = .ok d := by cases τ <;> simp [PrimTy.ser]

theorem digestAt_ok {T : Table} {k : Kind} {i : Nat} {d : Bytes} : (digestAt k [i]).eval T H ini t = .ok (.ok d) ↔ ∃ v, t.get? i = some v ∧ DigestIs T H k v d := by
  have hash : Prog.eval T H ini (Prog.hash [i] fun h => .ret (.ok h)) t = .ok (.ok d) ↔ ∃ q, t.get? i = some (.sub q) ∧ q.hash T H = .ok d := by
    rw [eval_hash_ok]
    constructor
    · rintro ⟨q, d, h1, h2, h3⟩; simp only [Prog.eval, Except.ok.injEq] at h3; subst h3; exact ⟨q, walk1.mp h1, h2⟩
    · rintro ⟨q, h1, h2⟩; exact ⟨q, d, walk1.mpr h1, h2, rfl⟩
  cases k with
  | prim τ =>
    unfold digestAt
    simp only
    rw [eval_read_ok]
    refine exists_congr fun v => ?_
    rw [walk1]
    refine and_congr_right fun _ => ?_
    cases v with
    | prim w => simp [DigestIs, Prog.eval]
    | sub q => simp only [DigestIs, Prog.eval, iff_false]; exact fun h => ser_other (Except.ok.inj h)
  | proof c =>
    show Prog.eval T H ini (Prog.hash [i] fun h => .ret (.ok h)) t = _ ↔ _
    rw [hash]
    constructor
    · rintro ⟨q, h1, h2⟩; exact ⟨.sub q, h1, h2⟩
    · rintro ⟨v, h1, h2⟩
      cases v with
      | prim w => exact h2.elim
      | sub q => exact ⟨q, h1, h2⟩
  | union c =>
    show Prog.eval T H ini (Prog.hash [i] fun h => .ret (.ok h)) t = _ ↔ _
    rw [hash]
    constructor
    · rintro ⟨q, h1, h2⟩; exact ⟨.sub q, h1, h2⟩
    · rintro ⟨v, h1, h2⟩
      cases v with
      | prim w => exact h2.elim
      | sub q => exact ⟨q, h1, h2⟩

theorem ret_ok {T : Table} {α} {a b : α} : Prog.eval T H ini (pure a : Prog α) t = .ok (.ok b) ↔ a = b := by
  show (Except.ok (Except.ok a) : Py (Py α)) = _ ↔ _
  simp

theorem leafHash_ok {T : Table} (hc : t.cls = Cls.leafPrefix) {h : Bytes} : (leafHash H g).eval T H ini t = .ok (.ok h) ↔ ∃ m, Sealed T H g t m ∧ h = H.sha256 m := by
  unfold leafHash
  simp only [eval_bind_ok, digestAt_ok, ret_ok]
  constructor
  · rintro ⟨kd, ⟨k, hk, hkd⟩, vd, ⟨v, hv, hvd⟩, rfl⟩
    exact ⟨_, .leaf hc hk hv hkd hvd, rfl⟩
  · rintro ⟨m, hm, rfl⟩
    cases hm with
    | leaf _ hk hv hkd hvd => exact ⟨_, ⟨_, hk, hkd⟩, _, ⟨_, hv, hvd⟩, rfl⟩
    | inner h => rw [hc] at h; exact absurd h (by decide)

theorem innerHash_ok {T : Table} (hc : t.cls = Cls.innerPrefix) {l r : PTree} (hl : t.sub? 2 = some l) (hr : t.sub? 3 = some r) {h : Bytes} :
    (innerHash H g).eval T H ini t = .ok (.ok h) ↔ ∃ m, Sealed T H g t m ∧ h = H.sha256 m := by
  unfold innerHash
  simp only [eval_bind_ok, ret_ok, Prog.eval_at (walk1.mpr (sub?_eq.mp hl)), Prog.eval_at (walk1.mpr (sub?_eq.mp hr)), sealHash_ok]
  constructor
  · rintro ⟨a, ha, b, hb, rfl⟩
    exact ⟨_, .inner hc hl hr ha hb, rfl⟩
  · rintro ⟨m, hm, rfl⟩
    cases hm with
    | leaf h => rw [hc] at h; exact absurd h (by decide)
    | inner _ hl' hr' ha hb =>
      rw [hl] at hl'; rw [hr] at hr'
      cases hl'; cases hr'
      exact ⟨_, ha, _, hb, rfl⟩

theorem shape_fakeSeal {q : PTree} (hc : q.cls = Cls.fakeSeal) (hk : q.Checked C) {v : TVal} (hg : q.get? 0 = some v) : ∃ h, q = fakeSealT h ∧ v = .prim (.bytes h) := by
  rcases q with ⟨c, fs⟩ | ⟨c, d⟩
  · simp only [PTree.cls] at hc
    subst hc
    simp only [PTree.Checked, Cls.fakeSeal, classes] at hk
    rcases fs with _ | ⟨w, fs⟩ | ⟨q, fs⟩
    · simp [PFields.Checked] at hk
    · simp only [PFields.Checked] at hk
      obtain ⟨h1, h2⟩ := hk
      cases w <;> simp [PrimTy.check] at h1
      rcases fs with _ | ⟨w, fs⟩ | ⟨q, fs⟩ <;> simp [PFields.Checked] at h2
      simp [PTree.get?, PFields.get?] at hg
      exact ⟨_, rfl, hg.symm⟩
    · simp [PFields.Checked, PrimTy.check] at hk
  · simp [PTree.get?] at hg

theorem shape_fakeWitness {q : PTree} (hc : q.cls = Cls.fakeWitness) (hk : q.Checked C) {v : TVal} (hg : q.get? 0 = some v) : ∃ p, q = fakeWitnessT p ∧ v = .sub p := by
  rcases q with ⟨c, fs⟩ | ⟨c, d⟩
  · simp only [PTree.cls] at hc
    subst hc
    simp only [PTree.Checked, Cls.fakeWitness, classes] at hk
    rcases fs with _ | ⟨w, fs⟩ | ⟨p, fs⟩
    · simp [PFields.Checked] at hk
    · simp [PFields.Checked] at hk
    · simp only [PFields.Checked] at hk
      obtain ⟨_, h1, h2⟩ := hk
      rcases fs with _ | ⟨w, fs⟩ | ⟨q, fs⟩ <;> simp [PFields.Checked] at h2
      simp [PTree.get?, PFields.get?] at hg
      exact ⟨_, rfl, hg.symm⟩
  · simp [PTree.get?] at hg

theorem fakeVerifyHash_ok (hk : t.Checked C) {h : Bytes} : (fakeVerifyHash h []).eval C H ini t = .ok (.ok ()) ↔ IsFake t h := by
  unfold fakeVerifyHash IsFake
  simp only [eval_onCls_ok, List.nil_append]
  constructor
  · rintro ⟨⟨q, h1, h2⟩, ⟨p, h3, h4⟩, h5⟩
    rw [walk_nil] at h1; subst h1
    rw [walk1] at h3
    obtain ⟨p', rfl, he⟩ := shape_fakeWitness h2 hk h3
    cases he
    rw [eval_read_ok] at h5
    obtain ⟨v, hv, h5⟩ := h5
    obtain ⟨p', hp', hg⟩ := walk2.mp hv
    rw [sub?_eq, h3] at hp'
    cases hp'
    obtain ⟨b, rfl, rfl⟩ := shape_fakeSeal h4 (hk.sub (sub?_eq.mpr h3)) hg
    simp only [Prog.eval, Except.ok.injEq, pyAssert_ok, beq_iff_eq] at h5
    rw [h5]
  · rintro rfl
    refine ⟨⟨_, rfl, rfl⟩, ⟨_, rfl, rfl⟩, ?_⟩
    show Except.ok (pyAssert (h == h)) = _
    simp [pyAssert]

theorem verifyHash_ok (hk : t.Checked C) {h : Bytes} : (verifyHash H h).eval C H ini t = .ok (.ok ()) ↔
    IsFake t h ∨ (t.cls = Cls.btcWitness ∧ (witnessVerifyHash H h []).eval C H ini t = .ok (.ok ())) := by
  unfold verifyHash
  rw [eval_cls_ok]
  constructor
  · rintro ⟨q, hq, h⟩
    rw [walk_nil] at hq; subst hq
    split at h
    · exact .inl ((fakeVerifyHash_ok hk).mp h)
    · split at h
      · next h' => exact .inr ⟨h', h⟩
      · cases h
  · rintro (h | ⟨h1, h2⟩)
    · refine ⟨t, rfl, ?_⟩
      rw [if_pos (by rw [h]; rfl)]
      exact (fakeVerifyHash_ok hk).mpr h
    · refine ⟨t, rfl, ?_⟩
      rw [h1, if_neg (by decide), if_pos rfl]
      exact h2

/-- What `verify()` of a node checks. -/
theorem verify_ok (hk : t.Checked C) : (verify H g).eval C H ini t = .ok (.ok ()) ↔
    t.cls = Cls.unusedPrefix ∨ ∃ w m, witnessOf t = some w ∧ Sealed C H g t m ∧ (verifyHash H (H.sha256 m)).eval C H ini w = .ok (.ok ()) := by
  unfold verify
  rw [eval_cls_ok]
  constructor
  · rintro ⟨q, hq, h⟩
    rw [walk_nil] at hq; subst hq
    split at h
    · next h' => exact .inl h'
    · split at h
      · next hn hc =>
        right
        rw [eval_cls_ok] at h
        obtain ⟨w, hw, h⟩ := h
        rw [eval_bind_ok] at h
        obtain ⟨d, hd, h⟩ := h
        rw [Prog.eval_at hw] at h
        obtain ⟨m, hm, rfl⟩ := (leafHash_ok hc).mp hd
        exact ⟨w, m, by unfold witnessOf; rw [if_pos hc, sub?_eq, ← walk1 (T := C) (ini := ini)]; exact hw, hm, h⟩
      · split at h
        · next hn hn' hc =>
          right
          rw [eval_cls_ok] at h
          obtain ⟨w, hw, h⟩ := h
          rw [eval_bind_ok] at h
          obtain ⟨d, hd, h⟩ := h
          rw [Prog.eval_at hw] at h
          obtain ⟨m, hm, rfl⟩ : ∃ m, Sealed C H g q m ∧ d = H.sha256 m := by
            have hd' := hd
            unfold innerHash at hd'
            simp only [eval_bind_ok, ret_ok] at hd'
            have sub : ∀ i (a : Bytes), (sealHash.at [i]).eval C H ini q = .ok (.ok a) → ∃ l, q.sub? i = some l := by
              intro i a ha
              unfold sealHash at ha
              simp only [Prog.at, List.append_nil] at ha
              rw [eval_cls_ok] at ha
              obtain ⟨l, hl, _⟩ := ha
              exact ⟨l, sub?_eq.mpr (walk1.mp hl)⟩
            obtain ⟨a, ha, b, hb, _⟩ := hd'
            obtain ⟨l, hl⟩ := sub 2 a ha
            obtain ⟨r, hr⟩ := sub 3 b hb
            exact (innerHash_ok hc hl hr).mp hd
          exact ⟨w, m, by unfold witnessOf; rw [if_neg hn', if_pos hc, sub?_eq, ← walk1 (T := C) (ini := ini)]; exact hw, hm, h⟩
        · cases h
  · rintro (h | ⟨w, m, hw, hm, h⟩)
    · refine ⟨t, rfl, ?_⟩
      rw [if_pos h]; rfl
    · refine ⟨t, rfl, ?_⟩
      cases hm with
      | leaf hc hk hv hkd hvd =>
        rw [if_neg (by rw [hc]; decide), if_pos hc, eval_cls_ok]
        unfold witnessOf at hw
        rw [if_pos hc, sub?_eq] at hw
        have hw' := (walk1 (T := C) (ini := ini)).mpr hw
        refine ⟨w, hw', ?_⟩
        rw [eval_bind_ok]
        refine ⟨_, (leafHash_ok hc).mpr ⟨_, .leaf hc hk hv hkd hvd, rfl⟩, ?_⟩
        rw [Prog.eval_at hw']; exact h
      | inner hc hl hr ha hb =>
        rw [if_neg (by rw [hc]; decide), if_neg (by rw [hc]; decide), if_pos hc, eval_cls_ok]
        unfold witnessOf at hw
        rw [if_neg (by rw [hc]; decide), if_pos hc, sub?_eq] at hw
        have hw' := (walk1 (T := C) (ini := ini)).mpr hw
        refine ⟨w, hw', ?_⟩
        rw [eval_bind_ok]
        refine ⟨_, (innerHash_ok hc hl hr).mpr ⟨_, .inner hc hl hr ha hb, rfl⟩, ?_⟩
        rw [Prog.eval_at hw']; exact h

theorem verifyFull_inv (hk : t.Checked C) (h : (verifyFull H g).eval C H ini t = .ok (.ok ())) :
    t.cls = Cls.unusedPrefix ∨ ∃ w m, witnessOf t = some w ∧ Sealed C H g t m ∧ (IsFake w (H.sha256 m) ∨ IsClosed H w (H.sha256 m)) := by
  unfold verifyFull at h
  rw [eval_bind_ok] at h
  obtain ⟨_, h1, h2⟩ := h
  rcases (verify_ok hk).mp h1 with h1 | ⟨w, m, hw, hm, hv⟩
  · exact .inl h1
  · right
    have hi : ∃ i, t.sub? i = some w ∧ i = (if t.cls = Cls.leafPrefix then 0 else 1) ∧ t.cls ≠ Cls.unusedPrefix := by
      cases hm with
      | leaf hc hk hv hkd hvd => rw [witnessOf, if_pos hc] at hw; exact ⟨0, hw, by rw [if_pos hc], by rw [hc]; decide⟩
      | inner hc hl hr ha hb =>
        rw [witnessOf, if_neg (by rw [hc]; decide), if_pos hc] at hw
        exact ⟨1, hw, by rw [if_neg (by rw [hc]; decide)], by rw [hc]; decide⟩
    obtain ⟨i, hsub, hi, hne⟩ := hi
    have hkw := hk.sub hsub
    refine ⟨w, m, hw, hm, ?_⟩
    rcases (verifyHash_ok hkw).mp hv with h | ⟨hc, h⟩
    · exact .inl h
    · right
      rw [eval_cls_ok] at h2
      obtain ⟨q, hq, h2⟩ := h2
      rw [walk_nil] at hq; subst hq
      rw [if_neg hne] at h2
      simp only [← hi] at h2
      rw [eval_cls_ok] at h2
      obtain ⟨w', hw', h2⟩ := h2
      rw [walk1, sub?_eq.mp hsub] at hw'
      cases hw'
      rw [if_pos hc, Prog.eval_at (walk1.mpr (sub?_eq.mp hsub))] at h2
      exact both_inv hkw h2 h

theorem eval_at_inv {T : Table} {α} {ρ : List Nat} {k : Nat → Prog α} {a : α} (h : ((Prog.cls [] k).at ρ).eval T H ini t = .ok (.ok a)) :
    ∃ q, (TVal.sub t).walk T ini ρ = .ok (.sub q) := by
  simp only [Prog.at, List.append_nil] at h
  rw [eval_cls_ok] at h
  obtain ⟨q, hq, _⟩ := h
  exact ⟨q, hq⟩

theorem nodeAt_walk {T : Table} : ∀ (π : List Bool) {t n : PTree}, nodeAt t π = some n → (TVal.sub t).walk T ini (attrPath π) = .ok (.sub n)
  | [], t, n, h => by cases h; rfl
  | b :: π, t, n, h => by
    unfold nodeAt at h
    split at h
    · cases hq : t.sub? (if b then 3 else 2) with
      | none => rw [hq] at h; cases h
      | some q =>
        rw [hq] at h
        have := nodeAt_walk (T := T) π (t := q) h
        show (TVal.sub t).walk T ini ([if b then 3 else 2] ++ attrPath π) = _
        rw [walk_append, walk1.mpr (sub?_eq.mp hq)]
        exact this
    · cases h

theorem nodeAt_checked {T : Table} : ∀ (π : List Bool) {t n : PTree}, t.Checked T → nodeAt t π = some n → n.Checked T
  | [], t, n, hk, h => by cases h; exact hk
  | b :: π, t, n, hk, h => by
    unfold nodeAt at h
    split at h
    · cases hq : t.sub? (if b then 3 else 2) with
      | none => rw [hq] at h; cases h
      | some q => rw [hq] at h; exact nodeAt_checked π (hk.sub hq) h
    · cases h
end
end GuMap
end Verif
