import Verif.Spec.ProofSent
import Verif.Props.Bits
import Verif.Lemmas.ProofShip
import Verif.Lemmas.ProofTrack
/-! What happens to a pruned proof whose variant numbers are not sent. -/
namespace Verif
set_option linter.unusedSectionVars false
variable {T : Table} {H : HashFns} {bad : Prop}

mutual
/-- Like `WellTyped`, but the class of a pruned part does not matter (it is not sent), and if `bad` there may be Bits that
cannot be read back. -/
def PTree.Sendable (T : Table) (bad : Prop) : PTree → Nat → Prop
  | .node c' fs, c =>
    (match (T c).variants with
      | none => c' = c
      | some us => ∃ i : Nat, us[i]? = some c' ∧ (T c').variants = some us ∧ T.First us c' i) ∧
    PFields.Sendable T bad fs (T c').attrs
  | .pruned _ d, _ => d.length = 32
def PFields.Sendable (T : Table) (bad : Prop) : PFields → List Kind → Prop
  | .nil, [] => True
  | .prim v fs, .prim τ :: ks => (τ.check v = .ok () ∧ (τ.RoundTrips v ∨ (bad ∧ τ = .bits)) ∧ ∃ e, τ.ser v = .ok e) ∧ PFields.Sendable T bad fs ks
  | .sub t fs, .proof c :: ks => PTree.Sendable T bad t c ∧ PFields.Sendable T bad fs ks
  | .sub t fs, .union us :: ks =>
    (∃ (i u : Nat), us[i]? = some u ∧ T.First us t.cls i ∧ PTree.Sendable T bad t u) ∧ PFields.Sendable T bad fs ks
  | _, _ => False
end

mutual
/-- What arrives where class `c` is expected. -/
def PTree.recv (T : Table) : PTree → Nat → PTree
  | .node c' fs, _ => .node c' (fs.recv T (T c').attrs)
  | .pruned _ d, c => .pruned c d
def PFields.recv (T : Table) : PFields → List Kind → PFields
  | .prim v fs, _ :: ks => .prim v (fs.recv T ks)
  | .sub t fs, .proof c :: ks => .sub (t.recv T c) (fs.recv T ks)
  | .sub t fs, .union us :: ks => .sub (t.recv T (match Prf.unionIndex T us t.cls with | .ok i => us[i]?.getD 0 | .error _ => 0)) (fs.recv T ks)
  | .sub t fs, .prim _ :: ks => .sub t (fs.recv T ks)
  | .nil, _ => .nil
  | .prim v fs, [] => .prim v fs
  | .sub t fs, [] => .sub t fs
end

theorem PFields.recv_length : ∀ (fs : PFields) (ks : List Kind), (fs.recv T ks).length = fs.length
  | .nil, ks => by cases ks <;> simp [PFields.recv, PFields.length]
  | .prim v fs, [] => by simp [PFields.recv]
  | .sub t fs, [] => by simp [PFields.recv]
  | .prim v fs, k :: ks => by simp [PFields.recv, PFields.length, PFields.recv_length fs ks]
  | .sub t fs, k :: ks => by cases k <;> simp [PFields.recv, PFields.length, PFields.recv_length fs ks]

theorem PFields.Sendable.length : ∀ {fs : PFields} {ks : List Kind}, fs.Sendable T bad ks → fs.length = ks.length
  | .nil, [], _ => rfl
  | .prim v fs, .prim τ :: ks, h => by
    rw [PFields.Sendable] at h
    simp [PFields.length, PFields.Sendable.length h.2]
  | .sub t fs, .proof c :: ks, h => by
    rw [PFields.Sendable] at h
    simp [PFields.length, PFields.Sendable.length h.2]
  | .sub t fs, .union us :: ks, h => by
    rw [PFields.Sendable] at h
    simp [PFields.length, PFields.Sendable.length h.2]
  | .nil, _ :: _, h => by simp [PFields.Sendable] at h
  | .prim _ _, [], h => by simp [PFields.Sendable] at h
  | .sub _ _, [], h => by simp [PFields.Sendable] at h
  | .prim _ _, .proof _ :: _, h => by simp [PFields.Sendable] at h
  | .prim _ _, .union _ :: _, h => by simp [PFields.Sendable] at h
  | .sub _ _, .prim _ :: _, h => by simp [PFields.Sendable] at h

/-- What can be raised when something that was sent is read. -/
def Fails (bad : Prop) (e : PyErr) : Prop := e = .serType ∨ (bad ∧ (e = .indexError ∨ e = .assertion))

theorem Fails.type : Fails bad .serType := .inl rfl

/-- The outcome of reading something that was sent: what arrives, if all Bits in it can be read back, or an exception. -/
def Arrives (bad : Prop) (rest : Bytes) (t : PTree) (c : Nat) (res : Py (Nat × Bytes)) (τ : List PTree) : Prop :=
  (∃ e, res = .error e ∧ Fails bad e) ∨ ∃ r, res = .ok (r, rest) ∧ τ[r]? = some (t.recv T c) ∧ t.Plain

/-- A bit string is read back, or there is an exception. -/
theorem bits_sent {v : PVal} {a : Bytes} (hc : PrimTy.bits.check v = .ok ()) (hs : PrimTy.bits.ser v = .ok a) (rest : Bytes) :
    (PrimTy.bits.deser (a ++ rest) = .ok (v, rest) ∧ v.Reads) ∨ PrimTy.bits.deser (a ++ rest) = .error .indexError ∨ PrimTy.bits.deser (a ++ rest) = .error .assertion := by
  cases v with
  | bits xs =>
    by_cases hr : PrimTy.bits.RoundTrips (.bits xs)
    · exact .inl ⟨(RT.prim hc hs hr).reads rest, hr⟩
    · right
      obtain ⟨h1, h2⟩ := Bits.ofIter_spec xs
      obtain ⟨enc, he, hd⟩ := C18_roundtrip_partial h1 (Bits.iter_eq h1) rest
      rw [h2] at hd
      have hd : Bits.deserialize (enc ++ rest) = .error (if xs = [] then .indexError else .assertion) := by
        split at hd
        · rename_i h; exact absurd h hr
        · exact hd
      rw [PrimTy.ser, he] at hs
      cases hs
      rw [PrimTy.deser]
      have : (do let b ← Bits.deserialize; let xs ← P.lift b.iter; return .bits xs : P PVal) (a ++ rest) = .error (if xs = [] then .indexError else .assertion) := P.bind_error hd
      rw [this]
      split
      · exact .inl rfl
      · exact .inr rfl
  | _ => cases hs

theorem reads_of {τ : PrimTy} {v : PVal} (hc : τ.check v = .ok ()) (h : τ.RoundTrips v) : v.Reads := by
  cases v with
  | bits xs => cases τ <;> first | exact h | cases hc
  | _ => trivial

theorem deserLoop_sent {df : Nat → Bytes → HM (Nat × Bytes)} {m : Nat}
    (hdf : ∀ (s : PState) (τ : List PTree) (c : Nat) (t : PTree) (b rest : Bytes), Inv T H s τ → t.Sendable T bad c → t.enc T = .ok b → t.depth ≤ m →
      HSpec T H SerExt (df c (b ++ rest)) s τ (fun res _ τ' => Arrives (T := T) bad rest t c res τ')) :
    ∀ (ks : List Kind) (fs : PFields) (s : PState) (τ : List PTree) (b rest : Bytes), Inv T H s τ → fs.Sendable T bad ks → fs.enc T ks = .ok b → fs.depth ≤ m →
      HSpec T H SerExt (Prf.deserLoop df ks (b ++ rest)) s τ (fun res _ τ' => (∃ e, res = .error e ∧ Fails bad e) ∨ ∃ vs, res = .ok (vs, rest) ∧ AllIs τ' vs (fs.recv T ks) ∧ fs.Plain) := by
  intro ks
  induction ks with
  | nil =>
    intro fs s τ b rest hi hw he _
    cases fs with
    | nil =>
      simp only [PFields.enc, Except.ok.injEq] at he
      subst he
      exact .noop .refl rfl hi (.inr ⟨[], rfl, by rw [PFields.recv]; exact .nil, trivial⟩)
    | prim _ _ => simp [PFields.Sendable] at hw
    | sub _ _ => simp [PFields.Sendable] at hw
  | cons k ks ih =>
    intro fs s τ b rest hi hw he hd
    rw [Prf.deserLoop]
    cases fs with
    | nil => simp [PFields.Sendable] at hw
    | prim v fs =>
      cases k with
      | proof c => simp [PFields.Sendable] at hw
      | union us => simp [PFields.Sendable] at hw
      | prim τ' =>
        rw [PFields.Sendable] at hw
        rw [PFields.enc_prim] at he
        obtain ⟨a, ha, he⟩ := Except.bind_eq_ok he
        obtain ⟨x, hx, he⟩ := Except.bind_eq_ok he
        cases he
        rw [PFields.depth] at hd
        have hread : (τ'.deser (a ++ (x ++ rest)) = .ok (v, x ++ rest) ∧ v.Reads) ∨ ∃ e, τ'.deser (a ++ (x ++ rest)) = .error e ∧ Fails bad e := by
          rcases hw.1.2.1 with hr | ⟨hb, rfl⟩
          · exact .inl ⟨(RT.prim hw.1.1 ha hr).reads (x ++ rest), reads_of hw.1.1 hr⟩
          · rcases bits_sent hw.1.1 ha (x ++ rest) with h | h | h
            · exact .inl h
            · exact .inr ⟨_, h, .inr ⟨hb, .inl rfl⟩⟩
            · exact .inr ⟨_, h, .inr ⟨hb, .inr rfl⟩⟩
        have hA : HSpec T H SerExt (Prf.attrDeser df (.prim τ') (a ++ x ++ rest)) s τ (fun res s' τ1 => (∃ e, res = .error e ∧ Fails bad e) ∨ res = .ok (.prim v, x ++ rest) ∧ v.Reads) := by
          rcases hread with ⟨hread, hv⟩ | ⟨e, hread, hf⟩
          · refine .noop .refl ?_ hi (.inr ⟨rfl, hv⟩)
            rw [Prf.attrDeser, HM.bind_apply]
            unfold HM.read
            rw [List.append_assoc, hread]; rfl
          · refine .noop .refl ?_ hi (.inl ⟨e, rfl, hf⟩)
            rw [Prf.attrDeser, HM.bind_apply]
            unfold HM.read
            rw [List.append_assoc, hread]
        refine HSpec.bind .trans hA ?_ ?_
        · rintro ⟨v1, b1⟩ s1 τ1 hi1 _ _ (⟨_, h, _⟩ | ⟨hv1, hreads⟩)
          · cases h
          cases hv1
          refine HSpec.bind .trans (ih fs s1 τ1 x rest hi1 hw.2 hx hd) ?_ ?_
          · rintro ⟨vs, b2⟩ s2 τ2 hi2 _ _ (⟨_, h, _⟩ | ⟨vs', hvs, hall⟩)
            · cases h
            cases hvs
            refine .noop .refl rfl hi2 (.inr ⟨_, rfl, ?_⟩)
            rw [PFields.recv, PFields.Plain]
            exact ⟨.prim hall.1, hreads, hall.2⟩
          · rintro e s2 τ2 _ _ (⟨_, h, hf⟩ | ⟨vs', hvs, _⟩)
            · cases h; exact .inl ⟨_, rfl, hf⟩
            · cases hvs
        · rintro e s1 τ1 _ _ (⟨_, h, hf⟩ | ⟨h, _⟩)
          · cases h; exact .inl ⟨_, rfl, hf⟩
          · cases h
    | sub t fs =>
      rw [PFields.depth] at hd
      rw [PFields.enc_sub] at he
      obtain ⟨a, ha, he⟩ := Except.bind_eq_ok he
      obtain ⟨x, hx, he⟩ := Except.bind_eq_ok he
      cases he
      have hrc : ∃ q, (PFields.sub t fs).recv T (k :: ks) = .sub (t.recv T q) (fs.recv T ks) ∧
          HSpec T H SerExt (Prf.attrDeser df k (a ++ x ++ rest)) s τ (fun res s' τ1 => (∃ e, res = .error e ∧ Fails bad e) ∨
            ∃ r, res = .ok (.ref r, x ++ rest) ∧ τ1[r]? = some (t.recv T q) ∧ t.Plain) := by
        cases k with
        | prim τ' => simp [PFields.Sendable] at hw
        | proof c =>
          rw [PFields.Sendable] at hw
          refine ⟨c, by rw [PFields.recv], ?_⟩
          rw [Prf.attrDeser]
          have ha : t.enc T = .ok a := ha
          rw [List.append_assoc]
          refine HSpec.bind .trans (hdf s τ c t a (x ++ rest) hi hw.1 ha (by omega)) ?_ ?_
          · rintro ⟨r, b1⟩ s1 τ1 hi1 _ _ (⟨_, h, _⟩ | ⟨r', hr', hf⟩)
            · cases h
            cases hr'
            exact .noop .refl rfl hi1 (.inr ⟨_, rfl, hf⟩)
          · rintro e s1 τ1 _ _ (⟨_, h, hf⟩ | ⟨r', hr', _⟩)
            · cases h; exact .inl ⟨_, rfl, hf⟩
            · cases hr'
        | union us =>
          rw [PFields.Sendable] at hw
          obtain ⟨⟨i, u, hu, hidx, htw⟩, _⟩ := hw
          have hidx := hidx.unionIndex
          simp only [TVal.enc] at ha
          obtain ⟨j, hj, ha⟩ := Except.bind_eq_ok ha
          obtain ⟨y, hy, ha⟩ := Except.bind_eq_ok ha
          rw [hidx] at hj
          cases hj
          cases ha
          refine ⟨u, by rw [PFields.recv, hidx]; simp only [hu, Option.getD_some], ?_⟩
          rw [Prf.attrDeser]
          refine HSpec.bind .trans (read_spec hi readVaruint _) ?_ ?_
          · rintro ⟨i', b1⟩ s1 τ1 hi1 _ _ ⟨hrd, rfl, rfl⟩
            rw [List.append_assoc, List.append_assoc, readVaruint_write] at hrd
            cases hrd
            simp only [hu]
            refine HSpec.bind .trans (hdf s1 τ1 u t y (x ++ rest) hi1 htw hy (by omega)) ?_ ?_
            · rintro ⟨r, b1⟩ s2 τ2 hi2 _ _ (⟨_, h, _⟩ | ⟨r', hr', hf⟩)
              · cases h
              cases hr'
              exact .noop .refl rfl hi2 (.inr ⟨_, rfl, hf⟩)
            · rintro e s1 τ1 _ _ (⟨_, h, hf⟩ | ⟨r', hr', _⟩)
              · cases h; exact .inl ⟨_, rfl, hf⟩
              · cases hr'
          · rintro e s1 τ1 _ _ ⟨hrd, _⟩
            rw [List.append_assoc, List.append_assoc, readVaruint_write] at hrd
            cases hrd
      have hws : fs.Sendable T bad ks := by
        cases k with
        | prim τ' => simp [PFields.Sendable] at hw
        | proof c => rw [PFields.Sendable] at hw; exact hw.2
        | union us => rw [PFields.Sendable] at hw; exact hw.2
      obtain ⟨q, hq, hA⟩ := hrc
      rw [hq]
      refine HSpec.bind .trans hA ?_ ?_
      · rintro ⟨v1, b1⟩ s1 τ1 hi1 _ _ (⟨_, h, _⟩ | ⟨r, hr, hf⟩)
        · cases h
        cases hr
        refine HSpec.bind .trans (ih fs s1 τ1 x rest hi1 hws hx (by omega)) ?_ ?_
        · rintro ⟨vs, b2⟩ s2 τ2 hi2 he2 ⟨z, rfl⟩ (⟨_, h, _⟩ | ⟨vs', hvs, hall⟩)
          · cases h
          cases hvs
          exact .noop .refl rfl hi2 (.inr ⟨_, rfl, .ref (append_get hf.1) hall.1, by rw [PFields.Plain]; exact ⟨hf.2, hall.2⟩⟩)
        · rintro e s2 τ2 _ _ (⟨_, h, hf⟩ | ⟨vs', hvs, _⟩)
          · cases h; exact .inl ⟨_, rfl, hf⟩
          · cases hvs
      · rintro e s1 τ1 _ _ (⟨_, h, hf⟩ | ⟨r, h, _⟩)
        · cases h; exact .inl ⟨_, rfl, hf⟩
        · cases h

/-- The constructor can complain of nothing but the class of a proof. -/
theorem checkVals_sent {s : PState} {τ : List PTree} (hi : Inv T H s τ) : ∀ {ks : List Kind} {vs : List HVal} {fs : PFields}, fs.Sendable T bad ks →
    AllIs τ vs (fs.recv T ks) → ∀ e, (Prf.checkVals T ks vs s).1 = .error e → e = .serType := by
  intro ks
  induction ks with
  | nil => intro vs fs _ _ e h; cases vs <;> cases h
  | cons k ks ih =>
    intro vs fs hw hall e h
    have tail : ∀ (v : HVal) (vs : List HVal) (fs : PFields), (∀ e, (Prf.checkVal T k v s).1 = .error e → e = .serType) → fs.Sendable T bad ks →
        AllIs τ vs (fs.recv T ks) → (Prf.checkVals T (k :: ks) (v :: vs) s).1 = .error e → e = .serType := by
      intro v vs fs hv hfs hall h2
      rw [Prf.checkVals, HM.bind_apply] at h2
      have hst := checkVal_state (T := T) k v s
      rcases hx : Prf.checkVal T k v s with ⟨e' | a, s1⟩
      · rw [hx] at h2 hv
        simp only at h2
        cases h2
        exact hv _ rfl
      · rw [hx] at h2 hst
        simp only at h2 hst
        subst hst
        rw [HM.bind_apply] at h2
        rcases hy : Prf.checkVals T ks vs s1 with ⟨e' | b, s2⟩
        · rw [hy] at h2
          simp only at h2
          cases h2
          exact ih hfs hall e (by rw [hy])
        · rw [hy] at h2
          cases h2
    have href : ∀ (r : Nat) (t : PTree), τ[r]? = some t → (∀ τ', k ≠ .prim τ') → ∀ e, (Prf.checkVal T k (.ref r) s).1 = .error e → e = .serType := by
      intro r t ht hk e h
      obtain ⟨o, ho, _⟩ := hi.some_obj ht
      cases k with
      | prim τ' => exact absurd rfl (hk τ')
      | proof c =>
        simp only [Prf.checkVal] at h
        rw [HM.bind_obj ho] at h
        cases hv : (T c).variants with
        | none => rw [hv] at h; cases h
        | some us =>
          rw [hv] at h
          simp only at h
          split at h
          · cases h
          · cases h; rfl
      | union us =>
        simp only [Prf.checkVal] at h
        rw [HM.bind_obj ho] at h
        split at h
        · cases h
        · cases h; rfl
    cases fs with
    | nil => simp [PFields.Sendable] at hw
    | prim v fs =>
      cases k with
      | proof c => simp [PFields.Sendable] at hw
      | union us => simp [PFields.Sendable] at hw
      | prim τ' =>
        rw [PFields.Sendable] at hw
        rw [PFields.recv] at hall
        cases hall with
        | prim hall =>
          refine tail _ _ fs ?_ hw.2 hall h
          intro e h
          simp only [Prf.checkVal] at h
          rw [HM.bind_apply, HM.lift_apply, hw.1.1] at h
          cases h
    | sub t fs =>
      cases k with
      | prim τ' => simp [PFields.Sendable] at hw
      | proof c =>
        rw [PFields.Sendable] at hw
        rw [PFields.recv] at hall
        cases hall with
        | ref hr hall => exact tail _ _ fs (href _ _ hr (by simp)) hw.2 hall h
      | union us =>
        rw [PFields.Sendable] at hw
        rw [PFields.recv] at hall
        cases hall with
        | ref hr hall => exact tail _ _ fs (href _ _ hr (by simp)) hw.2 hall h

theorem new_sent {s : PState} {τ : List PTree} (hi : Inv T H s τ) (c : Nat) {vs : List HVal} {fs : PFields} (hw : fs.Sendable T bad (T c).attrs)
    (hall : AllIs τ vs (fs.recv T (T c).attrs)) : ∀ e, (Prf.new T c vs s).1 = .error e → e = .serType := by
  intro e h
  obtain ⟨hi0, _, _, _⟩ := initClass_inv hi c
  have hrun : Prf.new T c vs s = (do
      let p ← Prf.checkVals T (T c).attrs vs
      HM.alloc { cls := c, fields := (vs.take (T c).attrs.length).map some, isPruned := p } : HM Nat) (Prf.initClass c s).2 := rfl
  rw [hrun, HM.bind_apply] at h
  generalize (Prf.initClass c s).2 = s0 at *
  rcases hx : Prf.checkVals T (T c).attrs vs s0 with ⟨e' | p, s1⟩
  · rw [hx] at h
    cases h
    exact checkVals_sent hi0 hw hall e (by rw [hx])
  · rw [hx] at h
    cases h

theorem deserF_sent (hT : T.WF) : ∀ (n : Nat) (s : PState) (τ : List PTree) (c : Nat) (t : PTree) (b rest : Bytes), Inv T H s τ → t.Sendable T bad c →
    t.enc T = .ok b → t.depth ≤ n →
    HSpec T H SerExt (Prf.deserF T n c (b ++ rest)) s τ (fun res _ τ' => Arrives (T := T) bad rest t c res τ') := by
  intro n
  induction n with
  | zero => intro s τ c t b rest _ _ _ h; cases t <;> simp [PTree.depth] at h
  | succ n ih =>
    intro s τ c t b rest hi hw he hd
    cases t with
    | pruned c' d =>
      rw [PTree.Sendable] at hw
      have hw' : (PTree.pruned c d).WellTyped T c := by rw [PTree.WellTyped]; exact ⟨rfl, hw⟩
      have he' : (PTree.pruned c d).enc T = .ok b := by rw [PTree.enc] at he ⊢; exact he
      refine (deserF_rt hT (n + 1) s τ c _ b rest hi hw' he' (by simp [PTree.depth])).mono (fun _ h => h) ?_
      rintro res s' τ' _ _ ⟨r, hr, hf, _⟩
      exact .inr ⟨r, hr, by rw [PTree.recv]; exact hf, trivial⟩
    | node c' fs =>
      rw [Prf.deserF]
      rw [PTree.depth] at hd
      rw [PTree.Sendable] at hw
      rw [PTree.enc] at he
      obtain ⟨vb, hvb, he⟩ := Except.bind_eq_ok he
      obtain ⟨x, hx, he⟩ := Except.bind_eq_ok he
      cases he
      have hrb : readBool (0x00#8 :: (vb ++ x) ++ rest) = .ok (false, vb ++ x ++ rest) := readBool_write false (vb ++ x ++ rest)
      refine HSpec.bind .trans (read_spec hi readBool _) ?_ ?_
      · rintro ⟨pr, b1⟩ s1 τ1 hi1 _ _ ⟨hrd, rfl, rfl⟩
        rw [hrb] at hrd
        cases hrd
        simp only
        have hV : HSpec T H SerExt (Prf.variantOf T c (vb ++ x ++ rest)) s1 τ1 (fun res _ _ => res = .ok (c', x ++ rest)) := by
          unfold Prf.variantOf
          cases hv : (T c).variants with
          | none =>
            rw [hv] at hw
            simp only at hw
            rw [hw.1] at hvb
            rw [Prf.variantBytes, hv] at hvb
            cases hvb
            rw [hw.1]
            exact .noop .refl rfl hi1 rfl
          | some us =>
            rw [hv] at hw
            simp only at hw
            obtain ⟨⟨i, hui, hvc, hidx⟩, _⟩ := hw
            have hidx := hidx.unionIndex
            rw [Prf.variantBytes, hvc] at hvb
            simp only [hidx] at hvb
            cases hvb
            simp only
            refine HSpec.bind .trans (read_spec hi1 readVaruint _) ?_ ?_
            · rintro ⟨i', b2⟩ s2 τ2 hi2 _ _ ⟨hrd, rfl, rfl⟩
              rw [List.append_assoc, readVaruint_write] at hrd
              cases hrd
              simp only [hui]
              exact .noop .refl rfl hi2 rfl
            · rintro e s2 τ2 _ _ ⟨hrd, _⟩
              rw [List.append_assoc, readVaruint_write] at hrd; cases hrd
        refine HSpec.bind .trans hV ?_ ?_
        · rintro ⟨u, b2⟩ s2 τ2 hi2 _ _ hu
          cases hu
          refine HSpec.bind .trans (deserLoop_sent ih _ fs s2 τ2 x rest hi2 hw.2 hx (by omega)) ?_ ?_
          · rintro ⟨vs, b3⟩ s3 τ3 hi3 _ _ (⟨_, h, _⟩ | ⟨vs', hvs, hall, hplain⟩)
            · cases h
            cases hvs
            have htake : vs.take (T c').attrs.length = vs := by
              apply List.take_of_length_le
              rw [← hall.length, PFields.recv_length, hw.2.length]; exact Nat.le_refl _
            have hns := new_sent hi3 c' hw.2 hall
            have hsp := new_spec hT hi3 c' (vs := vs) (fs := fs.recv T (T c').attrs) (by rw [htake]; exact hall)
            unfold HSpec at hsp
            obtain ⟨τ4, hi4, he4, _, h4⟩ := hsp
            unfold HSpec
            rw [HM.bind_apply]
            rcases hx : Prf.new T c' vs s3 with ⟨e | r, s4⟩
            · rw [hx] at hns hi4 he4
              exact ⟨τ4, hi4, he4, .inl ⟨e, rfl, .inl (hns e rfl)⟩⟩
            · rw [hx] at hi4 he4 h4
              refine ⟨τ4, hi4, he4, .inr ⟨r, rfl, ?_, hplain⟩⟩
              rw [PTree.recv]
              exact (h4 r rfl).2.1
          · rintro e s3 τ3 _ _ (⟨_, h, hf⟩ | ⟨vs', hvs, _⟩)
            · cases h; exact .inl ⟨_, rfl, hf⟩
            · cases hvs
        · rintro e s2 τ2 _ _ h; cases h
      · rintro e s1 τ1 _ _ ⟨hrd, _⟩
        rw [hrb] at hrd; cases hrd

/-! ### Depth -/

mutual
theorem PTree.depth_le_sent : ∀ {t : PTree} {c : Nat} {b : Bytes}, t.Sendable T bad c → t.enc T = .ok b → t.depth ≤ b.length
  | .node c fs, _, b, hw, h => by
    rw [PTree.Sendable] at hw
    rw [PTree.enc] at h
    obtain ⟨v, _, h⟩ := Except.bind_eq_ok h
    obtain ⟨x, hx, h⟩ := Except.bind_eq_ok h
    cases h
    have := PFields.depth_le_sent hw.2 hx
    rw [PTree.depth]
    simp only [List.length_cons, List.length_append]
    omega
  | .pruned c d, _, b, _, h => by
    rw [PTree.enc] at h
    cases h
    simp [PTree.depth]
theorem PFields.depth_le_sent : ∀ {fs : PFields} {ks : List Kind} {b : Bytes}, fs.Sendable T bad ks → fs.enc T ks = .ok b → fs.depth ≤ b.length
  | .nil, [], _, _, _ => by simp [PFields.depth]
  | .prim v fs, .prim τ :: ks, b, hw, h => by
    rw [PFields.Sendable] at hw
    rw [PFields.enc_prim] at h
    obtain ⟨a, ha, h⟩ := Except.bind_eq_ok h
    obtain ⟨x, hx, h⟩ := Except.bind_eq_ok h
    cases h
    have := PFields.depth_le_sent hw.2 hx
    rw [PFields.depth, List.length_append]
    omega
  | .sub t fs, .proof c :: ks, b, hw, h => by
    rw [PFields.Sendable] at hw
    rw [PFields.enc_sub] at h
    obtain ⟨a, ha, h⟩ := Except.bind_eq_ok h
    obtain ⟨x, hx, h⟩ := Except.bind_eq_ok h
    cases h
    have := PFields.depth_le_sent hw.2 hx
    have := PTree.depth_le_sent hw.1 (show t.enc T = .ok a from ha)
    rw [PFields.depth, List.length_append]
    omega
  | .sub t fs, .union us :: ks, b, hw, h => by
    rw [PFields.Sendable] at hw
    rw [PFields.enc_sub] at h
    obtain ⟨a, ha, h⟩ := Except.bind_eq_ok h
    obtain ⟨x, hx, h⟩ := Except.bind_eq_ok h
    cases h
    have := PFields.depth_le_sent hw.2 hx
    obtain ⟨⟨i, u, hu, hidx, htw⟩, _⟩ := hw
    simp only [TVal.enc] at ha
    obtain ⟨j, hj, ha⟩ := Except.bind_eq_ok ha
    obtain ⟨y, hy, ha⟩ := Except.bind_eq_ok ha
    cases ha
    have := PTree.depth_le_sent htw hy
    rw [PFields.depth, List.length_append, List.length_append]
    omega
  | .nil, _ :: _, _, h, _ => by simp [PFields.Sendable] at h
  | .prim _ _, [], _, h, _ => by simp [PFields.Sendable] at h
  | .sub _ _, [], _, h, _ => by simp [PFields.Sendable] at h
  | .prim _ _, .proof _ :: _, _, h, _ => by simp [PFields.Sendable] at h
  | .prim _ _, .union _ :: _, _, h, _ => by simp [PFields.Sendable] at h
  | .sub _ _, .prim _ :: _, _, h, _ => by simp [PFields.Sendable] at h
end

/-! ### What arrives is not a proof if a variant was lost, and well typed otherwise -/

mutual
theorem PTree.Loses.recv : ∀ {t : PTree} {c : Nat}, t.Loses T → ¬ (t.recv T c).Checked T
  | .node c' fs, c, h => by
    rw [PTree.Loses] at h
    rw [PTree.recv, PTree.Checked]
    exact PFields.Loses.recv h
  | .pruned _ _, _, h => by rw [PTree.Loses] at h; exact h.elim
theorem PFields.Loses.recv : ∀ {fs : PFields} {ks : List Kind}, fs.Loses T ks → ¬ (fs.recv T ks).Checked T ks
  | .nil, ks, h => by cases ks <;> simp [PFields.Loses] at h
  | .prim v fs, [], h => by simp [PFields.Loses] at h
  | .sub t fs, [], h => by cases t <;> simp [PFields.Loses] at h
  | .prim v fs, k :: ks, h => by
    rw [PFields.Loses] at h
    rw [PFields.recv, checked_cons_prim]
    exact fun hc => PFields.Loses.recv h hc.2
  | .sub (.pruned c' d) fs, .proof c :: ks, h => by
    rw [PFields.Loses] at h
    rw [PFields.recv, checked_cons_sub]
    rintro ⟨h1, _, h3⟩
    rcases h with ⟨us, hv, ha⟩ | h
    · have := h1 us hv
      rw [PTree.recv, PTree.cls, ha] at this
      cases this
    · exact PFields.Loses.recv h h3
  | .sub (.pruned c' d) fs, .prim τ :: ks, h => by
    rw [PFields.Loses] at h
    · rw [PFields.recv, checked_cons_sub]
      exact fun hc => PFields.Loses.recv h hc.2.2
    all_goals intros; simp_all
  | .sub (.pruned c' d) fs, .union us :: ks, h => by
    rw [PFields.Loses] at h
    · rw [PFields.recv, checked_cons_sub]
      exact fun hc => PFields.Loses.recv h hc.2.2
    all_goals intros; simp_all
  | .sub (.node c' fs') fs, .prim τ :: ks, h => by
    rw [PFields.Loses] at h
    · rw [PFields.recv, checked_cons_sub]
      exact fun hc => PFields.Loses.recv h hc.2.2
    all_goals intros; simp_all
  | .sub (.node c' fs') fs, .proof c :: ks, h => by
    rw [PFields.Loses] at h
    rw [PFields.recv, checked_cons_sub]
    rintro ⟨_, h2, h3⟩
    rcases h with h | h
    · exact PTree.Loses.recv h h2
    · exact PFields.Loses.recv h h3
  | .sub (.node c' fs') fs, .union us :: ks, h => by
    rw [PFields.Loses] at h
    rw [PFields.recv, checked_cons_sub]
    rintro ⟨_, h2, h3⟩
    rcases h with h | h
    · exact PTree.Loses.recv h h2
    · exact PFields.Loses.recv h h3
end

/-- Sending a proof: what arrives, if anything. -/
theorem deserialize_sent (hT : T.WF) {s : PState} {τ : List PTree} {c : Nat} {t : PTree} {b : Bytes} (hi : Inv T H s τ) (hw : t.Sendable T bad c)
    (he : t.enc T = .ok b) : (∃ e, (Prf.deserialize T c b s).1 = .error e ∧ Fails bad e) ∨
      (∃ r, (Prf.deserialize T c b s).1 = .ok r ∧ t.Plain ∧ (t.recv T c).Checked T) := by
  have hd := PTree.depth_le_sent hw he
  unfold Prf.deserialize Prf.ctxDeserialize
  have := deserF_sent hT (b.length + 1) s τ c t b [] hi hw he (by omega)
  rw [List.append_nil] at this
  obtain ⟨τ1, hi1, _, h | ⟨r, hr, hτ, hp⟩⟩ := this
  · left
    rw [HM.bind_apply]
    rcases hx : Prf.deserF T (b.length + 1) c b s with ⟨res, s1⟩
    rw [hx] at h
    obtain ⟨e, h, hf⟩ := h
    simp only at h
    subst h
    exact ⟨e, rfl, hf⟩
  · right
    rw [HM.bind_apply]
    rcases hx : Prf.deserF T (b.length + 1) c b s with ⟨res, s1⟩
    rw [hx] at hr hi1
    simp only at hr
    subst hr
    exact ⟨r, rfl, hp, hi1.chk _ (List.mem_of_getElem? hτ)⟩

/-- Sending a proof that has lost a variant: `SerializerTypeError`, if not an exception because of Bits. -/
theorem deserialize_lost (hT : T.WF) {s : PState} {τ : List PTree} {c : Nat} {t : PTree} {b : Bytes} (hi : Inv T H s τ) (hw : t.Sendable T bad c)
    (he : t.enc T = .ok b) (hl : t.Loses T) : ∃ e, (Prf.deserialize T c b s).1 = .error e ∧ Fails bad e := by
  rcases deserialize_sent hT hi hw he with h | ⟨_, _, _, h⟩
  · exact h
  · exact absurd h (PTree.Loses.recv hl)

/-! ### What is disclosed of a well typed proof can be sent -/

mutual
theorem PTree.WellTyped.sendable : ∀ {t : PTree} {c : Nat}, t.WellTyped T c → t.Sendable T bad c
  | .node c' fs, c, h => by
    rw [PTree.WellTyped] at h
    rw [PTree.Sendable]
    exact ⟨h.1, h.2.sendable⟩
  | .pruned c' d, c, h => by
    rw [PTree.WellTyped] at h
    rw [PTree.Sendable]; exact h.2
theorem PFields.WellTyped.sendable : ∀ {fs : PFields} {ks : List Kind}, fs.WellTyped T ks → fs.Sendable T bad ks
  | .nil, [], _ => by simp [PFields.Sendable]
  | .prim v fs, .prim τ :: ks, h => by
    rw [PFields.WellTyped] at h
    rw [PFields.Sendable]
    exact ⟨⟨h.1.1, .inl h.1.2.1, h.1.2.2⟩, h.2.sendable⟩
  | .sub t fs, .proof c :: ks, h => by
    rw [PFields.WellTyped] at h
    rw [PFields.Sendable]
    exact ⟨h.1.1.sendable, h.2.sendable⟩
  | .sub t fs, .union us :: ks, h => by
    rw [PFields.WellTyped] at h
    obtain ⟨⟨i, u, hu, hx, ht⟩, hfs⟩ := h
    rw [PFields.Sendable]
    exact ⟨⟨i, u, hu, hx, ht.sendable⟩, hfs.sendable⟩
  | .nil, _ :: _, h => by simp [PFields.WellTyped] at h
  | .prim _ _, [], h => by simp [PFields.WellTyped] at h
  | .sub _ _, [], h => by simp [PFields.WellTyped] at h
  | .prim _ _, .proof _ :: _, h => by simp [PFields.WellTyped] at h
  | .prim _ _, .union _ :: _, h => by simp [PFields.WellTyped] at h
  | .sub _ _, .prim _ :: _, h => by simp [PFields.WellTyped] at h
end

theorem PTree.stub_sendable {t : PTree} {c : Nat} (h : t.Sendable T bad c) (hd : ∃ d, t.dataHash T H = .ok d) : (t.stub T H).Sendable T bad c := by
  obtain ⟨d, hd⟩ := hd
  unfold PTree.stub
  rw [hd, PTree.Sendable]
  cases t with
  | pruned c' d' =>
    rw [PTree.Sendable] at h
    rw [PTree.dataHash] at hd
    cases hd
    exact h
  | node c' fs =>
    rw [PTree.dataHash] at hd
    obtain ⟨b, _, hd⟩ := Except.bind_eq_ok hd
    cases hd
    exact H.sha256_len _

mutual
theorem PTree.disclosed_sendable (s : PState) : ∀ (t : PTree) (r c : Nat) (b : Bytes), t.Sendable T bad c → t.encAt T H s r = .ok b →
    (t.disclosed T H s r).Sendable T bad c
  | .pruned c' d, r, c, b, h, _ => by rw [PTree.disclosed]; exact h
  | .node c' fs, r, c, b, h, he => by
    rw [PTree.encAt] at he
    rw [PTree.disclosed]
    split at he
    · rename_i hf
      rw [if_pos hf]
      obtain ⟨d, hd, _⟩ := Except.bind_eq_ok he
      exact PTree.stub_sendable h ⟨d, hd⟩
    · rename_i hf
      rw [if_neg hf]
      obtain ⟨v, hv, he⟩ := Except.bind_eq_ok he
      obtain ⟨x, hx, he⟩ := Except.bind_eq_ok he
      rw [PTree.Sendable] at h
      rw [PTree.Sendable]
      exact ⟨h.1, PFields.disclosed_sendable s fs r 0 _ x h.2 hx⟩
theorem PFields.disclosed_sendable (s : PState) : ∀ (fs : PFields) (r i : Nat) (ks : List Kind) (b : Bytes), fs.Sendable T bad ks → fs.encAt T H s r i ks = .ok b →
    (fs.disclosed T H s r i).Sendable T bad ks
  | .nil, r, i, ks, b, h, _ => by rw [PFields.disclosed]; exact h
  | .prim v fs, r, i, .prim τ :: ks, b, h, he => by
    rw [PFields.encAt_prim] at he
    rw [PFields.disclosed]
    rw [PFields.Sendable] at h
    rw [PFields.Sendable]
    obtain ⟨a, ha, he⟩ := Except.bind_eq_ok he
    obtain ⟨x, hx, he⟩ := Except.bind_eq_ok he
    exact ⟨h.1, PFields.disclosed_sendable s fs r (i + 1) ks x h.2 hx⟩
  | .sub t fs, r, i, .proof c :: ks, b, h, he => by
    rw [PFields.encAt_sub] at he
    rw [PFields.disclosed_sub]
    rw [PFields.Sendable] at h
    rw [PFields.Sendable]
    obtain ⟨a, ha, he⟩ := Except.bind_eq_ok he
    obtain ⟨x, hx, he⟩ := Except.bind_eq_ok he
    refine ⟨?_, PFields.disclosed_sendable s fs r (i + 1) ks x h.2 hx⟩
    have ha : t.encField T H s (s.field r i) = .ok a := ha
    generalize s.field r i = f at ha
    rcases f with _ | (_ | q)
    · obtain ⟨d, hd, _⟩ := Except.bind_eq_ok ha
      exact PTree.stub_sendable h.1 ⟨d, hd⟩
    · obtain ⟨d, hd, _⟩ := Except.bind_eq_ok ha
      exact PTree.stub_sendable h.1 ⟨d, hd⟩
    · exact PTree.disclosed_sendable s t q c a h.1 ha
  | .sub t fs, r, i, .union us :: ks, b, h, he => by
    rw [PFields.encAt_sub] at he
    rw [PFields.disclosed_sub]
    rw [PFields.Sendable] at h
    rw [PFields.Sendable]
    obtain ⟨a, ha, he⟩ := Except.bind_eq_ok he
    obtain ⟨x, hx, he⟩ := Except.bind_eq_ok he
    refine ⟨?_, PFields.disclosed_sendable s fs r (i + 1) ks x h.2 hx⟩
    obtain ⟨⟨j, u, hu, hidx, htw⟩, _⟩ := h
    have kcls : (t.discField T H s (s.field r i)).cls = t.cls := by
      unfold PTree.discField
      split
      · exact PTree.disclosed_cls ..
      · rfl
    refine ⟨j, u, hu, by rw [kcls]; exact hidx, ?_⟩
    simp only [TVal.encAs] at ha
    obtain ⟨j', _, ha⟩ := Except.bind_eq_ok ha
    obtain ⟨y, hy, ha⟩ := Except.bind_eq_ok ha
    generalize s.field r i = f at hy
    rcases f with _ | (_ | q)
    · obtain ⟨d, hd, _⟩ := Except.bind_eq_ok hy
      exact PTree.stub_sendable htw ⟨d, hd⟩
    · obtain ⟨d, hd, _⟩ := Except.bind_eq_ok hy
      exact PTree.stub_sendable htw ⟨d, hd⟩
    · exact PTree.disclosed_sendable s t q u y htw hy
  | .prim _ _, _, _, [], _, h, _ => by simp [PFields.Sendable] at h
  | .sub _ _, _, _, [], _, h, _ => by simp [PFields.Sendable] at h
  | .prim _ _, _, _, .proof _ :: _, _, h, _ => by simp [PFields.Sendable] at h
  | .prim _ _, _, _, .union _ :: _, _, h, _ => by simp [PFields.Sendable] at h
  | .sub _ _, _, _, .prim _ :: _, _, h, _ => by simp [PFields.Sendable] at h
end

/-- Reading from a pruned view, sending it, and reading what was sent. -/
theorem ship_lost (hT : T.WF) {s : PState} {r c : Nat} {t : PTree} (hs : Reachable T H s) (ht : Represents s r t)
    (hw : t.Sendable T bad c) {α : Type} (q : Prog α) {p : Nat} {s1 s2 s3 : PState} {res : Py (Py α)} {b : Bytes} (hp : Prf.prune T r s = (.ok p, s1))
    (hq : q.run T H p s1 = (res, s2)) (hb : Prf.serialize T H p s2 = (.ok b, s3))
    (hl : (t.reveal T H (q.reads T H t) []).Loses T) {s0 : PState} (hs0 : Reachable T H s0) :
    ∃ e, (Prf.deserialize T c b s0).1 = .error e ∧ Fails bad e := by
  obtain ⟨τ, addr, t', hi, hv, hr, hpt⟩ := (Tracked.prune hs hp).vw hT
  obtain ⟨τ0, hi0⟩ := hs.inv hT
  have h0 := hi0.of_represents ht
  obtain ⟨τ1, hi1, _, h2, h3, _⟩ := prune_spec hi0 h0
  rw [hp] at h2 hi1
  simp only [Except.ok.injEq] at h2
  subst h2
  obtain ⟨addr', hv'⟩ := Vw.run hT q _ _ _ _ _ hi1 h3 hv
  rw [hq, List.nil_append] at hv'
  obtain ⟨τ2, hi2, _, hship⟩ := run_ship hT q _ _ _ _ hi1 h3
  rw [hq] at hi2 hship
  have hd := hv'.disclosed hi2 t _ [] hv'.root (append_get h3)
  rw [← hd] at hl
  obtain ⟨_, _, _, h4⟩ := serialize_spec hT hi2 (append_get h3)
  rw [hb] at h4
  have henc := PTree.encAt_ok _ t _ b h4.symm
  have hwt := PTree.disclosed_sendable _ t _ c b hw h4.symm
  obtain ⟨τr, hir⟩ := hs0.inv hT
  exact deserialize_lost hT hir hwt henc hl

theorem Fails.false {e : PyErr} (h : Fails False e) : e = .serType := by
  rcases h with h | ⟨h, _⟩
  · exact h
  · exact h.elim

end Verif
