import Verif.Lemmas.ProofHash
/-! Serialization on the heap writes what the object discloses, and discloses nothing more. -/
namespace Verif
set_option linter.unusedSectionVars false
variable {T : Table} {H : HashFns}

mutual
/-- `ctx_serialize` of the object `r`, as a function of the state. -/
def PTree.encAt (T : Table) (H : HashFns) (s : PState) (r : Nat) : PTree → Py Bytes
  | .node c fs =>
    if (s.objs[r]?).any (·.isFullyPruned) then do
      let d ← (PTree.node c fs).dataHash T H
      return 0xff#8 :: d
    else do
      let v ← Prf.variantBytes T c
      let b ← fs.encAt T H s r 0 (T c).attrs
      return 0x00#8 :: (v ++ b)
  | .pruned _ d => .ok (0xff#8 :: d)
def PFields.encAt (T : Table) (H : HashFns) (s : PState) (r i : Nat) : PFields → List Kind → Py Bytes
  | _, [] => .ok []
  | .nil, _ :: _ => .error .other
  | .prim v fs, k :: ks => do
    let a ← (match k with
      | .prim τ => τ.ser v
      | _ => .error .attributeError)
    let b ← fs.encAt T H s r (i + 1) ks
    return a ++ b
  | .sub t fs, k :: ks => do
    let a ← (match k with
      | .prim τ => τ.ser .other
      | .proof _ => (match s.field r i with
        | some (.ref q) => t.encAt T H s q
        | _ => do
          let d ← t.dataHash T H
          return 0xff#8 :: d)
      | .union us => do
        let j ← Prf.unionIndex T us t.cls
        let b ← (match s.field r i with
          | some (.ref q) => t.encAt T H s q
          | _ => do
            let d ← t.dataHash T H
            return 0xff#8 :: d)
        return writeVaruint j ++ b)
    let b ← fs.encAt T H s r (i + 1) ks
    return a ++ b
end

/-- What is written for a sub-proof. -/
def PTree.encField (T : Table) (H : HashFns) (s : PState) (t : PTree) (f : Option HVal) : Py Bytes :=
  match f with
  | some (.ref q) => t.encAt T H s q
  | _ => do
    let d ← t.dataHash T H
    return 0xff#8 :: d

/-- What is written for an attribute. -/
def TVal.encAs (T : Table) (H : HashFns) (s : PState) (f : Option HVal) (tv : TVal) (k : Kind) : Py Bytes :=
  match k, tv with
  | .prim τ, .prim v => τ.ser v
  | .prim τ, .sub _ => τ.ser .other
  | .proof _, .sub t => t.encField T H s f
  | .union us, .sub t => do
    let j ← Prf.unionIndex T us t.cls
    let b ← t.encField T H s f
    return writeVaruint j ++ b
  | _, .prim _ => .error .attributeError

theorem PFields.encAt_prim (s : PState) (r i : Nat) (v : PVal) (fs : PFields) (k : Kind) (ks : List Kind) :
    (PFields.prim v fs).encAt T H s r i (k :: ks) = (do
      let a ← (TVal.prim v).encAs T H s (s.field r i) k
      let b ← fs.encAt T H s r (i + 1) ks
      return a ++ b) := by
  cases k <;> simp [PFields.encAt, TVal.encAs]

theorem PFields.encAt_sub (s : PState) (r i : Nat) (t : PTree) (fs : PFields) (k : Kind) (ks : List Kind) :
    (PFields.sub t fs).encAt T H s r i (k :: ks) = (do
      let a ← (TVal.sub t).encAs T H s (s.field r i) k
      let b ← fs.encAt T H s r (i + 1) ks
      return a ++ b) := by
  cases k <;> simp only [PFields.encAt, TVal.encAs] <;> rfl

/-- The encoding of one attribute. -/
def TVal.enc (T : Table) (tv : TVal) (k : Kind) : Py Bytes :=
  match k, tv with
  | .prim τ, .prim v => τ.ser v
  | .prim τ, .sub _ => τ.ser .other
  | .proof _, .sub t => t.enc T
  | .union us, .sub t => do
    let j ← Prf.unionIndex T us t.cls
    let b ← t.enc T
    return writeVaruint j ++ b
  | _, .prim _ => .error .attributeError

theorem PFields.enc_prim (v : PVal) (fs : PFields) (k : Kind) (ks : List Kind) :
    (PFields.prim v fs).enc T (k :: ks) = (do
      let a ← (TVal.prim v).enc T k
      let b ← fs.enc T ks
      return a ++ b) := by
  cases k <;> simp [PFields.enc, TVal.enc]

theorem PFields.enc_sub (t : PTree) (fs : PFields) (k : Kind) (ks : List Kind) :
    (PFields.sub t fs).enc T (k :: ks) = (do
      let a ← (TVal.sub t).enc T k
      let b ← fs.enc T ks
      return a ++ b) := by
  cases k <;> simp only [PFields.enc, TVal.enc]

theorem PState.field_some {s : PState} {r i : Nat} {o : Obj} {v : HVal} (ho : s.objs[r]? = some o) :
    s.field r i = some v ↔ o.fields[i]? = some (some v) := by
  simp only [PState.field, ho, Option.bind_some]
  cases o.fields[i]? <;> simp

theorem encAt_fp {s : PState} {τ : List PTree} (hi : Inv T H s τ) {r : Nat} {t : PTree} (ht : τ[r]? = some t) {o : Obj}
    (ho : s.objs[r]? = some o) (hf : o.isFullyPruned = true) :
    t.encAt T H s r = (do let d ← t.dataHash T H; return 0xff#8 :: d) := by
  cases t with
  | node c fs => rw [PTree.encAt, if_pos (by simp [ho, hf])]
  | pruned c d => rw [PTree.encAt, PTree.dataHash]; rfl

mutual
theorem PTree.encAt_ext {s s' : PState} {τ τ' : List PTree} (hi : Inv T H s τ) (hi' : Inv T H s' τ') (hτ : ∃ x, τ' = τ ++ x)
    (he : SerExt s s') : ∀ (t : PTree) (r : Nat), τ[r]? = some t → t.encAt T H s' r = t.encAt T H s r
  | .node c fs, r, ht => by
    obtain ⟨o, ho, hok⟩ := hi.some_obj ht
    obtain ⟨o', ho', _⟩ := he.obj r o ho
    have hfp := he.fp r o o' ho ho'
    rw [PTree.encAt, PTree.encAt]
    simp only [ho, ho', Option.any_some, hfp]
    split
    · rfl
    · rw [PFields.encAt_ext hi hi' hτ he fs r 0 (.node c fs) ht (fun j => by simp [PTree.get?])]
  | .pruned c d, r, ht => by rw [PTree.encAt, PTree.encAt]
theorem PFields.encAt_ext {s s' : PState} {τ τ' : List PTree} (hi : Inv T H s τ) (hi' : Inv T H s' τ') (hτ : ∃ x, τ' = τ ++ x)
    (he : SerExt s s') : ∀ (fs : PFields) (r i : Nat) (t : PTree), τ[r]? = some t → (∀ j, fs.get? j = t.get? (i + j)) →
      ∀ ks, fs.encAt T H s' r i ks = fs.encAt T H s r i ks
  | .nil, r, i, t, ht, hg, ks => by cases ks <;> rw [PFields.encAt, PFields.encAt]
  | .prim v fs, r, i, t, ht, hg, ks => by
    cases ks with
    | nil => rw [PFields.encAt, PFields.encAt]
    | cons k ks =>
      rw [PFields.encAt_prim, PFields.encAt_prim, PFields.encAt_ext hi hi' hτ he fs r (i + 1) t ht (fun j => by
        have := hg (j + 1)
        simp only [PFields.get?] at this
        rw [this]; congr 1; omega)]
      cases k <;> rfl
  | .sub t1 fs, r, i, t, ht, hg, ks => by
    cases ks with
    | nil => rw [PFields.encAt, PFields.encAt]
    | cons k ks =>
      rw [PFields.encAt_sub, PFields.encAt_sub, PFields.encAt_ext hi hi' hτ he fs r (i + 1) t ht (fun j => by
        have := hg (j + 1)
        simp only [PFields.get?] at this
        rw [this]; congr 1; omega)]
      have key : t1.encField T H s' (s'.field r i) = t1.encField T H s (s.field r i) := by
        obtain ⟨o, ho, hok⟩ := hi.some_obj ht
        obtain ⟨o', ho', _, _, _, _, hset⟩ := he.obj r o ho
        have h0 := hg 0
        simp only [PFields.get?] at h0
        cases hf : s.field r i with
        | some v =>
          have hv := (PState.field_some ho).mp hf
          have hv' := (PState.field_some ho').mpr (hset i v hv)
          rw [hv']
          obtain ⟨tv, htv, his⟩ := hok.fmatch i v hv
          rw [Nat.add_zero] at h0
          rw [← h0] at htv
          cases htv
          cases v with
          | prim _ => exact his.elim
          | ref q =>
            have hq : τ[q]? = some t1 := his
            simp only [PTree.encField]
            exact PTree.encAt_ext hi hi' hτ he t1 q hq
        | none =>
          cases hf' : s'.field r i with
          | none => rfl
          | some v =>
            have hv' := (PState.field_some ho').mp hf'
            rcases he.fld r o o' ho ho' i v hv' with hv | hfresh
            · rw [(PState.field_some ho).mpr hv] at hf; cases hf
            · cases v with
              | prim w => rfl
              | ref q =>
                obtain ⟨_, oq, hoq, hfq⟩ := hfresh q rfl
                obtain ⟨x, rfl⟩ := hτ
                have hok' := hi'.obj r o' t ho' (append_get ht)
                obtain ⟨tv, htv, his⟩ := hok'.fmatch i _ hv'
                rw [Nat.add_zero] at h0
                rw [← h0] at htv
                cases htv
                have hq : (τ ++ x)[q]? = some t1 := his
                simp only [PTree.encField]
                exact encAt_fp hi' hq hoq hfq
      cases k <;> simp only [TVal.encAs, key]
end

mutual
def PTree.depth : PTree → Nat
  | .node _ fs => fs.depth + 1
  | .pruned _ _ => 1
def PFields.depth : PFields → Nat
  | .nil => 0
  | .prim _ fs => fs.depth
  | .sub t fs => max t.depth fs.depth
end

theorem PFields.depth_le : ∀ (fs : PFields) (m : Nat), (∀ i t, fs.get? i = some (.sub t) → t.depth ≤ m) → fs.depth ≤ m
  | .nil, m, h => by simp [PFields.depth]
  | .prim v fs, m, h => by
    rw [PFields.depth]
    exact PFields.depth_le fs m (fun i t ht => h (i + 1) t ht)
  | .sub t fs, m, h => by
    rw [PFields.depth]
    have h1 := h 0 t rfl
    have h2 := PFields.depth_le fs m (fun i t ht => h (i + 1) t ht)
    omega

theorem PFields.le_depth : ∀ (fs : PFields) (i : Nat) (t : PTree), fs.get? i = some (.sub t) → t.depth ≤ fs.depth
  | .nil, i, t, h => by simp [PFields.get?] at h
  | .prim v fs, 0, t, h => by simp [PFields.get?] at h
  | .prim v fs, i + 1, t, h => by
    rw [PFields.depth]; exact PFields.le_depth fs i t h
  | .sub t' fs, 0, t, h => by
    simp only [PFields.get?, Option.some.injEq, TVal.sub.injEq] at h
    subst h; rw [PFields.depth]; omega
  | .sub t' fs, i + 1, t, h => by
    rw [PFields.depth]
    have := PFields.le_depth fs i t h
    omega

theorem Inv.depth {s : PState} {τ : List PTree} (hi : Inv T H s τ) : ∀ (r : Nat) (t : PTree), τ[r]? = some t → t.depth ≤ r + 1 := by
  intro r
  induction r using Nat.strongRecOn with
  | _ r ih =>
    intro t ht
    obtain ⟨o, ho, hok⟩ := hi.some_obj ht
    cases horig : o.orig with
    | some q =>
      obtain ⟨hqr, hq, _⟩ := hok.view q horig
      have := ih q hqr t hq
      omega
    | none =>
      rcases hok.base horig with ⟨fs, hfs, _, hall, _⟩ | ⟨d, hd, _⟩
      · subst hfs
        rw [PTree.depth]
        have : fs.depth ≤ r := by
          apply PFields.depth_le
          intro i t' hg
          have hck := hi.chk _ (List.mem_of_getElem? ht)
          simp only [PTree.Checked] at hck
          have hsome := PFields.get?_isSome fs i
          rw [hg, hck.length, ← hok.flen] at hsome
          obtain ⟨v, hv, hlt⟩ := hall i (by simpa using hsome)
          obtain ⟨tv, htv, his⟩ := hok.fmatch i v hv
          simp only [PTree.get?] at htv
          rw [hg] at htv
          cases htv
          cases v with
          | prim _ => exact his.elim
          | ref c =>
            have := hlt c rfl
            have := ih c this t' his
            omega
        omega
      · subst hd
        rw [PTree.depth]; omega

theorem attrSer_spec {sf : Nat → HM Bytes} {s : PState} {τ : List PTree} (hi : Inv T H s τ) {v : HVal} {tv : TVal} (his : v.Is τ tv)
    (hsf : ∀ c t', tv = .sub t' → τ[c]? = some t' → HSpec T H SerExtI (sf c) s τ (fun res _ _ => res = t'.encAt T H s c)) (k : Kind) :
    HSpec T H SerExtI (Prf.attrSer T sf k v) s τ (fun res _ _ => res = tv.encAs T H s (some v) k) := by
  cases v with
  | prim w =>
    cases tv with
    | sub _ => exact his.elim
    | prim w' =>
      have hw : w = w' := his
      subst hw
      cases k <;> exact .noop .refl rfl hi rfl
  | ref c =>
    cases tv with
    | prim _ => exact his.elim
    | sub t' =>
      have hc : τ[c]? = some t' := his
      cases k with
      | prim τ' => exact .noop .refl rfl hi rfl
      | proof d => exact hsf c t' rfl hc
      | union us =>
        obtain ⟨o, ho, hok⟩ := hi.some_obj hc
        rw [Prf.attrSer]
        refine HSpec.congr (HM.bind_obj ho _) ?_
        rw [← hok.cls]
        simp only [TVal.encAs, PTree.encField]
        refine HSpec.bind .trans (lift_spec hi _) ?_ ?_
        · rintro i s1 τ1 hi1 _ _ ⟨hi', rfl, rfl⟩
          rw [← hi', Except.bind_ok]
          refine HSpec.bind .trans (hsf c t' rfl hc) ?_ ?_
          · rintro b s2 τ2 hi2 _ _ hb
            refine .noop .refl rfl hi2 ?_
            rw [← hb]; rfl
          · rintro e s2 τ2 hi2 _ he
            rw [← he]; rfl
        · rintro e s1 τ1 _ _ ⟨he, _⟩
          rw [← he]; rfl

theorem serLoop_spec {sf : Nat → HM Bytes} {r : Nat} {t : PTree}
    (hsf : ∀ (s : PState) (τ : List PTree) (c : Nat) (t' : PTree) (i : Nat), Inv T H s τ → τ[c]? = some t' → t.get? i = some (.sub t') →
      HSpec T H SerExtI (sf c) s τ (fun res _ _ => res = t'.encAt T H s c)) :
    ∀ (ks : List Kind) (fs : PFields) (i : Nat) (s : PState) (τ : List PTree), Inv T H s τ → τ[r]? = some t →
      (∃ o, s.objs[r]? = some o ∧ o.isFullyPruned = false) →
      (∀ j, fs.get? j = t.get? (i + j)) → fs.length = ks.length →
      HSpec T H SerExtI (Prf.serLoop T sf r i ks) s τ (fun res _ _ => res = fs.encAt T H s r i ks) := by
  intro ks
  induction ks with
  | nil =>
    intro fs i s τ hi _ _ _ _
    refine .noop .refl rfl hi ?_
    cases fs <;> simp [PFields.encAt]
  | cons k ks ih =>
    intro fs i s τ hi ht ⟨o, ho, hfp⟩ hget hlen
    have h0 := hget 0
    have hattr : ∃ (tv : TVal) (fs' : PFields), fs.get? 0 = some tv ∧ fs'.length = ks.length ∧ (∀ j, fs'.get? j = t.get? (i + 1 + j)) ∧
        ∀ s, fs.encAt T H s r i (k :: ks) = (do
          let a ← tv.encAs T H s (s.field r i) k
          let b ← fs'.encAt T H s r (i + 1) ks
          return a ++ b) := by
      cases fs with
      | nil => simp [PFields.length] at hlen
      | prim v fs =>
        refine ⟨.prim v, fs, rfl, by simpa [PFields.length] using hlen, fun j => ?_, fun s => PFields.encAt_prim ..⟩
        have := hget (j + 1)
        simp only [PFields.get?] at this
        rw [this]; congr 1; omega
      | sub t' fs =>
        refine ⟨.sub t', fs, rfl, by simpa [PFields.length] using hlen, fun j => ?_, fun s => PFields.encAt_sub ..⟩
        have := hget (j + 1)
        simp only [PFields.get?] at this
        rw [this]; congr 1; omega
    obtain ⟨tv, fs', hfs0, hlen', hget', heq⟩ := hattr
    rw [hfs0] at h0
    rw [Nat.add_zero] at h0
    rw [Prf.serLoop]
    refine HSpec.bind .trans (getAttr_node hi ht ho hfp h0.symm) ?_ ?_
    · rintro v s1 τ1 hi1 hr1 ⟨τx, rfl⟩ ⟨v', hv', his, hfld⟩
      cases hv'
      obtain ⟨o1, ho1, hc1, horig1, _, hfp1, _⟩ := hr1.1.obj r o ho
      have ht1 := append_get (τ' := τx) ht
      have e1 := PFields.encAt_ext hi hi1 ⟨_, rfl⟩ hr1.1 fs r i t ht hget (k :: ks)
      rw [← e1, heq s1, hfld]
      refine HSpec.bind .trans (attrSer_spec hi1 his (fun c t' htv hc => hsf s1 _ c t' i hi1 hc (by rw [← htv]; exact h0.symm)) k) ?_ ?_
      · rintro a s2 τ2 hi2 hr2 ⟨τy, rfl⟩ ha
        rw [← ha, Except.bind_ok]
        obtain ⟨o2, ho2, hc2, horig2, _, hfp2, _⟩ := hr2.1.obj r o1 ho1
        have e2 := PFields.encAt_ext hi1 hi2 ⟨_, rfl⟩ hr2.1 fs' r (i + 1) t ht1 hget' ks
        refine HSpec.bind .trans (ih fs' (i + 1) s2 _ hi2 (append_get ht1) ⟨o2, ho2, hfp2 (hfp1 hfp)⟩ hget' hlen') ?_ ?_
        · rintro b s3 τ3 hi3 hr3 _ hb
          refine .noop .refl rfl hi3 ?_
          rw [← e2, ← hb]; rfl
        · rintro e s3 τ3 hi3 hr3 hb
          rw [← e2, ← hb]; rfl
      · rintro e s2 τ2 hi2 hr2 he
        rw [← he]; rfl
    · rintro e s1 τ1 hi1 hr1 ⟨v, hv, _⟩
      cases hv

theorem serF_spec (hT : T.WF) : ∀ (n : Nat) (s : PState) (τ : List PTree) (r : Nat) (t : PTree), Inv T H s τ → τ[r]? = some t →
    t.depth ≤ n → HSpec T H SerExtI (Prf.serF T H n r) s τ (fun res _ _ => res = t.encAt T H s r) := by
  intro n
  induction n with
  | zero => intro s τ r t _ _ h; cases t <;> simp [PTree.depth] at h
  | succ n ih =>
    intro s τ r t hi ht hd
    obtain ⟨o, ho, hok⟩ := hi.some_obj ht
    rw [Prf.serF]
    refine HSpec.congr (HM.bind_obj ho _) ?_
    cases hf : o.isFullyPruned with
    | true =>
      rw [encAt_fp hi ht ho hf]
      refine HSpec.bind .trans (dataHash_spec hT hi ht) ?_ ?_
      · rintro d s1 τ1 hi1 _ _ hd
        refine .noop .refl rfl hi1 ?_
        rw [← hd]; rfl
      · rintro e s1 τ1 hi1 _ hd
        rw [← hd]; rfl
    | false =>
      simp only
      obtain ⟨fs, hfs⟩ := hok.nfp hf
      subst hfs
      have hck := hi.chk _ (List.mem_of_getElem? ht)
      simp only [PTree.Checked] at hck
      rw [PTree.encAt, if_neg (by simp [ho, hf])]
      refine HSpec.bind .trans (lift_spec hi _) ?_ ?_
      · rintro v s1 τ1 hi1 _ _ ⟨hv, rfl, rfl⟩
        rw [← hv, Except.bind_ok]
        refine HSpec.bind .trans (serLoop_spec (t := .node o.cls fs) (fun s τ c t' i hi hc hg => ih s τ c t' hi hc (by
            rw [PTree.depth] at hd
            have := PFields.le_depth fs i t' hg
            omega)) _ fs 0 s1 τ1 hi1 ht ⟨o, ho, hf⟩ (fun j => by simp [PTree.get?]) hck.length) ?_ ?_
        · rintro b s2 τ2 hi2 _ _ hb
          refine .noop .refl rfl hi2 ?_
          rw [← hb]; rfl
        · rintro e s2 τ2 hi2 _ hb
          rw [← hb]; rfl
      · rintro e s1 τ1 hi1 _ ⟨hv, _⟩
        rw [← hv]; rfl

theorem serialize_spec (hT : T.WF) {s : PState} {τ : List PTree} (hi : Inv T H s τ) {r : Nat} {t : PTree} (ht : τ[r]? = some t) :
    HSpec T H SerExtI (Prf.serialize T H r) s τ (fun res _ _ => res = t.encAt T H s r) := by
  have hlt := get_lt ht
  rw [hi.len] at hlt
  have := hi.depth r t ht
  exact HSpec.congr (y := Prf.serF T H (s.objs.length + 1) r) rfl (serF_spec hT _ s τ r t hi ht (by omega))

/-! ### `encAt` is the encoding of what is disclosed -/

theorem PTree.disclosed_cls (s : PState) (r : Nat) (t : PTree) : (t.disclosed T H s r).cls = t.cls := by
  cases t with
  | node c fs => rw [PTree.disclosed]; split <;> rfl
  | pruned c d => rfl

theorem PTree.stub_enc {t : PTree} {b : Bytes} (h : (do let d ← t.dataHash T H; return 0xff#8 :: d) = Except.ok b) :
    (t.stub T H).enc T = .ok b := by
  obtain ⟨d, hd, hb⟩ := Except.bind_eq_ok h
  cases hb
  simp [PTree.stub, hd, PTree.enc]

/-- What is disclosed of a sub-proof. -/
def PTree.discField (T : Table) (H : HashFns) (s : PState) (t : PTree) (f : Option HVal) : PTree :=
  match f with
  | some (.ref q) => t.disclosed T H s q
  | _ => t.stub T H

theorem PFields.disclosed_sub (s : PState) (r i : Nat) (t : PTree) (fs : PFields) :
    (PFields.sub t fs).disclosed T H s r i = .sub (t.discField T H s (s.field r i)) (fs.disclosed T H s r (i + 1)) := by
  rw [PFields.disclosed]; rfl

mutual
theorem PTree.encAt_ok (s : PState) : ∀ (t : PTree) (r : Nat) (b : Bytes), t.encAt T H s r = .ok b → (t.disclosed T H s r).enc T = .ok b
  | .node c fs, r, b, h => by
    rw [PTree.encAt] at h
    rw [PTree.disclosed]
    split at h
    · rename_i hf
      rw [if_pos hf]
      exact PTree.stub_enc h
    · rename_i hf
      rw [if_neg hf, PTree.enc]
      obtain ⟨v, hv, h⟩ := Except.bind_eq_ok h
      obtain ⟨x, hx, h⟩ := Except.bind_eq_ok h
      rw [hv, Except.bind_ok, PFields.encAt_ok s fs r 0 _ x hx]
      exact h
  | .pruned c d, r, b, h => by
    rw [PTree.encAt] at h
    rw [PTree.disclosed, PTree.enc]; exact h
theorem PFields.encAt_ok (s : PState) : ∀ (fs : PFields) (r i : Nat) (ks : List Kind) (b : Bytes), fs.encAt T H s r i ks = .ok b →
    (fs.disclosed T H s r i).enc T ks = .ok b
  | .nil, r, i, ks, b, h => by
    cases ks <;> rw [PFields.encAt] at h <;> rw [PFields.disclosed, PFields.enc] <;> exact h
  | .prim v fs, r, i, ks, b, h => by
    cases ks with
    | nil => rw [PFields.encAt] at h; rw [PFields.disclosed, PFields.enc]; exact h
    | cons k ks =>
      rw [PFields.encAt_prim] at h
      rw [PFields.disclosed, PFields.enc_prim]
      obtain ⟨a, ha, h⟩ := Except.bind_eq_ok h
      obtain ⟨x, hx, h⟩ := Except.bind_eq_ok h
      have ha' : (TVal.prim v).enc T k = .ok a := by cases k <;> exact ha
      rw [ha', Except.bind_ok, PFields.encAt_ok s fs r (i + 1) _ x hx]
      exact h
  | .sub t fs, r, i, ks, b, h => by
    cases ks with
    | nil => rw [PFields.encAt] at h; rw [PFields.disclosed, PFields.enc]; exact h
    | cons k ks =>
      rw [PFields.encAt_sub] at h
      rw [PFields.disclosed_sub, PFields.enc_sub]
      obtain ⟨a, ha, h⟩ := Except.bind_eq_ok h
      obtain ⟨x, hx, h⟩ := Except.bind_eq_ok h
      have key : ∀ b, t.encField T H s (s.field r i) = .ok b → (t.discField T H s (s.field r i)).enc T = .ok b := by
        intro b hb
        rcases hfi : s.field r i with _ | (_ | q)
        · rw [hfi] at hb; exact PTree.stub_enc hb
        · rw [hfi] at hb; exact PTree.stub_enc hb
        · rw [hfi] at hb; exact PTree.encAt_ok s t q b hb
      have kcls : (t.discField T H s (s.field r i)).cls = t.cls := by
        unfold PTree.discField
        split
        · exact PTree.disclosed_cls ..
        · rfl
      have : (TVal.sub (t.discField T H s (s.field r i))).enc T k = .ok a := by
        cases k with
        | prim τ => exact ha
        | proof c => exact key a ha
        | union us =>
          simp only [TVal.encAs] at ha
          obtain ⟨j, hj, ha⟩ := Except.bind_eq_ok ha
          obtain ⟨y, hy, ha⟩ := Except.bind_eq_ok ha
          simp only [TVal.enc, kcls, hj, Except.bind_ok, key y hy]
          exact ha
      rw [this, Except.bind_ok, PFields.encAt_ok s fs r (i + 1) _ x hx]
      exact h
end

end Verif
