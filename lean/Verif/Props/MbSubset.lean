import Verif.Lemmas.MbSubset
import Verif.Props.MbProof
/-!
# C151: `issubset` on proof objects

`T` is as in `Props/MbProof.lean`: any collection of classes in which `m` is a class made by `make_MerbinnerTree_subclass`.
-/
namespace Verif
open Seal MB
namespace Merb
variable {T : Table} {H : HashFns} {m : Nat} {tag : Bytes} {τ : PrimTy} {kv : Kind} {k2p : PVal → Py (List Bool)} {kp : Key τ → List Bool}

/-- An entry for which `self == other` has a meaning: the key, and the value if it is not a proof, can be serialized reversibly; the
value, if it is a proof, has a hash. -/
def Hashable (T : Table) (H : HashFns) (kv : Kind) (k : Key τ) (v : TVal) : Prop :=
  (τ.RoundTrips k.1 ∧ ∃ b, τ.ser k.1 = .ok b) ∧
  match kv, v with
  | .prim σ, .prim x => σ.check x = .ok () ∧ σ.RoundTrips x ∧ ∃ b, σ.ser x = .ok b
  | .prim _, .sub _ => False
  | _, .prim _ => False
  | _, .sub t => ∃ h, t.hash T H = .ok h

/-- Two values that are equal in Python: the same plain value, or proofs with the same hash. -/
def SameValue (T : Table) (H : HashFns) : TVal → TVal → Prop
  | .prim a, .prim b => a = b
  | .sub t, .sub u => t.hash T H = u.hash T H
  | _, _ => False

theorem same_iff (v v' : TVal) : same T H v v' = true ↔ SameValue T H v v' := by
  cases v <;> cases v' <;> simp [same, SameValue]

theorem Hashable.value {k : Key τ} {v : TVal} (h : Hashable T H kv k v) :
    (∃ σ x b, kv = .prim σ ∧ v = .prim x ∧ σ.check x = .ok () ∧ σ.RoundTrips x ∧ σ.ser x = .ok b ∧ (PFields.cons v .nil).hashBytes T H [kv] = .ok b) ∨
    (∃ t b, (∀ σ, kv ≠ .prim σ) ∧ v = .sub t ∧ t.hash T H = .ok b ∧ (PFields.cons v .nil).hashBytes T H [kv] = .ok b) := by
  obtain ⟨_, h⟩ := h
  cases kv with
  | prim σ =>
    cases v with
    | sub t => exact h.elim
    | prim x =>
      obtain ⟨h1, h2, b, h3⟩ := h
      exact .inl ⟨σ, x, b, rfl, rfl, h1, h2, h3, by simp [PFields.cons, PFields.hashBytes, h3, Except.bind_ok]⟩
  | proof c =>
    cases v with
    | prim x => exact h.elim
    | sub t =>
      obtain ⟨b, h⟩ := h
      exact .inr ⟨t, b, by simp, rfl, h, by simp [PFields.cons, PFields.hashBytes, h, Except.bind_ok]⟩
  | union us =>
    cases v with
    | prim x => exact h.elim
    | sub t =>
      obtain ⟨b, h⟩ := h
      exact .inr ⟨t, b, by simp, rfl, h, by simp [PFields.cons, PFields.hashBytes, h, Except.bind_ok]⟩

theorem hashes_of {t : MB (Key τ) TVal} (h : ∀ x ∈ t.pairs, Hashable T H kv x.1 x.2) : Hashes T H kv t := by
  intro x hx
  obtain ⟨b, hb⟩ := (h x hx).1.2
  rcases (h x hx).value with ⟨σ, y, c, _, hv, _, _, _, hc⟩ | ⟨u, c, _, hv, hu, hc⟩
  · exact ⟨⟨⟨b, hb⟩, c, hc⟩, fun w hw => by rw [hv] at hw; cases hw⟩
  · exact ⟨⟨⟨b, hb⟩, c, hc⟩, fun w hw => by rw [hv] at hw; cases hw; exact ⟨c, hu⟩⟩

theorem leaf_inj {k k' : Key τ} {v v' : TVal} (h : Hashable T H kv k v) (h' : Hashable T H kv k' v')
    (e : (cls T H τ kv kp).keyDigest k ++ (cls T H τ kv kp).valueDigest v = (cls T H τ kv kp).keyDigest k' ++ (cls T H τ kv kp).valueDigest v') :
    k = k' ∧ same T H v v' = true := by
  obtain ⟨hr, b, hb⟩ := h.1
  obtain ⟨hr', b', hb'⟩ := h'.1
  have e1 := (RT.prim k.2 hb hr).reads ((cls T H τ kv kp).valueDigest v)
  have e2 := (RT.prim k'.2 hb' hr').reads ((cls T H τ kv kp).valueDigest v')
  have d1 : (cls T H τ kv kp).keyDigest k = b := by simp [cls, hb]
  have d2 : (cls T H τ kv kp).keyDigest k' = b' := by simp [cls, hb']
  rw [d1, d2] at e
  rw [e, e2] at e1
  simp only [Except.ok.injEq, Prod.mk.injEq] at e1
  refine ⟨Subtype.ext e1.1.symm, ?_⟩
  have e3 := e1.2
  rcases h.value with ⟨σ, y, c, hkv, rfl, hc1, hc2, hc3, hc⟩ | ⟨u, c, hkv, rfl, hu, hc⟩
  · rcases h'.value with ⟨σ', y', c', hkv', rfl, hc1', hc2', hc3', hc'⟩ | ⟨u', c', hkv', rfl, hu', hc'⟩
    · have : σ = σ' := by rw [hkv] at hkv'; exact Kind.prim.inj hkv'
      subst this
      simp only [cls, Mmr.valueSer, hc, hc'] at e3
      subst e3
      have r1 := (RT.prim hc1 hc3 hc2).reads []
      have r2 := (RT.prim hc1' hc3' hc2').reads []
      rw [r1] at r2
      simp only [Except.ok.injEq, Prod.mk.injEq] at r2
      simp [same, r2.1]
    · exact absurd hkv (hkv' σ)
  · rcases h'.value with ⟨σ', y', c', hkv', rfl, hc1', hc2', hc3', hc'⟩ | ⟨u', c', hkv', rfl, hu', hc'⟩
    · exact absurd hkv' (hkv σ')
    · simp only [cls, Mmr.valueSer, hc, hc'] at e3
      simp [same, hu, hu', e3]

/-- C151: of two trees of a class, each perhaps a pruned view, `a.issubset(b)` gives `True` exactly if every key of `a` is a key of
`b` with an equal value; it never raises, and changes no object. -/
theorem C151_issubset (hT : T.WF) (hD : Declares T H m tag τ kv) (hk : Prefixes τ k2p kp) {s : PState} (hs : Reachable T H s) {a b : Nat} {d d' : Dict (Key τ) TVal}
    (ha : Holds T H m kv kp s a d) (hb : Holds T H m kv kp s b d')
    (hv : ∀ k v, d k = some v → Hashable T H kv k v) (hv' : ∀ k v, d' k = some v → Hashable T H kv k v) (htag : MBTagsDistinct H tag)
    (hcf : ∀ t u, Contains T H kv kp d t → Contains T H kv kp d' u →
      CollisionFree H.sha256 (t.hashed (cls T H τ kv kp) H tag ++ u.hashed (cls T H τ kv kp) H tag ++ (MB.empty : MB (Key τ) TVal).hashed (cls T H τ kv kp) H tag)) :
    ∃ x s', issubset m k2p T H a b s = (.ok x, s') ∧ Steps T H s s' ∧ (x = true ↔ ∀ k v, d k = some v → ∃ v', d' k = some v' ∧ SameValue T H v v') := by
  obtain ⟨t, hct, hra⟩ := ha
  obtain ⟨u, hcu, hrb⟩ := hb
  have hat : ∀ x ∈ t.pairs, Hashable T H kv x.1 x.2 := fun x hx => hv x.1 x.2 ((hct.2 _ _).mpr hx)
  have hau : ∀ x ∈ u.pairs, Hashable T H kv x.1 x.2 := fun x hx => hv' x.1 x.2 ((hcu.2 _ _).mpr hx)
  have h1 := depth_le_objs hT hs hra
  have h2 := depth_emb (m := m) t
  have h3 := depth_le_objs hT hs hrb
  have h4 := depth_emb (m := m) u
  have hg := (subset_rep hT hD hk (4 * s.objs.length + 4)).1 t u s a b (by omega) hs hra hrb (hashes_of hat) (hashes_of hau)
  obtain ⟨x, e, hx⟩ := issubset_tree (C := cls T H τ kv kp) hk.free' H tag hct.1 hcu.1 htag (hcf t u hct hcu) fun x hx y hy => leaf_inj (hat x hx) (hau y hy)
  rw [e] at hg
  obtain ⟨s', e', st⟩ := hg
  refine ⟨x, s', e', st, hx.trans ?_⟩
  constructor
  · intro h k v hd
    obtain ⟨v', hm, hs⟩ := h (k, v) ((hct.2 k v).mp hd)
    exact ⟨v', (hcu.2 _ _).mpr hm, (same_iff _ _).mp hs⟩
  · intro h x hx
    obtain ⟨v', hm, hs⟩ := h x.1 x.2 ((hct.2 _ _).mpr hx)
    exact ⟨v', (hcu.2 _ _).mp hm, (same_iff _ _).mpr hs⟩

theorem Ex.hashable {k : Key (.fixed 32)} {v : TVal} (h : Ex.d3 k = some v) : Hashable Ex.IT realHash (.prim .uint64) k v := by
  have := Ex.typed k v h
  cases v with
  | sub t => simp [PFields.cons, PFields.WellTyped] at this
  | prim x =>
    simp only [PFields.cons, PFields.WellTyped] at this
    exact ⟨this.1.2, this.2.1⟩

/-- The right side of a tree, and the tree, with the real SHA-256. -/
example : (∃ s', issubset 0 Ex.toBits Ex.IT realHash 5 6 Ex.s3 = (.ok true, s')) ∧ ∃ s', issubset 0 Ex.toBits Ex.IT realHash 6 5 Ex.s3 = (.ok false, s') := by
  have hsub : ∀ k v, Ex.d2 k = some v → Ex.d3 k = some v := by
    intro k v h
    unfold Ex.d2 Dict.del at h
    split at h
    · cases h
    · exact h
  have h5 : Holds Ex.IT realHash 0 (.prim .uint64) Ex.pre Ex.s3 5 Ex.d2 := ⟨_, Ex.contains2, Ex.whole_right.represents⟩
  have htag : MBTagsDistinct realHash intMBTag := by unfold MBTagsDistinct CollisionFree; decide +kernel
  constructor
  · obtain ⟨x, s', e, _, h⟩ := C151_issubset Ex.wf Ex.declares Ex.prefixes Ex.holds.1 h5 Ex.holds.2 (fun k v h => Ex.hashable (hsub k v h)) (fun k v h => Ex.hashable h) htag
      (fun t u ht hu => by rw [ht.unique Ex.contains2, hu.unique Ex.contains]; unfold CollisionFree; decide +kernel)
    have : x = true := h.mpr fun k v hd => ⟨v, hsub k v hd, by cases v <;> simp [SameValue]⟩
    exact ⟨s', this ▸ e⟩
  · obtain ⟨x, s', e, _, h⟩ := C151_issubset Ex.wf Ex.declares Ex.prefixes Ex.holds.1 Ex.holds.2 h5 (fun k v h => Ex.hashable h) (fun k v h => Ex.hashable (hsub k v h)) htag
      (fun t u ht hu => by rw [ht.unique Ex.contains, hu.unique Ex.contains2]; unfold CollisionFree; decide +kernel)
    have : x = false := by
      cases x with
      | false => rfl
      | true =>
        obtain ⟨v', hv', _⟩ := h.mp rfl (Ex.key 0) (.prim (.int 1)) ((Ex.contains.2 _ _).mpr (by simp [Ex.t3, pairs]))
        simp [Ex.d2, Dict.del] at hv'
    exact ⟨s', this ▸ e⟩

/-- C151: trees of different classes are not compared. -/
theorem C151_classes {s : PState} {a b : Nat} {oa ob : Obj} (ha : s.objs[a]? = some oa) (hb : s.objs[b]? = some ob)
    (h : (T oa.cls).bases.head? ≠ (T ob.cls).bases.head?) : issubset m k2p T H a b s = (.error .typeError, s) := by
  unfold issubset
  rw [issubsetF, HM.bind_obj ha, HM.bind_obj hb, if_pos (Ne.symm h)]
  rfl

/-- A tree, and the same tree received pruned: of class `IntMBTree` itself. -/
example : (issubset 0 Ex.toBits Ex.IT realHash 6 7 { Ex.s3 with objs := Ex.s3.objs ++ [{ cls := 0, fields := [] }] }).1 = .error .typeError := by decide +kernel

end Merb
end Verif
