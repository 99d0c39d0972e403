import Verif.Lemmas.GuShip
import Verif.Props.MmrProof
/-!
# C66, mountain ranges of one item that is a proof
-/
namespace Verif
open Seal
namespace Mmr
variable {T : Table} {H : HashFns} {m : Nat} {tag : Bytes} {k : Kind}

/-- What has been read of a range of one item when it was looked up. -/
theorem reads_leaf (q : PTree) (n : Nat) {i : Int} (hi : i = 0 ∨ i = -1) :
    [] ∈ (item m (n + 1) i).reads T H (emb m (.leaf (.sub q))) ∧ [0] ∉ (item m (n + 1) i).reads T H (emb m (.leaf (.sub q))) := by
  unfold item
  rw [reads_bind]
  simp [locate, Prog.reads, Prog.eval, thenReads, eval_bind, TVal.asProof, TVal.readsOn, TVal.walk, emb, PFields.cons, PTree.get?, PFields.get?, PTree.attr, PTree.cls, Except.bind_ok, hi]

/-- Which indices find something. -/
theorem one_index (hT : T.WF) {s : PState} {p : Nat} {x : TVal} (hs : Reachable T H s) (hr : Represents s p (emb m (.leaf x))) {i : Int} {v : HVal} {s' : PState}
    (hg : getItem m T H p i s = (.ok v, s')) : i = 0 ∨ i = -1 := by
  obtain ⟨π, tv, hl, hw, hrep, _⟩ := getItem_inv hT hs hr hg
  rw [locate_succ] at hl
  rcases hl with ⟨_, h, _⟩ | ⟨h, _⟩
  · exact h
  · simp at h

/-- With one item, a proof that is neither a `VarProof` nor a `TxProof`: the receiver has a range of one item, with the same hash, and the
item is of the same class and has the same hash. -/
theorem C66_one_proof_partial (hT : T.WF) (hD : Declares T H m tag k) {s : PState} {r : Nat} {q : PTree} (hs : Reachable T H s) (h : Holds T m k s r [.sub q])
    (hv : (PFields.sub q .nil).WellTyped T [k]) (hvar : (T q.cls).variants = none) (htx : (T q.cls).isTx = false) {i : Int} {p : Nat} {v : HVal} {b : Bytes} {s1 s2 s3 : PState}
    (hp : Prf.prune T r s = (.ok p, s1)) (hg : getItem m T H p i s1 = (.ok v, s2)) (hb : Prf.serialize T H p s2 = (.ok b, s3)) {s0 : PState} (hs0 : Reachable T H s0) :
    ∃ r' s0' q', Prf.deserialize T m b s0 = (.ok r', s0') ∧ Holds T m k s0' r' [.sub q'] ∧ q'.cls = q.cls ∧ q'.hash T H = q.hash T H ∧
      (Prf.hash T H r' s0').1 = (Prf.hash T H r s).1 := by
  obtain ⟨t, hist, ht, hr⟩ := h.history (H := H)
  have hty := emb_typed hD ht h.1 (by simpa [PFields.cons] using hv)
  obtain ⟨p', s1', hp', hhp⟩ := C64_prune hT hs h
  rw [hp] at hp'
  cases hp'
  have hs1 : Reachable T H s1 := by
    have := hs.tail (.prune r)
    rwa [hp] at this
  obtain ⟨_, _, ht', hpr⟩ := hhp.history (H := H)
  cases ht'.unique (IsMMR.leaf _)
  have htl : t = .leaf (.sub q) := ht.unique (IsMMR.leaf _)
  subst htl
  have hi := one_index hT hs1 hpr hg
  have hst := getItem_state (T := T) (H := H) (m := m) p i s1
  rw [hg] at hst
  obtain ⟨hrd, hnr⟩ := reads_leaf (T := T) (H := H) (m := m) q s1.objs.length hi
  generalize hS : (item m (s1.objs.length + 1) i).reads T H (emb m (.leaf (.sub q))) = S at hrd hnr
  have hrev : (emb m (.leaf (.sub q))).reveal T H S [] = emb m (.leaf (.sub (q.reveal T H S [0]))) := by
    show PTree.reveal T H _ [] (.node (m + 2) (.sub q .nil)) = .node (m + 2) (.sub (q.reveal T H S [0]) .nil)
    rw [PTree.reveal, if_pos hrd, PFields.reveal, PFields.reveal]
    rfl
  have hkq : (q.reveal T H S [0]).KeepsSpecial T := keeps_ordinary hvar htx fun h => absurd h hnr
  have hkeep : ((emb m (.leaf (.sub q))).reveal T H S []).KeepsSpecial T := by
    rw [hrev]
    show (PTree.node (m + 2) (.sub (q.reveal T H S [0]) .nil)).KeepsSpecial T
    rw [PTree.KeepsSpecial, PFields.KeepsSpecial, PFields.KeepsSpecial]
    exact ⟨hkq, trivial⟩
  obtain ⟨τ, addr, t', hi', hvw, hr1, hpt⟩ := (Tracked.prune hs hp).vw hT
  obtain ⟨τ0, hi0⟩ := hs.inv hT
  have h00 := hi0.of_represents hr
  obtain ⟨τ1, hi1, _, h2, h3, _⟩ := prune_spec hi0 h00
  rw [hp] at h2 hi1
  simp only [Except.ok.injEq] at h2
  subst h2
  obtain ⟨addr', hv'⟩ := Vw.run hT (item m (s1.objs.length + 1) i) _ _ _ _ _ hi1 h3 hvw
  rw [List.nil_append, ← hst, hS] at hv'
  obtain ⟨τ2, hi2, _, _⟩ := run_ship hT (item m (s1.objs.length + 1) i) _ _ _ _ hi1 h3
  rw [← hst] at hi2
  have hd := hv'.disclosed hi2 _ _ [] hv'.root (append_get h3)
  obtain ⟨_, _, _, h4⟩ := serialize_spec hT hi2 (append_get h3)
  rw [hb] at h4
  have henc := PTree.encAt_ok _ _ _ b h4.symm
  have hwt := PTree.disclosed_typed _ _ _ m b hty h4.symm (by rw [hd]; exact hkeep)
  have hhash := (PTree.disclosed_hash _ _ _ hwt.checked (by rw [hd]; exact hkeep)).1
  rw [hd, hrev] at henc hwt hhash
  obtain ⟨τr, hir⟩ := hs0.inv hT
  obtain ⟨τr', hir', _, r', hres, hfresh, _⟩ := deserialize_rt hT hir hwt henc
  have hs0' : Reachable T H (Prf.deserialize T m b s0).2 := hs0.tail (.deserialize m b)
  have hr' := hir'.represents _ _ hfresh
  have hcls : (q.reveal T H S [0]).cls = q.cls := by
    cases q with
    | pruned c d => rw [PTree.reveal]
    | node c fs => rw [PTree.reveal, if_neg hnr]; rfl
  refine ⟨r', _, q.reveal T H S [0], Prod.ext hres rfl, ⟨h.1, fun x hx => ?_, _, .leaf _, hr'⟩, hcls, ?_, ?_⟩
  · rw [List.mem_singleton.mp hx]
    have := h.2.1 (.sub q) (by simp)
    cases k <;> simp only [accepts, hcls] at this ⊢ <;> exact this
  · cases q with
    | pruned c d => rw [PTree.reveal]
    | node c fs =>
      rw [PTree.reveal, if_neg hnr] at hkq hwt ⊢
      refine (PTree.stub_hash ?_ hkq).1
      have hch := hwt.checked
      change (PTree.node (m + 2) (.sub ((PTree.node c fs).stub T H) .nil)).Checked T at hch
      rw [PTree.Checked] at hch
      rcases ha : (T (m + 2)).attrs with _ | ⟨_, _⟩ <;> rw [ha] at hch <;> simp only [PFields.Checked] at hch
      exact hch.2.1
  · rw [hash_rep hT hs hr, hash_rep hT hs0' hr', hhash]

/-- With one item, declared to be a `VarProof`: nobody can read what is sent. -/
theorem C66_one_variant_partial {c : Nat} {us : List Nat} (hT : T.WF) (hD : Declares T H m tag (.proof c)) {s : PState} {r : Nat} {q : PTree} (hs : Reachable T H s)
    (h : Holds T m (.proof c) s r [.sub q]) (hv : (PFields.sub q .nil).WellTyped T [.proof c]) (hvar : (T c).variants = some us) (hus : us.any (T.isInst c) = false)
    {i : Int} {p : Nat} {v : HVal} {b : Bytes} {s1 s2 s3 : PState}
    (hp : Prf.prune T r s = (.ok p, s1)) (hg : getItem m T H p i s1 = (.ok v, s2)) (hb : Prf.serialize T H p s2 = (.ok b, s3)) {s0 : PState} (hs0 : Reachable T H s0) :
    (Prf.deserialize T m b s0).1 = .error .serType := by
  obtain ⟨t, hist, ht, hr⟩ := h.history (H := H)
  have hty := emb_typed hD ht h.1 (by simpa [PFields.cons] using hv)
  obtain ⟨p', s1', hp', hhp⟩ := C64_prune hT hs h
  rw [hp] at hp'
  cases hp'
  have hs1 : Reachable T H s1 := by
    have := hs.tail (.prune r)
    rwa [hp] at this
  obtain ⟨_, _, ht', hpr⟩ := hhp.history (H := H)
  cases ht'.unique (IsMMR.leaf _)
  have htl : t = .leaf (.sub q) := ht.unique (IsMMR.leaf _)
  subst htl
  have hi := one_index hT hs1 hpr hg
  have hst := getItem_state (T := T) (H := H) (m := m) p i s1
  rw [hg] at hst
  obtain ⟨hrd, hnr⟩ := reads_leaf (T := T) (H := H) (m := m) q s1.objs.length hi
  refine C37_variant_lost_partial hT hs hr hty (item m (s1.objs.length + 1) i) (s2 := s2) hp (res := ((item m (s1.objs.length + 1) i).run T H p s1).1) (Prod.ext rfl hst.symm) hb ?_ hs0
  generalize (item m (s1.objs.length + 1) i).reads T H (emb m (.leaf (.sub q))) = S at hrd hnr ⊢
  show (PTree.reveal T H _ [] (.node (m + 2) (.sub q .nil))).Loses T
  rw [PTree.reveal, if_pos hrd, PFields.reveal, PFields.reveal, PTree.Loses, hD.leaf]
  have : ∃ c' d', q.reveal T H S ([] ++ [0]) = .pruned c' d' := by
    cases q with
    | pruned c d => exact ⟨c, d, by rw [PTree.reveal]⟩
    | node c fs => rw [PTree.reveal, if_neg (show ¬ ([] ++ [0]) ∈ S from hnr)]; exact ⟨_, _, rfl⟩
  obtain ⟨c', d', e⟩ := this
  rw [e, PFields.Loses]
  exact .inl ⟨us, hvar, hus⟩

/-- Cases: `FooProof(n=1)` and `LeafFooVarProof(value=15)` of the tests as only item. -/
def Ex.PT (c : Nat) : Table := Table.withMmr ProofEx.TT realHash 10 intMMRTag (.proof c)

/-- `M([FooProof(n=1)])`, `M([LeafFooVarProof(value=15)])`. -/
def Ex.only (c c' : Nat) (n : Int) : PState := (ofIterable 10 (Ex.PT c) realHash [.ref 0] (Prf.new (Ex.PT c) c' [.prim (.int n)] {}).2).2

theorem Ex.PT_not_tx (a c : Nat) : (Ex.PT a c).isTx = false := by
  unfold Ex.PT Table.withMmr
  split
  · rfl
  split
  · rfl
  split
  · rfl
  split
  · rfl
  · unfold ProofEx.TT testClasses; split <;> rfl

theorem Ex.only_holds : Reachable (Ex.PT 0) realHash (Ex.only 0 0 1) ∧ Holds (Ex.PT 0) 10 (.proof 0) (Ex.only 0 0 1) 2 [.sub (ProofEx.foo 1)] := by
  have h0 : Reachable (Ex.PT 0) realHash (Prf.new (Ex.PT 0) 0 [.prim (.int 1)] {}).2 := .tail .refl (.new 0 _ (by simp))
  have e0 : (Prf.new (Ex.PT 0) 0 [.prim (.int 1)] {}).2 = { objs := [{ cls := 0, fields := [some (.prim (.int 1))] }], inited := [0] } := by decide +kernel
  have hr : Represents (Prf.new (Ex.PT 0) 0 [.prim (.int 1)] {}).2 0 (ProofEx.foo 1) := by
    rw [e0]; exact .node (o := { cls := 0, fields := [some (.prim (.int 1))] }) rfl rfl rfl (.prim .nil)
  obtain ⟨r, s', e, st, h⟩ := C64_new (T := Ex.PT 0) (tag := intMMRTag) (k := .proof 0) (m := 10) (fun c h => by rw [Ex.PT_not_tx] at h; cases h) ⟨rfl, rfl, rfl, rfl⟩ h0
    (vs := [.ref 0]) (xs := [.sub (ProofEx.foo 1)]) (.cons hr .nil) (by simp only [List.mem_singleton, forall_eq]; rfl) (by simp)
  have h5 : (ofIterable 10 (Ex.PT 0) realHash [.ref 0] (Prf.new (Ex.PT 0) 0 [.prim (.int 1)] {}).2).1 = .ok 2 := by decide +kernel
  have hs : s' = Ex.only 0 0 1 := by unfold Ex.only; rw [e]
  rw [e] at h5
  simp only [Except.ok.injEq] at h5
  rw [h5, hs] at h
  rw [hs] at st
  exact ⟨h0.trans st, h⟩

example : (PFields.sub (ProofEx.foo 1) .nil).WellTyped (Ex.PT 0) [.proof 0] ∧ (Ex.PT 0 (ProofEx.foo 1).cls).variants = none ∧ (Ex.PT 0 (ProofEx.foo 1).cls).isTx = false ∧
    (Prf.prune (Ex.PT 0) 2 (Ex.only 0 0 1)).1 = .ok 3 ∧ (getItem 10 (Ex.PT 0) realHash 3 (-1) (Prf.prune (Ex.PT 0) 2 (Ex.only 0 0 1)).2).1 = .ok (.ref 4) ∧
    (Prf.serialize (Ex.PT 0) realHash 3 (getItem 10 (Ex.PT 0) realHash 3 (-1) (Prf.prune (Ex.PT 0) 2 (Ex.only 0 0 1)).2).2).1.map List.length = .ok 35 := by
  refine ⟨?_, rfl, rfl, by decide +kernel, by decide +kernel, by decide +kernel⟩
  rw [PFields.WellTyped, PFields.WellTyped, ProofEx.foo, PTree.WellTyped]
  refine ⟨⟨⟨rfl, ?_⟩, fun us h => by cases h⟩, trivial⟩
  show PFields.WellTyped (Ex.PT 0) _ [.prim (.uint 0xff)]
  rw [PFields.WellTyped, PFields.WellTyped]
  exact ⟨⟨rfl, trivial, _, rfl⟩, trivial⟩

example : (∀ us, (Ex.PT 2 2).variants = some us → us.any ((Ex.PT 2).isInst 2) = false) ∧ (Ex.PT 2 2).variants ≠ none ∧
    (PFields.sub (.node 4 (.prim (.int 15) .nil)) .nil).WellTyped (Ex.PT 2) [.proof 2] ∧
    (Prf.prune (Ex.PT 2) 2 (Ex.only 2 4 15)).1 = .ok 3 ∧ (getItem 10 (Ex.PT 2) realHash 3 0 (Prf.prune (Ex.PT 2) 2 (Ex.only 2 4 15)).2).1 = .ok (.ref 4) ∧
    (Prf.serialize (Ex.PT 2) realHash 3 (getItem 10 (Ex.PT 2) realHash 3 0 (Prf.prune (Ex.PT 2) 2 (Ex.only 2 4 15)).2).2).1.map List.length = .ok 35 := by
  have hu : (Ex.PT 2 2).variants = some [3, 4, 5, 7] := rfl
  refine ⟨fun us h => ?_, by decide +kernel, ?_, by decide +kernel, by decide +kernel, by decide +kernel⟩
  · rw [hu] at h
    cases h
    decide +kernel
  · rw [PFields.WellTyped, PFields.WellTyped, PTree.WellTyped]
    refine ⟨⟨⟨⟨1, rfl, rfl, by decide +kernel, by decide +kernel⟩, ?_⟩, fun us h => ?_⟩, trivial⟩
    · show PFields.WellTyped (Ex.PT 2) _ [.prim (.uint 0xff)]
      rw [PFields.WellTyped, PFields.WellTyped]
      exact ⟨⟨rfl, trivial, _, rfl⟩, trivial⟩
    · rw [hu] at h
      cases h
      decide +kernel

end Mmr
end Verif
