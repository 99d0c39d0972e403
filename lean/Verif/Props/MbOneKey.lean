import Verif.Lemmas.GuShip
import Verif.Props.MbProof
import Verif.Props.Proof
/-!
# C81, trees of one key whose value is a proof
-/
namespace Verif
namespace Merb
open Seal MB
open Mmr (AllRep SameValue)
variable {T : Table} {H : HashFns} {m : Nat} {tag : Bytes} {τ : PrimTy} {kv : Kind} {k2p : PVal → Py (List Bool)} {kp : Key τ → List Bool}

/-- What has been read of a tree of one key when a key was looked up. -/
theorem reads_leaf (hk : Prefixes τ k2p kp) (k k0 : Key τ) (q : PTree) (n : Nat) :
    [] ∈ (item m k2p (n + 1) k.1).reads T H (emb m (.leaf k0 (.sub q))) ∧ [1] ∉ (item m k2p (n + 1) k.1).reads T H (emb m (.leaf k0 (.sub q))) := by
  unfold item locate
  rw [reads_bind, reads_bind]
  by_cases h : k0.1 = k.1 <;>
  simp [h, hk.eq k, descend, Prog.reads, Prog.eval, thenReads, eval_bind, TVal.asProof, reads_bind, TVal.readsOn, TVal.walk, emb, PFields.cons, PTree.get?, PFields.get?, PTree.attr, PTree.cls, Except.bind_ok]


/-- A tree of one key is a leaf. -/
theorem one_leaf {d : Dict (Key τ) TVal} {t : MB (Key τ) TVal} (ht : Contains T H kv kp d t) {k0 : Key τ} {q : PTree} (h0 : d k0 = some (.sub q))
    (hone : ∀ k, d k ≠ none → k = k0) : t = .leaf k0 (.sub q) := by
  have hlen : ∀ z ∈ t.pairs, z = (k0, .sub q) := by
    intro z hz
    have h1 := (ht.2 z.1 z.2).mpr hz
    have h2 := hone z.1 (by rw [h1]; simp)
    rw [h2, h0] at h1
    exact Prod.ext h2 (Option.some.inj h1).symm
  rcases ht.1 with rfl | hw
  · have := (ht.2 k0 (.sub q)).mp h0
    simp [pairs] at this
  · cases hw with
    | leaf k' v' =>
      have := hlen (k', v') (by simp [pairs])
      rw [Prod.mk.injEq] at this
      rw [this.1, this.2]
    | @inner q l r' hl hr'' h1 h2 =>
      obtain ⟨a, ha⟩ := hl.nonempty
      obtain ⟨c, hc⟩ := hr''.nonempty
      have e1 := hlen a (by simp [pairs, ha])
      have e2 := hlen c (by simp [pairs, hc])
      have := snoc_prefix_unique (h1 a ha) (by rw [e1, ← e2]; exact h2 c hc)
      cases this

/-- With one key, whose value is a proof that is neither a `VarProof` nor a `TxProof`, whichever key was looked up: the receiver has a
tree of that key, with the same hash, whose value is a proof of the same class with the same hash. -/
theorem C81_one_proof_partial (hT : T.WF) (hD : Declares T H m tag τ kv) (hk : Prefixes τ k2p kp) {s : PState} {r : Nat} {d : Dict (Key τ) TVal} (hs : Reachable T H s)
    (h : Holds T H m kv kp s r d) (hv : ∀ k v, d k = some v → (PFields.prim k.1 (PFields.cons v .nil)).WellTyped T [.prim τ, kv])
    {k0 : Key τ} {q : PTree} (h0 : d k0 = some (.sub q)) (hone : ∀ k, d k ≠ none → k = k0) (hvar : (T q.cls).variants = none) (htx : (T q.cls).isTx = false)
    {k : Key τ} {p : Nat} {v : Py HVal} {b : Bytes} {s1 s2 s3 : PState}
    (hp : Prf.prune T r s = (.ok p, s1)) (hg : getItem m k2p T H p k.1 s1 = (v, s2)) (hb : Prf.serialize T H p s2 = (.ok b, s3)) {s0 : PState} (hs0 : Reachable T H s0) :
    ∃ r' s0' q', Prf.deserialize T m b s0 = (.ok r', s0') ∧ Holds T H m kv kp s0' r' (Dict.set (fun _ => none) k0 (.sub q')) ∧
      q'.cls = q.cls ∧ q'.hash T H = q.hash T H ∧ (Prf.hash T H r' s0').1 = (Prf.hash T H r s).1 := by
  obtain ⟨t, ht, hr⟩ := h
  have hty := emb_typed hD (t := t) (fun x hx => hv x.1 x.2 ((ht.2 x.1 x.2).mpr hx))
  have hst := getItem_state (T := T) (H := H) (m := m) (k2p := k2p) p k.1 s1
  rw [hg] at hst
  have htl := one_leaf ht h0 hone
  subst htl
  replace hty := hty (by simp [prefixes])
  obtain ⟨hrd, hnr⟩ := reads_leaf (T := T) (H := H) (m := m) hk k k0 q s1.objs.length
  generalize hS : (item m k2p (s1.objs.length + 1) k.1).reads T H (emb m (.leaf k0 (.sub q))) = S at hrd hnr
  have hrev : (emb m (.leaf k0 (.sub q))).reveal T H S [] = emb m (.leaf k0 (.sub (q.reveal T H S [1]))) := by
    show PTree.reveal T H _ [] (.node (m + 2) (.prim k0.1 (.sub q .nil))) = .node (m + 2) (.prim k0.1 (.sub (q.reveal T H S [1]) .nil))
    rw [PTree.reveal, if_pos hrd, PFields.reveal, PFields.reveal, PFields.reveal]
    rfl
  have hkq : (q.reveal T H S [1]).KeepsSpecial T := keeps_ordinary hvar htx fun h => absurd h hnr
  have hkeep : ((emb m (.leaf k0 (.sub q))).reveal T H S []).KeepsSpecial T := by
    rw [hrev]
    show (PTree.node (m + 2) (.prim k0.1 (.sub (q.reveal T H S [1]) .nil))).KeepsSpecial T
    rw [PTree.KeepsSpecial, PFields.KeepsSpecial, PFields.KeepsSpecial, PFields.KeepsSpecial]
    exact ⟨hkq, trivial⟩
  obtain ⟨τ, addr, t', hi, hvw, hr1, hpt⟩ := (Tracked.prune hs hp).vw hT
  obtain ⟨τ0, hi0⟩ := hs.inv hT
  have h00 := hi0.of_represents hr
  obtain ⟨τ1, hi1, _, h2, h3, _⟩ := prune_spec hi0 h00
  rw [hp] at h2 hi1
  simp only [Except.ok.injEq] at h2
  subst h2
  obtain ⟨addr', hv'⟩ := Vw.run hT (item m k2p (s1.objs.length + 1) k.1) _ _ _ _ _ hi1 h3 hvw
  rw [List.nil_append, ← hst, hS] at hv'
  obtain ⟨τ2, hi2, _, _⟩ := run_ship hT (item m k2p (s1.objs.length + 1) k.1) _ _ _ _ hi1 h3
  rw [← hst] at hi2
  have hd := hv'.disclosed hi2 _ _ [] hv'.root (append_get h3)
  obtain ⟨_, _, _, h4⟩ := serialize_spec hT hi2 (append_get h3)
  rw [hb] at h4
  have henc := PTree.encAt_ok _ _ _ b h4.symm
  have hwt := PTree.disclosed_typed _ _ _ m b hty h4.symm (by rw [hd]; exact hkeep)
  have hhash := (PTree.disclosed_hash _ _ _ hwt.checked (by rw [hd]; exact hkeep)).1
  rw [hd, hrev] at henc hwt hhash
  obtain ⟨τr, hir⟩ := hs0.inv hT
  obtain ⟨τr', hir', _, r', hres, hfresh, _⟩ := deserialize_rt hT hir hwt henc
  have hs0' : Reachable T H (Prf.deserialize T m b s0).2 := hs0.tail (.deserialize m b)
  have hr' := hir'.represents _ _ hfresh
  refine ⟨r', _, q.reveal T H S [1], Prod.ext hres rfl, ⟨.leaf k0 (.sub (q.reveal T H S [1])), ⟨.inr (.leaf _ _), fun k' v' => ?_⟩, hr'⟩, ?_, ?_, ?_⟩
  · simp only [pairs, Dict.set]
    split
    · rename_i e
      simp [e, eq_comm]
    · rename_i e
      simp [e]
  · cases q with
    | pruned c d => rw [PTree.reveal]
    | node c fs => rw [PTree.reveal, if_neg hnr]; rfl
  · cases q with
    | pruned c d => rw [PTree.reveal]
    | node c fs =>
      rw [PTree.reveal, if_neg hnr] at hkq hwt ⊢
      refine (PTree.stub_hash ?_ hkq).1
      have hch := hwt.checked
      change (PTree.node (m + 2) (.prim k0.1 (.sub ((PTree.node c fs).stub T H) .nil))).Checked T at hch
      rw [PTree.Checked] at hch
      rcases ha : (T (m + 2)).attrs with _ | ⟨_ | _ | _, _ | ⟨_, _⟩⟩ <;> rw [ha] at hch <;> simp only [PFields.Checked] at hch
      · exact hch.2.elim
      · exact hch.2.2.1
  · rw [hash_rep hT hs hr, hash_rep hT hs0' hr', hhash]

/-- With one key, whose value is declared to be a `VarProof`: nobody can read what is sent, whichever key was looked up. -/
theorem C81_one_variant_partial {c : Nat} {us : List Nat} (hT : T.WF) (hD : Declares T H m tag τ (.proof c)) (hk : Prefixes τ k2p kp) {s : PState} {r : Nat} {d : Dict (Key τ) TVal}
    (hs : Reachable T H s) (h : Holds T H m (.proof c) kp s r d) (hv : ∀ k v, d k = some v → (PFields.prim k.1 (PFields.cons v .nil)).WellTyped T [.prim τ, .proof c])
    {k0 : Key τ} {q : PTree} (h0 : d k0 = some (.sub q)) (hone : ∀ k, d k ≠ none → k = k0) (hvar : (T c).variants = some us) (hus : us.any (T.isInst c) = false)
    {k : Key τ} {p : Nat} {v : Py HVal} {b : Bytes} {s1 s2 s3 : PState}
    (hp : Prf.prune T r s = (.ok p, s1)) (hg : getItem m k2p T H p k.1 s1 = (v, s2)) (hb : Prf.serialize T H p s2 = (.ok b, s3)) {s0 : PState} (hs0 : Reachable T H s0) :
    (Prf.deserialize T m b s0).1 = .error .serType := by
  obtain ⟨t, ht, hr⟩ := h
  have hty := emb_typed hD (t := t) (fun x hx => hv x.1 x.2 ((ht.2 x.1 x.2).mpr hx))
  have hst := getItem_state (T := T) (H := H) (m := m) (k2p := k2p) p k.1 s1
  rw [hg] at hst
  have htl := one_leaf ht h0 hone
  subst htl
  replace hty := hty (by simp [prefixes])
  obtain ⟨hrd, hnr⟩ := reads_leaf (T := T) (H := H) (m := m) hk k k0 q s1.objs.length
  refine C37_variant_lost_partial hT hs hr hty (item m k2p (s1.objs.length + 1) k.1) (s2 := s2) hp (res := ((item m k2p (s1.objs.length + 1) k.1).run T H p s1).1) (Prod.ext rfl hst.symm) hb ?_ hs0
  generalize (item m k2p (s1.objs.length + 1) k.1).reads T H (emb m (.leaf k0 (.sub q))) = S at hrd hnr ⊢
  show (PTree.reveal T H _ [] (.node (m + 2) (.prim k0.1 (.sub q .nil)))).Loses T
  rw [PTree.reveal, if_pos hrd, PFields.reveal, PFields.reveal, PFields.reveal, PTree.Loses, hD.leaf, PFields.Loses]
  have : ∃ c' d', q.reveal T H S ([] ++ [0 + 1]) = .pruned c' d' := by
    cases q with
    | pruned c d => exact ⟨c, d, by rw [PTree.reveal]⟩
    | node c fs => rw [PTree.reveal, if_neg (show ¬ ([] ++ [0 + 1]) ∈ S from hnr)]; exact ⟨_, _, rfl⟩
  obtain ⟨c', d', e⟩ := this
  rw [e, PFields.Loses]
  exact .inl ⟨us, hvar, hus⟩

/-- A case: the `FooProof` of the tests as class of values, a tree with one key. -/
def Ex.PT : Table := Table.withMb ProofEx.TT realHash 10 intMBTag (.fixed 32) (.proof 0)

theorem Ex.PT_not_tx (c : Nat) : (Ex.PT c).isTx = false := by
  unfold Ex.PT Table.withMb
  split
  · rfl
  split
  · rfl
  split
  · rfl
  split
  · rfl
  · unfold ProofEx.TT testClasses; split <;> rfl

theorem Ex.PT_wf : Ex.PT.WF := fun c h => by rw [Ex.PT_not_tx] at h; cases h

theorem Ex.PT_declares : Declares Ex.PT realHash 10 intMBTag (.fixed 32) (.proof 0) := ⟨rfl, rfl, rfl, rfl⟩

/-- `f = FooProof(n=1)` … -/
def Ex.f0 : PState := (Prf.new Ex.PT 0 [.prim (.int 1)] {}).2
/-- … and the tree `{key: f}`. -/
def Ex.f1 : PState := (ofPairs 10 Ex.toBits Ex.PT realHash [((Ex.key 0x81).1, .ref 0)] Ex.f0).2

theorem Ex.f0_eq : Ex.f0 = { objs := [{ cls := 0, fields := [some (.prim (.int 1))] }], inited := [0] } := by decide +kernel

theorem Ex.f_holds : Reachable Ex.PT realHash Ex.f1 ∧
    Holds Ex.PT realHash 10 (.proof 0) Ex.pre Ex.f1 2 (Dict.set (fun _ => none) (Ex.key 0x81) (.sub (ProofEx.foo 1))) := by
  have h0 : Reachable Ex.PT realHash Ex.f0 := .tail .refl (.new 0 _ (by simp))
  have hr : Represents Ex.f0 0 (ProofEx.foo 1) := by rw [Ex.f0_eq]; exact .node (o := { cls := 0, fields := [some (.prim (.int 1))] }) rfl rfl rfl (.prim .nil)
  obtain ⟨r, s', e, st, h⟩ := C79_new Ex.PT_wf Ex.PT_declares Ex.prefixes h0 (kvs := [((Ex.key 0x81).1, .ref 0)]) (xs := [(Ex.key 0x81, .sub (ProofEx.foo 1))])
    (.cons ⟨rfl, hr⟩ .nil) (by simp only [List.mem_singleton, forall_eq]; rfl) (by simp)
  have h5 : (ofPairs 10 Ex.toBits Ex.PT realHash [((Ex.key 0x81).1, .ref 0)] Ex.f0).1 = .ok 2 := by decide +kernel
  have hs : s' = Ex.f1 := by unfold Ex.f1; rw [e]
  rw [e] at h5
  simp only [Except.ok.injEq] at h5
  rw [h5, hs] at h
  rw [hs] at st
  exact ⟨h0.trans st, h⟩

/-- The hypotheses are met, with the key looked up. -/
example : (∀ k v, Dict.set (fun _ => none) (Ex.key 0x81) (.sub (ProofEx.foo 1)) k = some v →
      (PFields.prim k.1 (PFields.cons v .nil)).WellTyped Ex.PT [.prim (.fixed 32), .proof 0]) ∧
    (Ex.PT (ProofEx.foo 1).cls).variants = none ∧ (Ex.PT (ProofEx.foo 1).cls).isTx = false ∧
    (Prf.prune Ex.PT 2 Ex.f1).1 = .ok 3 ∧ (getItem 10 Ex.toBits Ex.PT realHash 3 (Ex.key 0x81).1 (Prf.prune Ex.PT 2 Ex.f1).2).1 = .ok (.ref 4) ∧
    (Prf.serialize Ex.PT realHash 3 (getItem 10 Ex.toBits Ex.PT realHash 3 (Ex.key 0x81).1 (Prf.prune Ex.PT 2 Ex.f1).2).2).1.map List.length = .ok 67 := by
  refine ⟨fun k v h => ?_, rfl, rfl, by decide +kernel, by decide +kernel, by decide +kernel⟩
  simp only [Dict.set] at h
  split at h
  · rename_i e
    cases h
    rw [e, PFields.cons, PFields.WellTyped, PFields.WellTyped, PFields.WellTyped]
    refine ⟨⟨(Ex.key 0x81).2, trivial, _, rfl⟩, ?_, trivial⟩
    rw [ProofEx.foo, PTree.WellTyped]
    refine ⟨⟨rfl, ?_⟩, fun us h => by cases h⟩
    show PFields.WellTyped Ex.PT _ [.prim (.uint 0xff)]
    rw [PFields.WellTyped, PFields.WellTyped]
    exact ⟨⟨rfl, trivial, _, rfl⟩, trivial⟩
  · cases h

/-- A case of the other theorem: values are `FooVarProof`s, and that of the one key is `LeafFooVarProof(value=15)`. -/
def Ex.VT : Table := Table.withMb ProofEx.TT realHash 10 intMBTag (.fixed 32) (.proof 2)

/-- `{key: LeafFooVarProof(value=15)}`. -/
def Ex.v1 : PState := (ofPairs 10 Ex.toBits Ex.VT realHash [((Ex.key 0x81).1, .ref 0)] (Prf.new Ex.VT 4 [.prim (.int 15)] {}).2).2

example : (∀ us, (Ex.VT 2).variants = some us → us.any (Ex.VT.isInst 2) = false) ∧ (Ex.VT 2).variants ≠ none ∧
    (PFields.prim (Ex.key 0x81).1 (PFields.cons (.sub (.node 4 (.prim (.int 15) .nil))) .nil)).WellTyped Ex.VT [.prim (.fixed 32), .proof 2] ∧
    (Prf.prune Ex.VT 2 Ex.v1).1 = .ok 3 ∧ (getItem 10 Ex.toBits Ex.VT realHash 3 (Ex.key 0x81).1 (Prf.prune Ex.VT 2 Ex.v1).2).1 = .ok (.ref 4) ∧
    (Prf.serialize Ex.VT realHash 3 (getItem 10 Ex.toBits Ex.VT realHash 3 (Ex.key 0x81).1 (Prf.prune Ex.VT 2 Ex.v1).2).2).1.map List.length = .ok 67 := by
  refine ⟨fun us h => ?_, by decide +kernel, ?_, by decide +kernel, by decide +kernel, by decide +kernel⟩
  · have : (Ex.VT 2).variants = some [3, 4, 5, 7] := rfl
    rw [this] at h
    cases h
    decide +kernel
  · rw [PFields.cons, PFields.WellTyped, PFields.WellTyped, PFields.WellTyped, PTree.WellTyped]
    refine ⟨⟨(Ex.key 0x81).2, trivial, _, rfl⟩, ⟨⟨⟨1, rfl, rfl, by decide +kernel, by decide +kernel⟩, ?_⟩, fun us h => ?_⟩, trivial⟩
    · show PFields.WellTyped Ex.VT _ [.prim (.uint 0xff)]
      rw [PFields.WellTyped, PFields.WellTyped]
      exact ⟨⟨rfl, trivial, _, rfl⟩, trivial⟩
    · have : (Ex.VT 2).variants = some [3, 4, 5, 7] := rfl
      rw [this] at h
      cases h
      decide +kernel

end Merb
end Verif
