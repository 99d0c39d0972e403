import Verif.Lemmas.ProofTrack
import Verif.Lemmas.ProofBind
import Verif.Lemmas.ProofLost
import Verif.Lemmas.ProofDecl
import Verif.Lemmas.Classes
/-!
# Properties of proof.py (C34–C41)

`T` is any collection of classes (`Table`, with the one condition `Table.WF` on `TxProof`), `H` any hash functions.  A
`Reachable` state is one that a program can get into by constructing, pruning, reading, hashing, serializing and
deserializing proofs in any order.  `Represents s r t` says that object `r` stands for the tree `t`.
-/
namespace Verif
set_option linter.unusedSectionVars false
variable {T : Table} {H : HashFns}

/-! ## Examples used below -/
namespace ProofEx

/-- The classes of the tests of proof.py. -/
abbrev TT : Table := testClasses realHash

theorem TT_wf : TT.WF := by
  intro c h
  simp only [TT] at h
  unfold testClasses at h
  split at h <;> cases h

/-- `f1 = FooProof(n=1); f2 = FooProof(n=2); b = BarProof(left=f1, right=f2, nonproof_attr=3)` -/
def mk : HM Nat := do
  let f1 ← Prf.new TT 0 [.prim (.int 1)]
  let f2 ← Prf.new TT 0 [.prim (.int 2)]
  Prf.new TT 1 [.ref f1, .ref f2, .prim (.int 3)]

def s0 : PState := (mk {}).2

def foo (n : Int) : PTree := .node 0 (.prim (.int n) .nil)
def bar : PTree := .node 1 (.sub (foo 1) (.sub (foo 2) (.prim (.int 3) .nil)))

theorem s0_eq : s0 = { objs := [{ cls := 0, fields := [some (.prim (.int 1))] }, { cls := 0, fields := [some (.prim (.int 2))] },
    { cls := 1, fields := [some (.ref 0), some (.ref 1), some (.prim (.int 3))] }], inited := [1, 0] } := by decide +kernel

theorem s0_reachable : Reachable TT realHash s0 := by
  have h1 : Steps TT realHash {} (Prf.new TT 0 [.prim (.int 1)] {}).2 := .tail .refl (.new 0 _ (by simp))
  have h2 : Steps TT realHash {} (Prf.new TT 0 [.prim (.int 2)] (Prf.new TT 0 [.prim (.int 1)] {}).2).2 := h1.tail (.new 0 _ (by simp))
  have h3 := h2.tail (.new 1 [.ref 0, .ref 1, .prim (.int 3)] (by
    intro r hr
    have hl : (Prf.new TT 0 [.prim (.int 2)] (Prf.new TT 0 [.prim (.int 1)] {}).2).2.objs.length = 2 := by decide +kernel
    rw [hl]
    simp only [List.mem_cons, HVal.ref.injEq, reduceCtorEq, List.not_mem_nil, or_false] at hr
    omega))
  exact h3

theorem s0_represents : Represents s0 2 bar := by
  rw [s0_eq]
  have h0 : Represents s0 0 (foo 1) := by rw [s0_eq]; exact .node (o := { cls := 0, fields := [some (.prim (.int 1))] }) rfl rfl rfl (.prim .nil)
  have h1 : Represents s0 1 (foo 2) := by rw [s0_eq]; exact .node (o := { cls := 0, fields := [some (.prim (.int 2))] }) rfl rfl rfl (.prim .nil)
  rw [s0_eq] at h0 h1
  exact .node (o := { cls := 1, fields := [some (.ref 0), some (.ref 1), some (.prim (.int 3))] }) rfl rfl rfl (.sub h0 (.sub h1 (.prim .nil)))

end ProofEx
open ProofEx

/-! ## C34 -/

/-- C34: whatever is done (constructing, pruning, reading attributes, hashing, serializing, deserializing anything), the hash of
an object stays what it was.  So does what `hash()` gives, a function of it (proof.py:79-83). -/
theorem C34_hash_is_stable (hT : T.WF) {s s' : PState} (hs : Reachable T H s) (h : Steps T H s s') {r : Nat} (hr : r < s.objs.length) :
    (Prf.hash T H r s').1 = (Prf.hash T H r s).1 ∧ (Prf.dataHash T H r s').1 = (Prf.dataHash T H r s).1 := by
  obtain ⟨τ, hi⟩ := hs.inv hT
  obtain ⟨τ', hi', _⟩ := h.inv hT hi
  have ht : τ[r]? = some (τ[r]'(by rw [hi.len]; exact hr)) := List.getElem?_eq_getElem _
  obtain ⟨_, _, _, h1⟩ := hash_spec hT hi ht
  obtain ⟨_, _, _, h2⟩ := hash_spec hT hi' (append_get ht)
  obtain ⟨_, _, _, h3⟩ := dataHash_spec hT hi ht
  obtain ⟨_, _, _, h4⟩ := dataHash_spec hT hi' (append_get ht)
  exact ⟨h2.trans h1.symm, h4.trans h3.symm⟩

/-- What `==` gives, by the trees. -/
theorem eq_result (hT : T.WF) {s : PState} {τ : List PTree} (hi : Inv T H s τ) {a b : Nat} {ta tb : PTree} (ha : τ[a]? = some ta) (hb : τ[b]? = some tb) :
    (Prf.eq T H a b s).1 = (do let x ← ta.hash T H; let y ← tb.hash T H; return decide (x = y)) := by
  obtain ⟨τ1, hi1, _, h1⟩ := hash_spec hT hi ha
  unfold Prf.eq
  rw [HM.bind_apply]
  rcases hx : Prf.hash T H a s with ⟨e | x, s1⟩
  · rw [hx] at h1; rw [← h1]; rfl
  · rw [hx] at h1 hi1
    rw [← h1]
    simp only
    obtain ⟨_, _, _, h2⟩ := hash_spec hT hi1 (append_get hb)
    rw [HM.bind_apply]
    rcases hy : Prf.hash T H b s1 with ⟨e | y, s2⟩
    · rw [hy] at h2; rw [← h2]; rfl
    · rw [hy] at h2; rw [← h2]; rfl

/-- C34: so does the result of `==`. -/
theorem C34_eq_is_stable (hT : T.WF) {s s' : PState} (hs : Reachable T H s) (h : Steps T H s s') {a b : Nat} (ha : a < s.objs.length)
    (hb : b < s.objs.length) : (Prf.eq T H a b s').1 = (Prf.eq T H a b s).1 := by
  obtain ⟨τ, hi⟩ := hs.inv hT
  obtain ⟨τ', hi', _⟩ := h.inv hT hi
  have hta : τ[a]? = some (τ[a]'(by rw [hi.len]; exact ha)) := List.getElem?_eq_getElem _
  have htb : τ[b]? = some (τ[b]'(by rw [hi.len]; exact hb)) := List.getElem?_eq_getElem _
  rw [eq_result hT hi hta htb, eq_result hT hi' (append_get hta) (append_get htb)]

/-- The state after making a view of `b`, reading `left` through it, and serializing it. -/
def ProofEx.s1 : PState := (Prf.serialize TT realHash 3 (Prf.getAttr TT 3 0 (Prf.prune TT 2 s0).2).2).2
example : Steps TT realHash s0 s1 := .tail (.tail (.tail .refl (.prune 2)) (.getAttr 3 0)) (.serialize 3)
example : s1 ≠ s0 ∧ 2 < s0.objs.length ∧
    (Prf.hash TT realHash 2 s0).1 = .ok (hex "ca073be0933fae1710fff5b298199414f7ccddb5a34ba15b2330050bcf4ec02f") ∧
    (Prf.hash TT realHash 2 s1).1 = .ok (hex "ca073be0933fae1710fff5b298199414f7ccddb5a34ba15b2330050bcf4ec02f") := by decide +kernel

/-! ## C35 -/

/-- C35: `prune()` succeeds, and whatever is done afterwards, the view and the original have the same hash, are `==`, and every
computation (reading any paths of attributes, looking at classes, hashes, data hashes, deciding on what it has seen) gives
the same on the one as on the other, also the same exceptions. -/
theorem C35_prune_is_transparent (hT : T.WF) {s : PState} (hs : Reachable T H s) {r : Nat} (hr : r < s.objs.length) :
    ∃ p s1, Prf.prune T r s = (.ok p, s1) ∧ ∀ s2, Steps T H s1 s2 →
      (Prf.hash T H p s2).1 = (Prf.hash T H r s2).1 ∧
      (∀ h, (Prf.hash T H r s2).1 = .ok h → (Prf.eq T H p r s2).1 = .ok true) ∧
      ∀ {α : Type} (q : Prog α), (q.run T H p s2).1 = (q.run T H r s2).1 := by
  obtain ⟨τ, hi⟩ := hs.inv hT
  have ht : τ[r]? = some (τ[r]'(by rw [hi.len]; exact hr)) := List.getElem?_eq_getElem _
  obtain ⟨τ1, hi1, _, h1, h2, _⟩ := prune_spec hi ht
  refine ⟨s.objs.length, (Prf.prune T r s).2, Prod.ext h1 rfl, fun s2 hs2 => ?_⟩
  obtain ⟨τ2, hi2, _⟩ := hs2.inv hT hi1
  have hp2 := append_get (τ' := τ2) h2
  have hr2 := append_get (τ' := τ2) (append_get (τ' := τ1) ht)
  obtain ⟨_, _, _, e1⟩ := hash_spec hT hi2 hp2
  obtain ⟨_, _, _, e2⟩ := hash_spec hT hi2 hr2
  refine ⟨e1.trans e2.symm, fun h hh => ?_, fun q => ?_⟩
  · rw [eq_result hT hi2 hp2 hr2, ← e2, hh, Except.bind_ok, Except.bind_ok]; simp; rfl
  · obtain ⟨_, _, _, e3⟩ := run_spec hT q s2 _ _ _ hi2 hp2
    obtain ⟨_, _, _, e4⟩ := run_spec hT q s2 _ _ _ hi2 hr2
    exact e3.trans e4.symm

/-- `BarProof.sum`, test_proof.py:34-35. -/
def ProofEx.sum : Prog Int := .read [0, 0] fun a => .read [1, 0] fun b => .ret (match a, b with | some (.int x), some (.int y) => .ok (x + y) | _, _ => .error .typeError)
example : (sum.run TT realHash 2 s0).1 = .ok (.ok 3) ∧ (sum.run TT realHash 3 (Prf.prune TT 2 s0).2).1 = .ok (.ok 3) := by decide +kernel

/-! ## C36 -/

theorem reveal_none (t : PTree) : (t.reveal T H [] []) = match t with | .node c fs => (PTree.node c fs).stub T H | .pruned c d => .pruned c d := by
  cases t <;> simp [PTree.reveal]

/-- C36: a pruned proof through which nothing has been read serializes to 0xff and its data hash, whatever else has been
done. -/
theorem C36_fresh (hT : T.WF) {r p : Nat} {s : PState} (h : Tracked T H r p s []) {b : Bytes} (hb : (Prf.serialize T H p s).1 = .ok b) :
    ∃ d, (Prf.dataHash T H r s).1 = .ok d ∧ b = 0xff#8 :: d := by
  obtain ⟨τ, addr, t, hi, hv, hr, hp⟩ := h.vw hT
  obtain ⟨_, _, _, h1⟩ := serialize_spec hT hi hp
  obtain ⟨_, _, _, h2⟩ := dataHash_spec hT hi hr
  rw [hb] at h1
  rw [h2]
  obtain ⟨o, ho, _, hfp, _⟩ := hv.obj p [] hv.root
  rw [encAt_fp hi hp ho (hfp.mpr (by simp))] at h1
  obtain ⟨d, hd, h1⟩ := Except.bind_eq_ok h1.symm
  cases h1
  exact ⟨d, hd, rfl⟩

/-- C36: after any execution in which the attributes of exactly the proofs at the paths `S` were read through the view, the
view serializes to the wire format of the original with exactly those proofs expanded and every other one replaced by its
data hash. Hashing, comparing and serializing the view and its parts, and anything done to other objects (the original,
other views of it, ...) make no difference. -/
theorem C36_reveals_what_was_read (hT : T.WF) {r p : Nat} {s : PState} {S : List (List Nat)} (h : Tracked T H r p s S) {t : PTree}
    (ht : Represents s r t) {b : Bytes} (hb : (Prf.serialize T H p s).1 = .ok b) : (t.reveal T H S []).enc T = .ok b := by
  obtain ⟨τ, addr, t', hi, hv, hr, hp⟩ := h.vw hT
  rw [hi.of_represents ht] at hr
  cases hr
  obtain ⟨_, _, _, h1⟩ := serialize_spec hT hi hp
  rw [← hv.disclosed hi t p [] hv.root hp]
  exact PTree.encAt_ok s t p b (h1.symm.trans hb)

/-- C36 for a computation run on the view: exactly the proofs it reads an attribute of are expanded, also if it fails. -/
theorem C36_after_running (hT : T.WF) {s s1 : PState} (hs : Reachable T H s) {r p : Nat} (hp : Prf.prune T r s = (.ok p, s1)) {t : PTree}
    (ht : Represents s r t) {α : Type} (q : Prog α) {b : Bytes} (hb : (Prf.serialize T H p (q.run T H p s1).2).1 = .ok b) :
    (t.reveal T H (q.reads T H t) []).enc T = .ok b := by
  obtain ⟨τ, addr, t', hi, hv, hr, hpt⟩ := (Tracked.prune hs hp).vw hT
  obtain ⟨τ0, hi0⟩ := hs.inv hT
  have h0 := hi0.of_represents ht
  obtain ⟨τ1, hi1, _, h2, h3, _⟩ := prune_spec hi0 h0
  rw [hp] at h2 hi1
  simp only [Except.ok.injEq] at h2
  subst h2
  obtain ⟨addr', hv'⟩ := Vw.run hT q _ _ _ _ _ hi1 h3 hv
  obtain ⟨τ2, hi2, _⟩ := run_spec hT q _ _ _ _ hi1 h3
  rw [List.nil_append] at hv'
  obtain ⟨_, _, _, h4⟩ := serialize_spec hT hi2 (append_get h3)
  rw [← hv'.disclosed hi2 t _ [] hv'.root (append_get h3)]
  exact PTree.encAt_ok _ t _ b (h4.symm.trans hb)

/-- The view of `b` after reading `b.left.n`: `left` is expanded, `right` is not (test_proof.py:150-155). -/
def ProofEx.s2 : PState := (Prf.getAttr TT 4 0 (Prf.getAttr TT 3 0 (Prf.prune TT 2 s0).2).2).2
theorem ProofEx.s2_tracked : Tracked TT realHash 2 3 s2 [[0], []] := by
  have h0 : Tracked TT realHash 2 3 (Prf.prune TT 2 s0).2 [] := .prune s0_reachable (by decide +kernel)
  have h1 : Tracked TT realHash 2 3 (Prf.getAttr TT 3 0 (Prf.prune TT 2 s0).2).2 [[]] :=
    h0.read (v := .ref 4) .root (Prod.ext (by decide +kernel) rfl)
  exact h1.read (v := .prim (.int 1)) (.step .root (i := 0) (by decide +kernel)) (Prod.ext (by decide +kernel) rfl)
example : (Prf.serialize TT realHash 3 s2).1 =
    .ok ([0x00, 0x00, 0x01, 0xff] ++ hex "dbc1b4c900ffe48d575b5da5c638040125f65db0fe3e24494b76ea986457d986" ++ [0x03]) := by decide +kernel
example : sum.reads TT realHash bar = [[], [0], [], [1]] := by decide +kernel

/-! ## C37 -/

/-- C37: run any computation on `x.prune()`, serialize, deserialize elsewhere: the computation gives the same, and the hash is
the same. -/
def C37_statement : Prop :=
  ∀ (T : Table) (H : HashFns), T.WF → ∀ (s : PState) (r c : Nat) (t : PTree), Reachable T H s → Represents s r t → t.WellTyped T c →
    ∀ (α : Type) (q : Prog α) (p : Nat) (s1 s2 s3 : PState) (a : Py α) (b : Bytes), Prf.prune T r s = (.ok p, s1) → q.run T H p s1 = (.ok a, s2) →
      Prf.serialize T H p s2 = (.ok b, s3) → ∀ s0, Reachable T H s0 →
        ∃ r' s0', Prf.deserialize T c b s0 = (.ok r', s0') ∧ (q.run T H r' s0').1 = .ok a ∧ (Prf.hash T H r' s0').1 = (Prf.hash T H r s).1

/-- C37 holds when nothing that the computation left pruned is a `VarProof` (whose variant number is not sent) or a `TxProof`
(whose hash cannot be computed from what is sent): the deserialized proof gives the same result to the same computation
without `PrunedError`, and has the same hash. -/
theorem C37_ship_and_verify_again_partial (hT : T.WF) {s : PState} {r c : Nat} {t : PTree} (hs : Reachable T H s) (ht : Represents s r t)
    (hw : t.WellTyped T c) {α : Type} (q : Prog α) {p : Nat} {s1 s2 s3 : PState} {a : Py α} {b : Bytes} (hp : Prf.prune T r s = (.ok p, s1))
    (hq : q.run T H p s1 = (.ok a, s2)) (hb : Prf.serialize T H p s2 = (.ok b, s3))
    (hk : (t.reveal T H (q.reads T H t) []).KeepsSpecial T) {s0 : PState} (hs0 : Reachable T H s0) :
    ∃ r' s0', Prf.deserialize T c b s0 = (.ok r', s0') ∧ (q.run T H r' s0').1 = .ok a ∧ (Prf.hash T H r' s0').1 = (Prf.hash T H r s).1 := by
  obtain ⟨τ, addr, t', hi, hv, hr, hpt⟩ := (Tracked.prune hs hp).vw hT
  obtain ⟨τ0, hi0⟩ := hs.inv hT
  have h0 := hi0.of_represents ht
  obtain ⟨τ1, hi1, _, h2, h3, _⟩ := prune_spec hi0 h0
  rw [hp] at h2 hi1
  simp only [Except.ok.injEq] at h2
  subst h2
  obtain ⟨addr', hv'⟩ := Vw.run hT q _ _ _ _ _ hi1 h3 hv
  rw [hq, List.nil_append] at hv'
  obtain ⟨τ2, hi2, _, hship⟩ := run_ship hT q _ _ _ _ hi1 h3
  rw [hq] at hi2 hship
  have hd := hv'.disclosed hi2 t _ [] hv'.root (append_get h3)
  rw [← hd] at hk
  obtain ⟨_, _, _, h4⟩ := serialize_spec hT hi2 (append_get h3)
  rw [hb] at h4
  have henc := PTree.encAt_ok _ t _ b h4.symm
  have hwt := PTree.disclosed_typed _ t _ c b hw h4.symm hk
  obtain ⟨τr, hir⟩ := hs0.inv hT
  obtain ⟨τr', hir', _, r', hres, hfresh, _⟩ := deserialize_rt hT hir hwt henc
  refine ⟨r', _, Prod.ext hres rfl, ?_, ?_⟩
  · obtain ⟨_, _, _, h5⟩ := run_spec hT q _ _ _ _ hir' hfresh
    rw [h5]
    exact hship a rfl _ _ [] (by rw [List.append_nil]) hi2 (.refl _) hwt.checked hk _
  · obtain ⟨_, _, _, h6⟩ := hash_spec hT hir' hfresh
    obtain ⟨_, _, _, h7⟩ := hash_spec hT hi0 h0
    rw [h6, h7]
    exact (PTree.disclosed_hash _ t _ hwt.checked hk).1

theorem ProofEx.foo_typed : (foo 1).WellTyped TT 0 ∧ (foo 2).WellTyped TT 0 := by
  constructor <;> rw [foo, PTree.WellTyped] <;>
    exact ⟨rfl, by show PFields.WellTyped TT _ [.prim (.uint 0xff)]; rw [PFields.WellTyped]; exact ⟨⟨rfl, trivial, _, rfl⟩, by rw [PFields.WellTyped]; trivial⟩⟩

theorem ProofEx.bar_typed : bar.WellTyped TT 1 := by
  rw [bar, PTree.WellTyped]
  refine ⟨rfl, ?_⟩
  show PFields.WellTyped TT _ [.proof 0, .proof 0, .prim (.uint 0xff)]
  rw [PFields.WellTyped, PFields.WellTyped, PFields.WellTyped, PFields.WellTyped]
  exact ⟨⟨foo_typed.1, fun us h => by cases h⟩, ⟨foo_typed.2, fun us h => by cases h⟩, ⟨rfl, trivial, _, rfl⟩, trivial⟩

/-- The computation `sum` on the view of `b` of the example meets the conditions. -/
example : Reachable TT realHash s0 ∧ Represents s0 2 bar ∧ bar.WellTyped TT 1 ∧ (∃ s1, Prf.prune TT 2 s0 = (.ok 3, s1)) ∧
    (sum.run TT realHash 3 (Prf.prune TT 2 s0).2).1 = .ok (.ok 3) ∧
    (Prf.serialize TT realHash 3 (sum.run TT realHash 3 (Prf.prune TT 2 s0).2).2).1 = .ok [0, 0, 1, 0, 2, 3] ∧
    (bar.reveal TT realHash (sum.reads TT realHash bar) []).KeepsSpecial TT := by
  refine ⟨s0_reachable, s0_represents, bar_typed, ⟨_, rfl⟩, by decide +kernel, by decide +kernel, ?_⟩
  rw [show sum.reads TT realHash bar = [[], [0], [], [1]] by decide +kernel]
  simp [bar, foo, PTree.reveal, PFields.reveal, PTree.KeepsSpecial, PFields.KeepsSpecial]

/-- The other condition matters: `LeafFooVarProof(value=15).prune()`, sent without reading anything, arrives with another hash
(that of an unspecific pruned `FooVarProof`). -/
theorem C37_refuted : ¬ C37_statement := by
  intro h
  let s : PState := { objs := [{ cls := 4, fields := [some (.prim (.int 15))] }], inited := [4] }
  have hsr : Reachable TT realHash s := by
    have h1 : Reachable TT realHash (Prf.new TT 4 [.prim (.int 15)] {}).2 := .tail .refl (.new 4 _ (by simp))
    have h2 : (Prf.new TT 4 [.prim (.int 15)] {}).2 = s := by decide +kernel
    rw [← h2]; exact h1
  have hrep : Represents s 0 (.node 4 (.prim (.int 15) .nil)) :=
    .node (o := { cls := 4, fields := [some (.prim (.int 15))] }) rfl rfl rfl (.prim .nil)
  have hwt : (PTree.node 4 (.prim (.int 15) .nil)).WellTyped TT 2 := by
    rw [PTree.WellTyped]
    refine ⟨⟨1, rfl, rfl, by decide +kernel, by decide +kernel⟩, ?_⟩
    show PFields.WellTyped TT _ [.prim (.uint 0xff)]
    rw [PFields.WellTyped, PFields.WellTyped]
    exact ⟨⟨rfl, trivial, _, rfl⟩, trivial⟩
  have h1 : Prf.prune TT 0 s = (.ok 1, (Prf.prune TT 0 s).2) := rfl
  have h2 : (Prog.ret (.ok ()) : Prog Unit).run TT realHash 1 (Prf.prune TT 0 s).2 = (.ok (.ok ()), (Prf.prune TT 0 s).2) := rfl
  have h3 : Prf.serialize TT realHash 1 (Prf.prune TT 0 s).2 = (.ok (0xff#8 :: realHash.sha256 [15]), (Prf.serialize TT realHash 1 (Prf.prune TT 0 s).2).2) :=
    Prod.ext (by decide +kernel) rfl
  obtain ⟨r', s0', hd, _, hh⟩ := h TT realHash TT_wf s 0 2 _ hsr hrep hwt Unit _ 1 _ _ _ _ _ h1 h2 h3 {} .refl
  have hd1 := congrArg Prod.fst hd
  have hd2 := congrArg Prod.snd hd
  have : (Prf.deserialize TT 2 (0xff#8 :: realHash.sha256 [15]) {}).1 = .ok 0 := by decide +kernel
  rw [this] at hd1
  cases hd1
  have hd3 : s0' = (Prf.deserialize TT 2 (0xff#8 :: realHash.sha256 [15]) {}).2 := hd2.symm
  subst hd3
  revert hh
  decide +kernel

/-- C37 the other way round: if what the computation left pruned has an attribute declared to be a `VarProof`, what was sent
cannot be received by anyone. -/
theorem C37_variant_lost_partial (hT : T.WF) {s : PState} {r c : Nat} {t : PTree} (hs : Reachable T H s) (ht : Represents s r t)
    (hw : t.WellTyped T c) {α : Type} (q : Prog α) {p : Nat} {s1 s2 s3 : PState} {res : Py (Py α)} {b : Bytes} (hp : Prf.prune T r s = (.ok p, s1))
    (hq : q.run T H p s1 = (res, s2)) (hb : Prf.serialize T H p s2 = (.ok b, s3))
    (hl : (t.reveal T H (q.reads T H t) []).Loses T) {s0 : PState} (hs0 : Reachable T H s0) :
    (Prf.deserialize T c b s0).1 = .error .serType := by
  obtain ⟨e, h, hf⟩ := ship_lost hT hs ht (bad := False) hw.sendable q hp hq hb hl hs0
  rw [h, hf.false]

/-- A case: `InnerFooVarProof(left=EmptyFooVarProof(), right=EmptyFooVarProof())`, of which the attribute `left` was looked at. -/
example : (PTree.node 5 (.sub (.node 3 .nil) (.sub (.node 3 .nil) .nil))).WellTyped TT 2 ∧
    ((PTree.node 5 (.sub (.node 3 .nil) (.sub (.node 3 .nil) .nil))).reveal TT realHash
      ((Prog.read [0] fun v => .ret (.ok v)).reads TT realHash (.node 5 (.sub (.node 3 .nil) (.sub (.node 3 .nil) .nil)))) []).Loses TT := by
  constructor
  · rw [PTree.WellTyped]
    refine ⟨⟨2, rfl, rfl, by decide +kernel, by decide +kernel⟩, ?_⟩
    have he : (PTree.node 3 .nil).WellTyped TT 2 := by
      rw [PTree.WellTyped]
      refine ⟨⟨0, rfl, rfl, by decide +kernel, by decide +kernel⟩, ?_⟩
      show PFields.WellTyped TT .nil []
      rw [PFields.WellTyped]; trivial
    show PFields.WellTyped TT _ [.proof 2, .proof 2]
    rw [PFields.WellTyped, PFields.WellTyped, PFields.WellTyped]
    refine ⟨⟨he, ?_⟩, ⟨he, ?_⟩, trivial⟩ <;> (intro us hu; cases hu; decide +kernel)
  · rw [show (Prog.read [0] fun v => .ret (.ok v)).reads TT realHash (.node 5 (.sub (.node 3 .nil) (.sub (.node 3 .nil) .nil))) = [[]] by decide +kernel]
    obtain ⟨d, hd⟩ : ∃ d, (PTree.node 3 .nil).dataHash TT realHash = .ok d := ⟨_, rfl⟩
    simp only [PTree.reveal, PFields.reveal, List.mem_singleton, List.nil_append, if_true, if_false, reduceCtorEq, PTree.stub, PTree.Loses, hd]
    show PFields.Loses TT _ [.proof 2, .proof 2]
    rw [PFields.Loses]
    exact .inl ⟨_, rfl, by decide +kernel⟩

/-! ## C38 -/

mutual
theorem Whole.full {s : PState} : ∀ {r : Nat} {t : PTree}, Whole s r t → t.full = true
  | _, _, .node _ _ _ _ hf => by rw [PTree.full]; exact hf.full
theorem WholeFields.full {s : PState} : ∀ {vs : List (Option HVal)} {fs : PFields}, WholeFields s vs fs → fs.full = true
  | _, _, .nil => rfl
  | _, _, .prim hf => by rw [PFields.full]; exact hf.full
  | _, _, .sub ht hf => by rw [PFields.full, ht.full, hf.full]; rfl
end

mutual
theorem Whole.encAt {s : PState} : ∀ {r : Nat} {t : PTree}, Whole s r t → t.encAt T H s r = t.enc T
  | r, _, .node (o := o) (fs := fs) ho h1 h2 _ hf => by
    rw [PTree.encAt, PTree.enc, if_neg (by simp [ho, h2])]
    rw [WholeFields.encAt (r := r) 0 hf (by intro k; simp [PState.field, ho])]
theorem WholeFields.encAt {s : PState} : ∀ {vs : List (Option HVal)} {fs : PFields} {r : Nat} {ks : List Kind} (i : Nat), WholeFields s vs fs →
    (∀ k, s.field r (i + k) = (vs[k]?).join) → fs.encAt T H s r i ks = fs.enc T ks
  | _, fs, r, [], i, _, _ => by rw [PFields.encAt.eq_def, PFields.enc.eq_def]
  | _, _, r, k :: ks, i, .nil, _ => by rw [PFields.encAt, PFields.enc]
  | _, _, r, k :: ks, i, .prim hf, h => by
    have ih := WholeFields.encAt (ks := ks) (i + 1) hf (fun k => by have := h (k + 1); rwa [Nat.add_assoc, Nat.add_comm 1])
    cases k <;> simp only [PFields.encAt, PFields.enc, ih]
  | _, _, r, k :: ks, i, .sub (r := q) ht hf, h => by
    have h0 := h 0
    simp at h0
    have ih := WholeFields.encAt (ks := ks) (i + 1) hf (fun k => by have := h (k + 1); rwa [Nat.add_assoc, Nat.add_comm 1])
    cases k <;> simp only [PFields.encAt, PFields.enc, ih, h0, Whole.encAt ht]
end

/-- C38: an unpruned proof with attributes of the declared classes serializes, and deserialization of that in any other
program (whose state is `s0`), with anything following, yields an unpruned proof with the same class and attributes
recursively, consumes exactly what was written, and has the same hash. -/
theorem C38_round_trip (hT : T.WF) {s : PState} {r c : Nat} {t : PTree} (hs : Reachable T H s) (ht : Whole s r t) (hw : t.WellTyped T c) :
    ∃ b s', Prf.serialize T H r s = (.ok b, s') ∧ ∀ s0 rest, Reachable T H s0 →
      ∃ r' s0', Prf.ctxDeserialize T c (b ++ rest) s0 = (.ok (r', rest), s0') ∧ Whole s0' r' t ∧ (Prf.hash T H r' s0').1 = (Prf.hash T H r s).1 := by
  obtain ⟨τ, hi⟩ := hs.inv hT
  have h0 := hi.of_represents ht.represents
  obtain ⟨b, hb⟩ := PTree.WellTyped.enc hw
  obtain ⟨_, _, _, h1⟩ := serialize_spec hT hi h0
  rw [ht.encAt, hb] at h1
  refine ⟨b, _, Prod.ext h1 rfl, fun s0 rest hs0 => ?_⟩
  obtain ⟨τ0, hi0⟩ := hs0.inv hT
  have hd := PTree.depth_le_enc hw hb
  obtain ⟨τ1, hi1, _, r', hr', hf⟩ := deserF_rt hT ((b ++ rest).length + 1) s0 τ0 c t b rest hi0 hw hb (by rw [List.length_append]; omega)
  obtain ⟨τ2, hi2, _, hown⟩ := deserialize_own hT hi0 c (b ++ rest)
  obtain ⟨hdeep, t', ht', _⟩ := hown r' rest hr'
  have htt : t' = t := by
    have e1 := hi1.represents _ _ hf.1
    have e2 := hi2.of_represents e1
    rw [ht'] at e2
    exact Option.some.inj e2
  subst htt
  refine ⟨r', _, Prod.ext hr' rfl, hdeep.whole hi2 ht' ht.full, ?_⟩
  obtain ⟨_, _, _, h2⟩ := hash_spec hT hi h0
  obtain ⟨_, _, _, h3⟩ := hash_spec hT hi2 ht'
  exact h3.trans h2.symm

theorem ProofEx.s0_whole : Whole s0 2 bar := by
  have h0 : Whole s0 0 (foo 1) := by rw [s0_eq]; exact .node (o := { cls := 0, fields := [some (.prim (.int 1))] }) rfl rfl rfl rfl (.prim .nil)
  have h1 : Whole s0 1 (foo 2) := by rw [s0_eq]; exact .node (o := { cls := 0, fields := [some (.prim (.int 2))] }) rfl rfl rfl rfl (.prim .nil)
  rw [s0_eq] at h0 h1 ⊢
  exact .node (o := { cls := 1, fields := [some (.ref 0), some (.ref 1), some (.prim (.int 3))] }) rfl rfl rfl rfl (.sub h0 (.sub h1 (.prim .nil)))

/-- `b` of the example meets the conditions. -/
example : Reachable TT realHash s0 ∧ Whole s0 2 bar ∧ bar.WellTyped TT 1 ∧ (Prf.serialize TT realHash 2 s0).1 = .ok [0, 0, 1, 0, 2, 3] :=
  ⟨s0_reachable, s0_whole, bar_typed, by decide +kernel⟩

/-! ## C39 -/

mutual
theorem Compat.eq_of_full : ∀ {t t' : PTree}, Compat T H t t' → t.full = true → t'.full = true → t = t'
  | _, _, .node hf, h, h' => by rw [PTree.full] at h h'; rw [hf.eq_of_full h h']
  | _, _, .pruned, _, _ => rfl
  | _, _, .left _, h, _ => by cases h
  | _, _, .right _, _, h => by cases h
theorem CompatFields.eq_of_full : ∀ {fs fs' : PFields}, CompatFields T H fs fs' → fs.full = true → fs'.full = true → fs = fs'
  | _, _, .nil, _, _ => rfl
  | _, _, .prim hf, h, h' => by rw [PFields.full] at h h'; rw [hf.eq_of_full h h']
  | _, _, .sub ht hf, h, h' => by
    rw [PFields.full, Bool.and_eq_true] at h h'
    rw [ht.eq_of_full h.1 h'.1, hf.eq_of_full h.2 h'.2]
end

/-- C39: two objects, in whatever states of whatever programs, with the same hash, are of the same class and have the same
attributes recursively as far as neither is pruned, and where one is pruned its data hash is that of the other; if neither is
pruned anywhere they are the same proof.  The strings hashed for the two must not collide; a `TxProof`, whose hash has no
tag, is compared with `TxProof`s only. -/
theorem C39_hash_binds_content (hT : T.WF) (hB : T.Binds) {s s' : PState} (hs : Reachable T H s) (hs' : Reachable T H s') {r r' : Nat} {t t' : PTree}
    (ht : Represents s r t) (ht' : Represents s' r' t') (hd : t.Declared T) (hd' : t'.Declared T)
    (htx : (T t.cls).isTx = true ∨ (T t'.cls).isTx = true → t.cls = t'.cls) {h : Bytes}
    (hh : (Prf.hash T H r s).1 = .ok h) (hh' : (Prf.hash T H r' s').1 = .ok h) (hcf : CollisionFree H.sha256 (t.hashed T H ++ t'.hashed T H)) :
    Compat T H t t' ∧ (t.full = true → t'.full = true → t = t') := by
  obtain ⟨τ, hi⟩ := hs.inv hT
  obtain ⟨τ', hi'⟩ := hs'.inv hT
  obtain ⟨_, _, _, h1⟩ := hash_spec hT hi (hi.of_represents ht)
  obtain ⟨_, _, _, h2⟩ := hash_spec hT hi' (hi'.of_represents ht')
  have hc := PTree.bind hT hB t t' h hd hd' (h1.symm.trans hh) (h2.symm.trans hh') htx hcf
  exact ⟨hc, hc.eq_of_full⟩

/-- The last reading of C39 without trees: what was deserialized, from whatever bytes, has attributes of the declared classes,
so for two received objects nothing needs to be assumed about them. -/
theorem C39_received (hT : T.WF) (hB : T.Binds) {s0 s0' : PState} (hs : Reachable T H s0) (hs' : Reachable T H s0') {c r r' : Nat} {b b' rest rest' : Bytes} {s s' : PState}
    (hr : Prf.ctxDeserialize T c b s0 = (.ok (r, rest), s)) (hr' : Prf.ctxDeserialize T c b' s0' = (.ok (r', rest'), s')) {h : Bytes}
    (hh : (Prf.hash T H r s).1 = .ok h) (hh' : (Prf.hash T H r' s').1 = .ok h) :
    ∃ t t', Represents s r t ∧ Represents s' r' t' ∧
      (CollisionFree H.sha256 (t.hashed T H ++ t'.hashed T H) → Compat T H t t' ∧ (t.full = true → t'.full = true → t = t')) := by
  obtain ⟨τ, hi⟩ := hs.inv hT
  obtain ⟨τ', hi'⟩ := hs'.inv hT
  obtain ⟨τ1, hi1, _, h1⟩ := deserialize_own hT hi c b
  obtain ⟨τ1', hi1', _, h1'⟩ := deserialize_own hT hi' c b'
  rw [hr] at hi1 h1
  rw [hr'] at hi1' h1'
  obtain ⟨_, t, ht, hra⟩ := h1 _ _ rfl
  obtain ⟨_, t', ht', hra'⟩ := h1' _ _ rfl
  refine ⟨t, t', hi1.represents _ _ ht, hi1'.represents _ _ ht', fun hcf => ?_⟩
  obtain ⟨_, _, _, e1⟩ := hash_spec hT hi1 ht
  obtain ⟨_, _, _, e2⟩ := hash_spec hT hi1' ht'
  have hc := PTree.bind hT hB t t' h hra.2 hra'.2 (e1.symm.trans hh) (e2.symm.trans hh')
    (fun hx => hx.elim (hB.root c _ _ hra.1 hra'.1) (fun hx => (hB.root c _ _ hra'.1 hra.1 hx).symm)) hcf
  exact ⟨hc, hc.eq_of_full⟩

/-! ## C40 -/

/-- C40: two objects with the same hash, each perhaps pruned, in whatever states of whatever programs: if a computation gets
all it wants to read from both, it gives the same. -/
theorem C40_no_contradiction (hT : T.WF) (hB : T.Binds) {s s' : PState} (hs : Reachable T H s) (hs' : Reachable T H s') {r r' : Nat} {t t' : PTree}
    (ht : Represents s r t) (ht' : Represents s' r' t') (hd : t.Declared T) (hd' : t'.Declared T)
    (htx : (T t.cls).isTx = true ∨ (T t'.cls).isTx = true → t.cls = t'.cls) {h : Bytes}
    (hh : (Prf.hash T H r s).1 = .ok h) (hh' : (Prf.hash T H r' s').1 = .ok h) (hcf : CollisionFree H.sha256 (t.hashed T H ++ t'.hashed T H))
    {α : Type} (q : Prog α) {a a' : Py α} (ha : (q.run T H r s).1 = .ok a) (ha' : (q.run T H r' s').1 = .ok a') : a = a' := by
  have hc := (C39_hash_binds_content hT hB hs hs' ht ht' hd hd' htx hh hh' hcf).1
  obtain ⟨τ, hi⟩ := hs.inv hT
  obtain ⟨τ', hi'⟩ := hs'.inv hT
  obtain ⟨_, _, _, h1⟩ := run_spec hT q s τ r t hi (hi.of_represents ht)
  obtain ⟨_, _, _, h2⟩ := run_spec hT q s' τ' r' t' hi' (hi'.of_represents ht')
  exact Compat.eval hB q hc (h1.symm.trans ha) (h2.symm.trans ha')

theorem deserialize_ctx {c r : Nat} {b : Bytes} {s s' : PState} (h : Prf.deserialize T c b s = (.ok r, s')) :
    ∃ rest, Prf.ctxDeserialize T c b s = (.ok (r, rest), s') := by
  rw [Prf.deserialize, HM.bind_apply] at h
  cases hx : Prf.ctxDeserialize T c b s with
  | mk res s1 =>
    rw [hx] at h
    cases res with
    | error e => cases h
    | ok p => cases h; exact ⟨_, rfl⟩

/-- C40 for two objects received as bytes. -/
theorem C40_received (hT : T.WF) (hB : T.Binds) {s0 s0' : PState} (hs : Reachable T H s0) (hs' : Reachable T H s0') {c r r' : Nat} {b b' : Bytes} {s s' : PState}
    (hr : Prf.deserialize T c b s0 = (.ok r, s)) (hr' : Prf.deserialize T c b' s0' = (.ok r', s')) {h : Bytes}
    (hh : (Prf.hash T H r s).1 = .ok h) (hh' : (Prf.hash T H r' s').1 = .ok h) :
    ∃ t t', Represents s r t ∧ Represents s' r' t' ∧ (CollisionFree H.sha256 (t.hashed T H ++ t'.hashed T H) →
      ∀ {α : Type} (q : Prog α) {a a' : Py α}, (q.run T H r s).1 = .ok a → (q.run T H r' s').1 = .ok a' → a = a') := by
  obtain ⟨rest, hx⟩ := deserialize_ctx hr
  obtain ⟨rest', hx'⟩ := deserialize_ctx hr'
  obtain ⟨t, t', ht, ht', hc⟩ := C39_received hT hB hs hs' hx hx' hh hh'
  have hrs : Reachable T H s := by
    have := hs.tail (.deserialize c b)
    rwa [hr] at this
  have hrs' : Reachable T H s' := by
    have := hs'.tail (.deserialize c b')
    rwa [hr'] at this
  refine ⟨t, t', ht, ht', fun hcf α q a a' ha ha' => ?_⟩
  obtain ⟨τ, hi⟩ := hrs.inv hT
  obtain ⟨τ', hi'⟩ := hrs'.inv hT
  obtain ⟨_, _, _, h1⟩ := run_spec hT q s τ r t hi (hi.of_represents ht)
  obtain ⟨_, _, _, h2⟩ := run_spec hT q s' τ' r' t' hi' (hi'.of_represents ht')
  exact Compat.eval hB q (hc hcf).1 (h1.symm.trans ha) (h2.symm.trans ha')

/-- The conditions are met, for the classes of the tests and SHA-256, by `b` of the example and by what is received when
everything but `b.left.n` and the plain attribute is pruned: different objects, the same hash.  The sum of `left.n` and
`right.n` needs what was pruned; `left.n` is 1 for both. -/
def ProofEx.sent : Bytes := [0x00#8, 0x00, 0x01, 0xff] ++ hex "dbc1b4c900ffe48d575b5da5c638040125f65db0fe3e24494b76ea986457d986" ++ [0x03#8]
def ProofEx.partialBar : PTree := .node 1 (.sub (foo 1) (.sub (.pruned 0 (hex "dbc1b4c900ffe48d575b5da5c638040125f65db0fe3e24494b76ea986457d986")) (.prim (.int 3) .nil)))
def ProofEx.s9 : PState := (Prf.deserialize TT 1 sent {}).2
theorem ProofEx.s9_eq : s9 = { objs := [{ cls := 0, fields := [some (.prim (.int 1))] },
    { cls := 0, fields := [none], isPruned := true, isFullyPruned := true, dataHash := some (hex "dbc1b4c900ffe48d575b5da5c638040125f65db0fe3e24494b76ea986457d986") },
    { cls := 1, fields := [some (.ref 0), some (.ref 1), some (.prim (.int 3))], isPruned := true }], inited := [1, 0] } := by decide +kernel
theorem ProofEx.s9_represents : Represents s9 2 partialBar := by
  have h0 : Represents s9 0 (foo 1) := by rw [s9_eq]; exact .node (o := { cls := 0, fields := [some (.prim (.int 1))] }) rfl rfl rfl (.prim .nil)
  have h1 : Represents s9 1 (.pruned 0 (hex "dbc1b4c900ffe48d575b5da5c638040125f65db0fe3e24494b76ea986457d986")) := by
    rw [s9_eq]
    exact .hashOnly (o := { cls := 0, fields := [none], isPruned := true, isFullyPruned := true, dataHash := some (hex "dbc1b4c900ffe48d575b5da5c638040125f65db0fe3e24494b76ea986457d986") }) rfl rfl rfl rfl
  rw [s9_eq] at h0 h1 ⊢
  exact .node (o := { cls := 1, fields := [some (.ref 0), some (.ref 1), some (.prim (.int 3))], isPruned := true }) rfl rfl rfl (.sub h0 (.sub h1 (.prim .nil)))
theorem ProofEx.bar_declared : bar.Declared TT ∧ partialBar.Declared TT := by
  constructor
  · show PFields.Declared TT _ [.proof 0, .proof 0, .prim (.uint 0xff)]
    simp only [foo, PFields.Declared, Kind.Allows, PTree.cls, PTree.Declared]
    exact ⟨.inl trivial, ⟨rfl, trivial⟩, .inl trivial, ⟨rfl, trivial⟩, rfl, trivial⟩
  · show PFields.Declared TT _ [.proof 0, .proof 0, .prim (.uint 0xff)]
    simp only [foo, PFields.Declared, Kind.Allows, PTree.cls, PTree.Declared]
    exact ⟨.inl trivial, ⟨rfl, trivial⟩, .inl trivial, by decide +kernel, rfl, trivial⟩
example : TT.WF ∧ TT.Binds ∧ Reachable TT realHash s0 ∧ Reachable TT realHash s9 ∧ Represents s0 2 bar ∧ Represents s9 2 partialBar ∧ bar.Declared TT ∧
    partialBar.Declared TT ∧ (TT bar.cls).isTx = false ∧ (∃ h, (Prf.hash TT realHash 2 s0).1 = .ok h ∧ (Prf.hash TT realHash 2 s9).1 = .ok h) ∧
    CollisionFree realHash.sha256 (bar.hashed TT realHash ++ partialBar.hashed TT realHash) ∧
    ((Prog.read [0, 0] fun v => .ret (.ok v)).run TT realHash 2 s0).1 = .ok (.ok (some (.int 1))) ∧
    ((Prog.read [0, 0] fun v => .ret (.ok v)).run TT realHash 2 s9).1 = .ok (.ok (some (.int 1))) ∧
    (sum.run TT realHash 2 s9).1 = .error .pruned := by
  refine ⟨TT_wf, testClasses_binds, s0_reachable, .tail .refl (.deserialize 1 sent), s0_represents, s9_represents, bar_declared.1, bar_declared.2, rfl,
    ⟨hex "ca073be0933fae1710fff5b298199414f7ccddb5a34ba15b2330050bcf4ec02f", by decide +kernel, by decide +kernel⟩, ?_, by decide +kernel, by decide +kernel, by decide +kernel⟩
  unfold CollisionFree
  decide +kernel

/-! ## C41 -/

/-- C41: a number for which there is no class is reported as a `DeserializationError`. -/
def C41_statement : Prop :=
  ∀ (T : Table) (c : Nat) (us : List Nat), (T c).variants = some us → ∀ (b rest : Bytes) (i : Nat), readVaruint b = .ok (i, rest) → us.length ≤ i →
    ∀ s, ∃ e s', Prf.ctxDeserialize T c (0x00#8 :: b) s = (.error e, s') ∧ e.isDeserialization = true

/-- It is a `NameError`: proof.py does not import `DeserializationError`. -/
theorem C41_refuted : ¬ C41_statement := by
  intro h
  obtain ⟨e, s', h1, h2⟩ := h TT 2 _ rfl [4] [] 4 (by decide +kernel) (by decide) {}
  have : (Prf.ctxDeserialize TT 2 [0x00#8, 4] {}).1 = .error .nameError := by decide +kernel
  rw [h1] at this
  cases this
  cases h2

/-- What holds of C41: nothing is ever deserialized from a number out of range, the error is always `NameError`; for a
`VarProof` (where also nothing else happens) and for an attribute declared as union, after any other attributes. -/
theorem C41_bad_number_partial :
    (∀ (T : Table) (c : Nat) (us : List Nat), (T c).variants = some us → ∀ (b rest : Bytes) (i : Nat), readVaruint b = .ok (i, rest) → us.length ≤ i →
      ∀ s, Prf.ctxDeserialize T c (0x00#8 :: b) s = (.error .nameError, s)) ∧
    (∀ (T : Table) (c : Nat) (ks ks' : List Kind) (us : List Nat), (T c).variants = none → (T c).attrs = ks ++ .union us :: ks' →
      ∀ (b b' rest : Bytes) (i : Nat) (vs : List HVal) (s s' : PState), Prf.deserLoop (Prf.deserF T (b.length + 1)) ks b s = (.ok (vs, b'), s') →
        readVaruint b' = .ok (i, rest) → us.length ≤ i → Prf.ctxDeserialize T c (0x00#8 :: b) s = (.error .nameError, s')) := by
  have hrb : ∀ b : Bytes, readBool (0x00#8 :: b) = .ok (false, b) := fun b => readBool_write false b
  constructor
  · intro T c us hv b rest i hr hi s
    unfold Prf.ctxDeserialize
    rw [List.length_cons, Prf.deserF, HM.bind_apply, HM.read, hrb]
    simp only
    rw [HM.bind_apply, Prf.variantOf, hv]
    simp only
    rw [HM.bind_apply, HM.read, hr]
    simp only
    rw [List.getElem?_eq_none hi]
    rfl
  · intro T c ks ks' us hv ha b b' rest i vs s s' hl hr hi
    have key : ∀ (df : Nat → Bytes → HM (Nat × Bytes)) (ks : List Kind) (b : Bytes) (vs : List HVal) (s : PState), Prf.deserLoop df ks b s = (.ok (vs, b'), s') →
        Prf.deserLoop df (ks ++ .union us :: ks') b s = (.error .nameError, s') := by
      intro df ks
      induction ks with
      | nil =>
        intro b vs s h
        cases h
        rw [List.nil_append, Prf.deserLoop, HM.bind_apply, Prf.attrDeser, HM.bind_apply, HM.read, hr]
        simp only
        rw [List.getElem?_eq_none hi]
        rfl
      | cons k ks ih =>
        intro b vs s h
        rw [List.cons_append, Prf.deserLoop, HM.bind_apply]
        rw [Prf.deserLoop, HM.bind_apply] at h
        cases hx : Prf.attrDeser df k b s with
        | mk res s1 =>
          rw [hx] at h
          cases res with
          | error e => cases h
          | ok p =>
            simp only [HM.bind_apply] at h ⊢
            cases hy : Prf.deserLoop df ks p.2 s1 with
            | mk res2 s2 =>
              rw [hy] at h
              cases res2 with
              | error e => cases h
              | ok p2 =>
                cases h
                rw [ih p.2 p2.1 s1 hy]
    unfold Prf.ctxDeserialize
    rw [List.length_cons, Prf.deserF, HM.bind_apply, HM.read, hrb]
    simp only
    rw [HM.bind_apply, Prf.variantOf, hv]
    simp only [HM.pure_apply]
    rw [HM.bind_apply, ha, key _ _ _ _ _ hl]

/-- Both cases occur. -/
example : Prf.ctxDeserialize TT 2 [0x00#8, 4] {} = (.error .nameError, {}) := C41_bad_number_partial.1 TT 2 _ rfl _ [] 4 (by decide +kernel) (by decide) {}
example : Prf.ctxDeserialize TT 6 [0x00#8, 2, 0] {} = (.error .nameError, {}) :=
  C41_bad_number_partial.2 TT 6 [] [] [0, 1] rfl rfl _ _ [0] 2 [] {} {} rfl (by decide +kernel) (by decide)

/-! ## C62 -/

/-- C62: the constructor takes, for an attribute declared as a proof class, instances of that class only. -/
def C62_statement : Prop :=
  ∀ (T : Table) (c : Nat) (vs : List HVal) (s s' : PState) (r : Nat), Prf.new T c vs s = (.ok r, s') →
    ∀ (i c' : Nat), (T c).attrs[i]? = some (.proof c') → ∃ q o, vs[i]? = some (.ref q) ∧ s.objs[q]? = some o ∧ (o.cls = c' ∨ c' ∈ (T o.cls).bases)

/-- `BarProof(left=b, right=b, nonproof_attr=0)` with a `BarProof` `b` is made without complaint. -/
theorem C62_refuted : ¬ C62_statement := by
  intro h
  obtain ⟨q, o, hq, ho, hi⟩ := h TT 1 [.ref 2, .ref 2, .prim (.int 0)] s0 _ 3 (Prod.ext (by decide +kernel) rfl) 0 0 rfl
  cases hq
  rw [s0_eq] at ho
  cases ho
  revert hi
  decide +kernel

/-- What the constructor takes for an attribute. -/
def Kind.Takes (T : Table) (s : PState) : Kind → HVal → Prop
  | .prim τ, .prim v => τ.check v = .ok ()
  | .prim τ, .ref _ => τ.check .other = .ok ()
  | .proof _, .prim _ => False
  | .proof c, .ref q => ∃ o, s.objs[q]? = some o ∧ ∀ us, (T c).variants = some us → ∃ u ∈ us, o.cls = u ∨ u ∈ (T o.cls).bases
  | .union _, .prim _ => False
  | .union us, .ref q => ∃ o, s.objs[q]? = some o ∧ ∃ u ∈ us, o.cls = u ∨ u ∈ (T o.cls).bases

theorem any_isInst (T : Table) (c : Nat) (us : List Nat) : us.any (T.isInst c) = true ↔ ∃ u ∈ us, c = u ∨ u ∈ (T c).bases := by
  simp [Table.isInst]

theorem checkVal_ok (s : PState) (k : Kind) (v : HVal) : (Prf.checkVal T k v s).2 = s ∧ ((∃ b, (Prf.checkVal T k v s).1 = .ok b) ↔ k.Takes T s v) := by
  cases k with
  | prim τ =>
    cases v with
    | prim v =>
      rw [Prf.checkVal, HM.bind_apply, HM.lift_apply, Kind.Takes]
      cases τ.check v <;> simp [HM.pure_apply]
    | ref q =>
      rw [Prf.checkVal, HM.bind_apply, HM.lift_apply, Kind.Takes]
      cases τ.check .other <;> simp [HM.pure_apply]
  | proof c =>
    cases v with
    | prim v => simp only [Prf.checkVal, Kind.Takes, ← any_isInst]; simp [HM.fail_apply]
    | ref q =>
      simp only [Prf.checkVal, Kind.Takes, ← any_isInst]
      cases ho : s.objs[q]? with
      | none => rw [HM.bind_obj_none ho]; simp
      | some o =>
        rw [HM.bind_obj ho]
        cases hv : (T c).variants with
        | none => simp [HM.pure_apply]
        | some us =>
          simp only
          split
          · rename_i h; simp [HM.pure_apply]; simpa using h
          · rename_i h; simp [HM.fail_apply]; simpa using h
  | union us =>
    cases v with
    | prim v => simp only [Prf.checkVal, Kind.Takes, ← any_isInst]; simp [HM.fail_apply]
    | ref q =>
      simp only [Prf.checkVal, Kind.Takes, ← any_isInst]
      cases ho : s.objs[q]? with
      | none => rw [HM.bind_obj_none ho]; simp
      | some o =>
        rw [HM.bind_obj ho]
        split
        · rename_i h; simp [HM.pure_apply]; simpa using h
        · rename_i h; simp [HM.fail_apply]; simpa using h

theorem checkVals_ok (s : PState) : ∀ (ks : List Kind) (vs : List HVal), (Prf.checkVals T ks vs s).2 = s ∧
    ((∃ b, (Prf.checkVals T ks vs s).1 = .ok b) ↔ ∀ (i : Nat) (k : Kind), ks[i]? = some k → ∃ v, vs[i]? = some v ∧ k.Takes T s v)
  | [], vs => by simp [Prf.checkVals, HM.pure_apply]
  | k :: ks, [] => by
    rw [Prf.checkVals]
    refine ⟨rfl, by simp [HM.fail_apply], fun h => ?_⟩
    obtain ⟨v, hv, _⟩ := h 0 k rfl
    cases hv
  | k :: ks, v :: vs => by
    obtain ⟨h1, h2⟩ := checkVal_ok (T := T) s k v
    obtain ⟨h3, h4⟩ := checkVals_ok s ks vs
    rw [Prf.checkVals, HM.bind_apply]
    have hsplit : (∀ (i : Nat) (k' : Kind), (k :: ks)[i]? = some k' → ∃ w, (v :: vs)[i]? = some w ∧ k'.Takes T s w) ↔
        (k.Takes T s v ∧ ∀ (i : Nat) (k : Kind), ks[i]? = some k → ∃ v, vs[i]? = some v ∧ k.Takes T s v) := by
      constructor
      · intro h
        refine ⟨?_, fun i k' hk => h (i + 1) k' hk⟩
        obtain ⟨w, hw, ht⟩ := h 0 k rfl
        cases hw; exact ht
      · rintro ⟨ht, h⟩ i k' hk
        cases i with
        | zero => cases hk; exact ⟨v, rfl, ht⟩
        | succ i => exact h i k' hk
    rw [hsplit, ← h2, ← h4]
    cases hx : Prf.checkVal T k v s with
    | mk res s1 =>
      rw [hx] at h1 h2
      subst h1
      cases res with
      | error e => simp
      | ok a =>
        simp only [HM.bind_apply]
        cases hy : Prf.checkVals T ks vs s1 with
        | mk res2 s2 =>
          rw [hy] at h3 h4
          subst h3
          cases res2 with
          | error e => simp
          | ok b => simp [HM.pure_apply]

/-- What holds of C62, exactly: the constructor succeeds if and only if every declared attribute is given and each is taken:
plain values if `check_instance` of their serializer takes them, instances of a class of the union for unions, instances of
a variant for `VarProof`s; but for any other proof class, any proof at all.  When it fails nothing has been constructed. -/
theorem C62_constructor_checks_partial (T : Table) (c : Nat) (vs : List HVal) (s : PState) :
    ((∃ r, (Prf.new T c vs s).1 = .ok r) ↔ ∀ (i : Nat) (k : Kind), (T c).attrs[i]? = some k → ∃ v, vs[i]? = some v ∧ k.Takes T s v) ∧
    (∀ e, (Prf.new T c vs s).1 = .error e → (Prf.new T c vs s).2.objs = s.objs) := by
  rw [Prf.new, HM.bind_apply]
  simp only [Prf.initClass]
  generalize hs' : ({ s with inited := if c ∈ s.inited then s.inited else c :: s.inited } : PState) = s'
  have ho : s'.objs = s.objs := by rw [← hs']
  obtain ⟨h1, h2⟩ := checkVals_ok (T := T) s' (T c).attrs vs
  have ht : ∀ k v, Kind.Takes T s' k v ↔ Kind.Takes T s k v := by
    intro k v
    cases k <;> cases v <;> simp only [Kind.Takes, ho]
  simp only [ht] at h2
  rw [← h2, HM.bind_apply]
  cases hx : Prf.checkVals T (T c).attrs vs s' with
  | mk res s1 =>
    rw [hx] at h1
    subst h1
    cases res with
    | error e => simp; exact ho
    | ok b => simp [HM.alloc]

/-- Both happen. -/
example : (Prf.new TT 6 [.ref 2] s0).1 = .ok 3 ∧ (Prf.new TT 5 [.ref 2, .ref 2] s0).1 = .error .serType := by decide +kernel

end Verif
