import Verif.Lemmas.MMR2
import Verif.Lemmas.Codec
import Verif.Model.Sha256
/-! # C19–C25: Merkle mountain ranges -/
namespace Verif
open MMR
variable {α : Type}

/-- `t` was obtained from the empty MMR by some mixture of `append` and `extend` calls that all returned, and `xs`
are the values given to them, in order. -/
inductive History (VS : ValueSer α) : List α → MMR α → Prop where
  | new : History VS [] .empty
  | append {xs t v t'} : History VS xs t → t.append VS v = .ok t' → History VS (xs ++ [v]) t'
  | extend {xs t vs t'} : History VS xs t → t.extend VS vs = .ok t' → History VS (xs ++ vs) t'

theorem mkLeaf_ok {VS : ValueSer α} {v : α} {t} (h : mkLeaf VS v = .ok t) : VS.check v = .ok () := by
  obtain ⟨_, h1, _⟩ := Except.bind_eq_ok h
  exact h1

theorem append_ok_check {VS : ValueSer α} {t : MMR α} {v : α} {t'} (h : t.append VS v = .ok t') : VS.check v = .ok () := by
  induction t generalizing t' with
  | empty => exact mkLeaf_ok h
  | leaf w =>
    obtain ⟨_, h1, _⟩ := Except.bind_eq_ok h
    exact mkLeaf_ok h1
  | inner l r n _ ih =>
    unfold MMR.append at h
    obtain ⟨a, _, h⟩ := Except.bind_eq_ok h
    by_cases ha : a &&& 1 = 0
    · rw [if_pos ha] at h
      obtain ⟨_, h1, _⟩ := Except.bind_eq_ok h
      exact mkLeaf_ok h1
    · rw [if_neg ha] at h
      obtain ⟨_, h1, _⟩ := Except.bind_eq_ok h
      exact ih h1

theorem extend_ok_check {VS : ValueSer α} {vs : List α} {t t' : MMR α} (h : t.extend VS vs = .ok t') :
    ∀ v ∈ vs, VS.check v = .ok () := by
  induction vs generalizing t with
  | nil => intro v hv; cases hv
  | cons w vs ih =>
    unfold MMR.extend at h
    obtain ⟨t1, h1, h⟩ := Except.bind_eq_ok h
    intro v hv
    rcases List.mem_cons.mp hv with rfl | hv
    · exact append_ok_check h1
    · exact ih h v hv

theorem History.spec {VS : ValueSer α} {xs : List α} {t : MMR α} (h : History VS xs t) (hb : xs.length < 2 ^ 63) :
    Good t ∧ t.items = xs ∧ ∀ v ∈ xs, VS.check v = .ok () := by
  induction h with
  | new => exact ⟨.inl rfl, rfl, fun v hv => nomatch hv⟩
  | @append xs t v t' _ h2 ih =>
    rw [List.length_append, List.length_singleton] at hb
    obtain ⟨g, e, c⟩ := ih (by omega)
    have hc := append_ok_check h2
    obtain ⟨t1, h3, h4, h5, _⟩ := append_spec VS g hc (by rw [e]; exact hb)
    rw [h2] at h3; cases h3
    refine ⟨h4, by rw [h5, e], ?_⟩
    intro w hw
    rcases List.mem_append.mp hw with hw | hw
    · exact c w hw
    · rw [List.mem_singleton.mp hw]; exact hc
  | @extend xs t vs t' _ h2 ih =>
    rw [List.length_append] at hb
    obtain ⟨g, e, c⟩ := ih (by omega)
    have hc := extend_ok_check h2
    obtain ⟨t1, h3, h4, h5⟩ := extend_spec VS g hc (by rw [e]; exact hb)
    rw [h2] at h3; cases h3
    refine ⟨h4, by rw [h5, e], ?_⟩
    intro w hw
    rcases List.mem_append.mp hw with hw | hw
    · exact c w hw
    · exact hc w hw

/-- C19: whatever calls built it, the MMR iterates over, counts and reverses exactly the values given. -/
theorem C19_is_its_list {VS : ValueSer α} {xs : List α} {t : MMR α} (h : History VS xs t) (hb : xs.length < 2 ^ 63) :
    t.items = xs ∧ t.len = .ok xs.length ∧ t.reversed = xs.reverse := by
  obtain ⟨g, e, _⟩ := h.spec hb
  exact ⟨e, by rw [g.pyLen, e, pyLen_ok hb], by rw [reversed_eq, e]⟩

/-- C19: `append` and `extend` never raise on acceptable values below 2^63 items (the limit of `len()` itself); in
particular none of the internal assertions fires. -/
theorem C19_append_total {VS : ValueSer α} {xs : List α} {t : MMR α} (h : History VS xs t) {v : α}
    (hv : VS.check v = .ok ()) (hb : xs.length + 1 < 2 ^ 63) : ∃ t', t.append VS v = .ok t' := by
  obtain ⟨g, e, _⟩ := h.spec (by omega)
  obtain ⟨t', h1, _⟩ := append_spec VS g hv (by rw [e]; exact hb)
  exact ⟨t', h1⟩

theorem C19_extend_total {VS : ValueSer α} {xs : List α} {t : MMR α} (h : History VS xs t) {vs : List α}
    (hv : ∀ v ∈ vs, VS.check v = .ok ()) (hb : xs.length + vs.length < 2 ^ 63) : ∃ t', t.extend VS vs = .ok t' := by
  obtain ⟨g, e, _⟩ := h.spec (by omega)
  obtain ⟨t', h1, _⟩ := extend_spec VS g hv (by rw [e]; exact hb)
  exact ⟨t', h1⟩

/-- `IntMMR` of proofmarshal/test/test_mmr.py: values are `UInt64`. -/
def intVS : ValueSer Int where
  check i := PrimTy.uint64.check (.int i)
  digest i := writeVaruintInt i
def intMMRTag : Bytes := hex "738b5a85d6f148739c21300a01166f1d"

/-- Fourteen items: mountains of 8, 4 and 2 (the picture at mmr.py:66-94). -/
def exMMR : MMR Int :=
  let p2 (i : Int) : MMR Int := .inner (.leaf i) (.leaf (i + 1)) 2
  let p4 (i : Int) : MMR Int := .inner (p2 i) (p2 (i + 2)) 4
  let p8 (i : Int) : MMR Int := .inner (p4 i) (p4 (i + 4)) 8
  .inner (.inner (p8 0) (p4 8) 12) (p2 12) 14
theorem exMMR_eq : ofIterable intVS [0,1,2,3,4,5,6,7,8,9,10,11,12,13] = .ok exMMR := by decide +kernel
theorem exMMR_history : History intVS [0,1,2,3,4,5,6,7,8,9,10,11,12,13] exMMR := by
  have := History.extend (VS := intVS) (vs := [0,1,2,3,4,5,6,7,8,9,10,11,12,13]) (t' := exMMR) .new (by decide +kernel)
  simpa using this

/-- C20: integer indexing agrees with the list, `IndexError` included. -/
theorem C20_getitem {VS : ValueSer α} {xs : List α} {t : MMR α} (h : History VS xs t) (hb : xs.length < 2 ^ 63) (i : Int) :
    t.getItem i = pyGetItem xs i := by
  obtain ⟨g, e, _⟩ := h.spec hb
  rw [getItem_spec g (by rw [e]; exact hb), e]

example : exMMR.getItem (-3) = .ok 11 ∧ exMMR.getItem 13 = .ok 13 ∧ exMMR.getItem 14 = .error .indexError ∧
    exMMR.getItem (-15) = .error .indexError := by decide +kernel

/-- C21, the claim. -/
def C21_statement : Prop :=
  ∀ (α : Type) (VS : ValueSer α) (xs : List α) (t : MMR α) (s : PySlice) (a b : Int), History VS xs t → xs.length < 2 ^ 63 →
    s.indices xs.length = .ok (a, b, 1) →
    ∃ t' ys, t.getSlice VS s = .ok t' ∧ pySlice xs s = .ok ys ∧ t'.items = ys ∧ IsMMR ys t'

/-- C21 is false: for `m = IntMMR([0,1,2,3])`, `list(m[2:1]) == [2]` while `[0,1,2,3][2:1] == []`.  The stop index
passed to the right subtree (mmr.py:441) is negative there and is taken as counted from the end. -/
theorem C21_refuted : ¬ C21_statement := by
  intro h
  let t : MMR Int := .inner (.inner (.leaf 0) (.leaf 1) 2) (.inner (.leaf 2) (.leaf 3) 2) 4
  have hist : History intVS [0,1,2,3] t := by
    have := History.extend (VS := intVS) (vs := [0,1,2,3]) (t' := t) .new (by decide +kernel)
    simpa using this
  obtain ⟨t', ys, h1, h2, h3, _⟩ := h Int intVS [0,1,2,3] t ⟨some 2, some 1, none⟩ 2 1 hist (by decide) (by decide)
  have e1 : t.getSlice intVS ⟨some 2, some 1, none⟩ = .ok (.leaf 2) := by decide +kernel
  have e2 : pySlice [(0:Int),1,2,3] ⟨some 2, some 1, none⟩ = .ok [] := by decide +kernel
  rw [e1] at h1; rw [e2] at h2
  cases h1; cases h2
  simp [MMR.items] at h3

/-- C21 for slices whose (normalised) start does not exceed their stop.  Missing: empty slices written backwards,
where the claim is false. -/
theorem C21_slice_partial {VS : ValueSer α} {xs : List α} {t : MMR α} (h : History VS xs t) (hb : xs.length < 2 ^ 63)
    {s : PySlice} {a b : Int} (hs : s.indices xs.length = .ok (a, b, 1)) (hab : a ≤ b) :
    ∃ t' ys, t.getSlice VS s = .ok t' ∧ pySlice xs s = .ok ys ∧ t'.items = ys ∧ IsMMR ys t' := by
  obtain ⟨g, e, c⟩ := h.spec hb
  obtain ⟨t', h1, h2, h3⟩ := getSlice_spec VS g (by rw [e]; exact hb) (by rw [e]; exact c) (by rw [e]; exact hs) hab
  rw [e] at h3
  refine ⟨t', _, h1, pySlice_step1 hs, h3, ?_⟩
  have := h2.isMMR
  rwa [h3] at this

theorem SliceEnd.unique {n a b e e' : Nat} (h : SliceEnd n a b e) (h' : SliceEnd n a b e') : e = e' := by
  induction h generalizing e' with
  | forward h => cases h' <;> omega
  | nothing h1 h2 =>
    cases h' with
    | forward => omega
    | nothing => rfl
    | left g1 g2 g3 g4 _ => omega
    | right g1 g2 g3 g4 g5 _ => omega
  | left h1 h2 h3 h4 _ ih =>
    cases h' with
    | forward => omega
    | nothing => omega
    | left g1 g2 g3 g4 g => have := MMR.IsSplit.unique h3 g3; subst this; exact ih g
    | right g1 g2 g3 g4 g5 _ => have := MMR.IsSplit.unique h3 g3; omega
  | right h1 h2 h3 h4 h5 _ ih =>
    cases h' with
    | forward => omega
    | nothing => omega
    | left g1 g2 g3 g4 g => have := MMR.IsSplit.unique h3 g3; omega
    | right g1 g2 g3 g4 g5 g => have := MMR.IsSplit.unique h3 g3; subst this; rw [ih g]

/-- Every slice with step 1: the items from `a` to where `SliceEnd` says, which is `b` if `a ≤ b`, and the MMR of them. -/
theorem C21_exact_partial {VS : ValueSer α} {xs : List α} {t : MMR α} (h : History VS xs t) (hb : xs.length < 2 ^ 63)
    {s : PySlice} {a b : Nat} (hs : s.indices xs.length = .ok ((a : Int), (b : Int), 1)) :
    ∃ t' e, t.getSlice VS s = .ok t' ∧ SliceEnd xs.length a b e ∧ t'.items = (xs.take e).drop a ∧ IsMMR ((xs.take e).drop a) t' := by
  obtain ⟨g, e, c⟩ := h.spec hb
  obtain ⟨t', n, h1, h2, h3, _, h4⟩ := getSlice_any VS g (by rw [e]; exact hb) (by rw [e]; exact c) (by rw [e]; exact hs)
  rw [e] at h3 h4
  have := h2.isMMR
  rw [h4] at this
  exact ⟨t', n, h1, h3, h4, this⟩

/-- Any other step is not implemented, except for the empty MMR. -/
theorem C21_steps_partial {VS : ValueSer α} {xs : List α} {t : MMR α} (h : History VS xs t) (hb : xs.length < 2 ^ 63)
    {s : PySlice} {a b st : Int} (hs : s.indices xs.length = .ok (a, b, st)) (hst : st ≠ 1) :
    t.getSlice VS s = if xs = [] then .ok .empty else .error .notImplemented := by
  obtain ⟨g, e, c⟩ := h.spec hb
  rw [← e] at hs hb ⊢
  rcases t with _ | v | ⟨l, r, n⟩
  · unfold MMR.getSlice
    have hs : s.indices 0 = .ok (a, b, st) := hs
    rw [hs]
    rfl
  · unfold MMR.getSlice
    have hs : s.indices 1 = .ok (a, b, st) := hs
    rw [hs]
    simp only [Except.bind_ok]
    rw [if_pos hst, if_neg (by simp [MMR.items])]
  · obtain ⟨_, _, rfl⟩ := g.left
    have hn := g.split.1
    have hit : (MMR.inner l r (l.items.length + r.items.length)).items.length = l.items.length + r.items.length := by
      rw [MMR.items, List.length_append]
    rw [hit] at hs hb
    unfold MMR.getSlice
    rw [pyLen_ok hb]
    simp only [Except.bind_ok]
    rw [hs]
    simp only [Except.bind_ok]
    rw [if_pos hst, if_neg]
    intro h0
    rw [h0] at hit
    simp at hit
    omega

-- of four items, 2:1 ends at 3: in the tree of the last two, 1 is left of it, and is counted from its end
example : SliceEnd 4 2 1 3 := .right (k := 2) (by omega) (by omega) (split_perfect 1) (by omega) (by omega) (.forward (by decide))
example : (exMMR.getSlice intVS ⟨some 13, some 3, none⟩).map MMR.items = .ok [] := by decide +kernel
example : (exMMR.getSlice intVS ⟨some 5, some (-1), none⟩).map MMR.items = .ok [5,6,7,8,9,10,11,12] := by decide +kernel

/-- C22: the tree is the documented recursive construction over the list … -/
theorem C22_documented {VS : ValueSer α} {xs : List α} {t : MMR α} (h : History VS xs t) (hb : xs.length < 2 ^ 63) :
    IsMMR xs t := by
  obtain ⟨g, e, _⟩ := h.spec hb
  have := g.isMMR
  rwa [e] at this

/-- … which determines it, so every history over the same items gives the same tree, hash and serialization. -/
theorem C22_canonical {VS : ValueSer α} {xs : List α} {t u : MMR α} (h : History VS xs t) (h' : History VS xs u)
    (hb : xs.length < 2 ^ 63) : t = u :=
  (C22_documented h hb).unique (C22_documented h' hb)

/-- C22: the split is well defined: there is exactly one tree for each list. -/
theorem C22_split_unique {n k k' : Nat} (h : IsSplit n k) (h' : IsSplit n k') : k = k' := IsSplit.unique h h'

/-- The empty `IntMMR` and its hash with the real SHA-256. -/
example : (MMR.empty : MMR Int).hash realHash intMMRTag intVS =
    realHash.sha256 (realHash.derive subtagEmpty intMMRTag ++ hex "e3b0c44298fc1c149afbf4c8996fb92427ae41e4649b934ca495991b7852b855") := by
  decide +kernel

/-- C23: `is_perfect_tree` returns, and says whether the number of items is a power of two. -/
theorem C23_is_perfect_tree {VS : ValueSer α} {xs : List α} {t : MMR α} (h : History VS xs t) (hb : xs.length < 2 ^ 63) :
    ∃ b, t.isPerfectTree = .ok b ∧ (b = true ↔ ∃ e, xs.length = 2 ^ e) :=
  isPerfectTree_spec (C19_is_its_list h hb).2.1

example : exMMR.isPerfectTree = .ok false ∧ (MMR.inner (.leaf 0) (.leaf 1) 2 : MMR Int).isPerfectTree = .ok true := by
  decide +kernel

/-- C24: trees (canonical or not, with whatever lengths stored) of equal hash have the same shape, stored lengths and
value digests, provided SHA-256 does not collide on the strings hashed for these two trees and the three variant
tags do not collide. -/
theorem C24_binding (H : HashFns) (tag : Bytes) (VS : ValueSer α) (t u : MMR α)
    (htag : CollisionFree (fun m => (H.sha256 m).take 16)
      [derivationTag ++ (subtagEmpty ++ tag), derivationTag ++ (subtagLeaf ++ tag), derivationTag ++ (subtagInner ++ tag)])
    (hcf : CollisionFree H.sha256 (t.hashed H tag VS ++ u.hashed H tag VS))
    (h : t.hash H tag VS = u.hash H tag VS) :
    t.mapValues VS.digest = u.mapValues VS.digest ∧ t.items.map VS.digest = u.items.map VS.digest := by
  have key : ∀ {s s' : Bytes}, s.length = 16 → s'.length = 16 → s ≠ s' →
      derivationTag ++ (s ++ tag) ∈ [derivationTag ++ (subtagEmpty ++ tag), derivationTag ++ (subtagLeaf ++ tag), derivationTag ++ (subtagInner ++ tag)] →
      derivationTag ++ (s' ++ tag) ∈ [derivationTag ++ (subtagEmpty ++ tag), derivationTag ++ (subtagLeaf ++ tag), derivationTag ++ (subtagInner ++ tag)] →
      H.derive s tag ≠ H.derive s' tag := by
    intro s s' hs hs' hne h1 h2 he
    have := htag _ h1 _ h2 he
    exact hne (List.append_inj (List.append_cancel_left this) (by omega)).1
  have hm := hash_binding H tag VS t u (key rfl rfl (by decide) (by simp) (by simp)) (key rfl rfl (by decide) (by simp) (by simp))
    (key rfl rfl (by decide) (by simp) (by simp)) hcf h
  exact ⟨hm, by rw [← mapValues_items, ← mapValues_items, hm]⟩

/-- C24 for the lists of two MMRs, when digests distinguish the values (any serializer of C07 does). -/
theorem C24_binding_lists (H : HashFns) (tag : Bytes) (VS : ValueSer α) {xs ys : List α} {t u : MMR α}
    (ht : History VS xs t) (hu : History VS ys u) (hbx : xs.length < 2 ^ 63) (hby : ys.length < 2 ^ 63)
    (htag : CollisionFree (fun m => (H.sha256 m).take 16)
      [derivationTag ++ (subtagEmpty ++ tag), derivationTag ++ (subtagLeaf ++ tag), derivationTag ++ (subtagInner ++ tag)])
    (hcf : CollisionFree H.sha256 (t.hashed H tag VS ++ u.hashed H tag VS))
    (hinj : ∀ x ∈ xs, ∀ y ∈ ys, VS.digest x = VS.digest y → x = y)
    (h : t.hash H tag VS = u.hash H tag VS) : xs = ys := by
  have hm := (C24_binding H tag VS t u htag hcf h).2
  rw [(C19_is_its_list ht hbx).1, (C19_is_its_list hu hby).1] at hm
  clear hcf h ht hu hbx hby
  induction xs generalizing ys with
  | nil => cases ys with
    | nil => rfl
    | cons => simp at hm
  | cons x xs ih => cases ys with
    | nil => simp at hm
    | cons y ys =>
      simp only [List.map_cons, List.cons.injEq] at hm
      rw [hinj x (by simp) y (by simp) hm.1, ih (fun a ha b hb => hinj a (by simp [ha]) b (by simp [hb])) hm.2]

/-- The strings listed by `hashed` are those of the hash computation: the last step hashes the second of them. -/
theorem hashed_covers (H : HashFns) (tag : Bytes) (VS : ValueSer α) (t : MMR α) :
    ∃ m ∈ t.hashed H tag VS, t.hash H tag VS = H.sha256 m := by
  cases t
  · exact ⟨_, by simp [hashed], rfl⟩
  · exact ⟨_, by simp [hashed], rfl⟩
  · exact ⟨_, by simp [hashed], rfl⟩

/-- A case meeting the hypotheses, with the real SHA-256: `[1]` and `[1, 2]`. -/
example : CollisionFree (fun m => (realHash.sha256 m).take 16)
      [derivationTag ++ (subtagEmpty ++ intMMRTag), derivationTag ++ (subtagLeaf ++ intMMRTag), derivationTag ++ (subtagInner ++ intMMRTag)] := by
  unfold CollisionFree; decide +kernel
example : CollisionFree realHash.sha256 ((MMR.leaf 1).hashed realHash intMMRTag intVS ++ (MMR.leaf 300).hashed realHash intMMRTag intVS) := by
  unfold CollisionFree; decide +kernel

/-- C25: paths are at most twice the base-two logarithm of the number of items. -/
theorem C25_depth {VS : ValueSer α} {xs : List α} {t : MMR α} (h : History VS xs t) (hb : xs.length < 2 ^ 63) :
    t.depth ≤ 2 * Nat.log 2 xs.length := by
  obtain ⟨g, e, _⟩ := h.spec hb
  rw [← e]; exact g.depth

/-- C25: appending keeps every perfect subtree (mountain) of the old tree as a subtree. -/
theorem C25_reuse {VS : ValueSer α} {xs : List α} {t t' : MMR α} {v : α} (h : History VS xs t) (hb : xs.length + 1 < 2 ^ 63)
    (ha : t.append VS v = .ok t') {s : MMR α} (hs : Subtree s t) (hp : ∃ e, s.items.length = 2 ^ e) : Subtree s t' := by
  obtain ⟨g, e, _⟩ := h.spec (by omega)
  obtain ⟨t1, h1, _, _, h2⟩ := append_spec VS g (append_ok_check ha) (by rw [e]; exact hb)
  rw [ha] at h1; cases h1
  exact h2 s hs hp

example : exMMR.depth = 5 := by decide

end Verif
