import Verif.Lemmas.Merbinner2
import Verif.Model.Sha256
import Verif.Model.Prim
/-! # C26–C33: merbinner trees

`K` is the type of keys that pass `check_instance` of the key serializer and whose prefixes are free of prefixes of
each other (`PrefixFreeKeys`). -/
namespace Verif
open MB
set_option linter.unusedSectionVars false
variable {K V : Type} [DecidableEq K] {C : MBClass K V}

/-! ## The concrete class used as an example: `IntMBTree` of proofmarshal/test/test_merbinnertree.py:30-41 -/

abbrev DigestKey := {b : Bytes // b.length = 32}
def digestPrefix (k : DigestKey) : List Bool := firstBits k.1 256
def intMBTag : Bytes := hex "2bb60984048641abaad6bd5b1586bd14"
def intMB : MBClass DigestKey Int where
  checkKey _ := .ok ()
  checkValue i := PrimTy.uint64.check (.int i)
  keyDigest k := k.1
  valueDigest i := writeVaruintInt i
  key2prefix := digestPrefix
  veq a b := decide (a = b)

/-- `digestPrefix` is `Bits.from_bytes`. -/
theorem digestPrefix_eq (k : DigestKey) : ∃ b, Bits.fromBytes k.1 none = .ok b ∧ b.iter = .ok (digestPrefix k) := by
  obtain ⟨k, hk⟩ := k
  have hf : Bits.fromBytes k none = .ok ⟨256, k⟩ := by
    simp [Bits.fromBytes, hk]
  have hw := (Bits.fromBytes_ok hf).1
  exact ⟨_, hf, by rw [Bits.iter_eq hw, Bits.bits_eq_firstBits hw]; rfl⟩

theorem intMB_prefixFree : PrefixFreeKeys intMB := by
  rintro ⟨k, hk⟩ ⟨k', hk'⟩ h
  have hl : ∀ x : Bytes, x.length = 32 → (firstBits x 256).length = 256 := by
    intro x hx; rw [Bits.firstBits_length, hx]; rfl
  have he : firstBits k 256 = firstBits k' 256 := h.eq_of_length (by
    change (firstBits k 256).length = (firstBits k' 256).length
    rw [hl k hk, hl k' hk'])
  apply Subtype.ext
  apply Bits.flatMap_byteBits_inj (hk.trans hk'.symm)
  apply List.ext_getElem?
  intro i
  by_cases hi : i < 256
  · rw [Bits.flatMap_byteBits_getElem? _ _ (by simp only [hk]; omega), Bits.flatMap_byteBits_getElem? _ _ (by simp only [hk']; omega),
      ← Bits.firstBits_getElem? k 256 i hi (by omega), ← Bits.firstBits_getElem? k' 256 i hi (by omega), he]
  · rw [List.getElem?_eq_none (by rw [Bits.flatMap_byteBits_length]; simp only [hk]; omega),
      List.getElem?_eq_none (by rw [Bits.flatMap_byteBits_length]; simp only [hk']; omega)]

def exK (a b : Byte) : DigestKey := ⟨a :: b :: List.replicate 30 0, rfl⟩

/-- Keys 00.., 80.., 81.. with values 1, 2, 3: prefix `[]` at the root, `1000000` on the right. -/
def exMB : MB DigestKey Int :=
  .inner [] (.leaf (exK 0 0) 1) (.inner [true, false, false, false, false, false, false] (.leaf (exK 0x80 0) 2) (.leaf (exK 0x81 0) 3))

theorem exMB_eq : ofPairs intMB .empty [(exK 0x81 0, 3), (exK 0 0, 1), (exK 0x80 0, 2)] = .ok exMB := by decide +kernel

/-! ## What every history produces -/

theorem mkLeaf_check {k : K} {v : V} {t} (h : mkLeaf C k v = .ok t) : C.checkKey k = .ok () ∧ C.checkValue v = .ok () := by
  obtain ⟨_, h1, h⟩ := Except.bind_eq_ok h
  obtain ⟨_, h2, _⟩ := Except.bind_eq_ok h
  exact ⟨h1, h2⟩

theorem MBHistory.spec (hC : PrefixFreeKeys C) {m : Dict K V} {t : MB K V} (h : MBHistory C m t) :
    Tree C t ∧ (∀ k v, m k = some v ↔ (k, v) ∈ t.pairs) ∧ (∀ kv ∈ t.pairs, C.checkKey kv.1 = .ok () ∧ C.checkValue kv.2 = .ok ()) := by
  induction h with
  | new => exact ⟨.inl rfl, by simp [pairs], by simp [pairs]⟩
  | @put m t k v t' _ hp ih =>
    obtain ⟨ht, hm, hck⟩ := ih
    obtain ⟨_, hl, _⟩ := Except.bind_eq_ok hp
    obtain ⟨hk, hv⟩ := mkLeaf_check hl
    have hfresh : ∀ w, (k, w) ∉ t.pairs := by
      intro w hw
      rw [ht.put_present hC hk hv hw] at hp
      cases hp
    obtain ⟨t'', e1, e2, e3⟩ := ht.put hC hk hv hfresh
    rw [e1] at hp
    cases hp
    refine ⟨.inr e2, ?_, ?_⟩
    · intro k' v'
      rw [e3.mem_iff, List.mem_cons, Prod.mk.injEq, ← hm]
      unfold Dict.set
      by_cases hkk : k' = k
      · subst hkk
        have : m k' ≠ some v' := fun h => hfresh v' ((hm k' v').mp h)
        simp [this, eq_comm]
      · simp [hkk]
    · intro kv hkv
      rcases List.mem_cons.mp (e3.mem_iff.mp hkv) with rfl | hkv
      · exact ⟨hk, hv⟩
      · exact hck kv hkv
  | @remove m t k t' _ hp ih =>
    obtain ⟨ht, hm, hck⟩ := ih
    by_cases hex : ∃ v, (k, v) ∈ t.pairs
    · obtain ⟨v, hv⟩ := hex
      obtain ⟨t'', e1, e2, e3⟩ := (ht.remove hC k).1 v hv
      rw [e1] at hp
      cases hp
      have hnd := (e3.map (·.1)).nodup_iff.mp ht.nodup
      refine ⟨e2, ?_, fun kv h => hck kv (e3.mem_iff.mpr (by simp [h]))⟩
      intro k' v'
      unfold Dict.del
      by_cases hkk : k' = k
      · subst hkk
        simp only [if_true, reduceCtorEq, false_iff]
        intro h
        simp only [List.map_cons, List.nodup_cons, List.mem_map] at hnd
        exact hnd.1 ⟨_, h, rfl⟩
      · rw [if_neg hkk, hm, e3.mem_iff, List.mem_cons, Prod.mk.injEq]
        simp [hkk]
    · rw [(ht.remove hC k).2 (fun v h => hex ⟨v, h⟩)] at hp
      cases hp

/-- C26: the tree answers, and fails, as the dictionary of its history; and every tree reached is that of a history, so
this covers all later lookups. -/
theorem C26_dict (hC : PrefixFreeKeys C) {m : Dict K V} {t : MB K V} (h : MBHistory C m t) (k : K) :
    (t.getItem C k = match m k with | some v => .ok v | none => .error .keyError) ∧
    (m k = none → ∀ v, C.checkKey k = .ok () → C.checkValue v = .ok () → ∃ t', t.put C k v = .ok t' ∧ MBHistory C (m.set k v) t') ∧
    (m k ≠ none → ∃ t', t.remove C k = .ok t' ∧ MBHistory C (m.del k) t') ∧
    (m k = none → t.remove C k = .error .keyError) := by
  obtain ⟨ht, hm, _⟩ := h.spec hC
  have hn : m k = none → ∀ v, (k, v) ∉ t.pairs := by
    intro hk v hv
    rw [← hm, hk] at hv; cases hv
  refine ⟨?_, ?_, ?_, ?_⟩
  · cases hk : m k with
    | none => exact (ht.getItem hC k).2 (hn hk)
    | some v => exact (ht.getItem hC k).1 v ((hm k v).mp hk)
  · intro hk v h1 h2
    obtain ⟨t', e, _⟩ := ht.put hC h1 h2 (hn hk)
    exact ⟨t', e, .put h e⟩
  · intro hk
    cases hk' : m k with
    | none => exact absurd hk' hk
    | some v =>
      obtain ⟨t', e, _⟩ := (ht.remove hC k).1 v ((hm k v).mp hk')
      exact ⟨t', e, .remove h e⟩
  · intro hk
    exact (ht.remove hC k).2 (hn hk)

theorem exMB_history : MBHistory intMB (((Dict.set (Dict.set (Dict.set (fun _ => none) (exK 0x81 0) 3) (exK 0 0) 1)) (exK 0x80 0) 2)) exMB := by
  have h1 : MB.put intMB .empty (exK 0x81 0) 3 = .ok (.leaf (exK 0x81 0) 3) := by decide +kernel
  have h2 : MB.put intMB (.leaf (exK 0x81 0) 3) (exK 0 0) 1 = .ok (.inner [] (.leaf (exK 0 0) 1) (.leaf (exK 0x81 0) 3)) := by decide +kernel
  have h3 : MB.put intMB (.inner [] (.leaf (exK 0 0) 1) (.leaf (exK 0x81 0) 3)) (exK 0x80 0) 2 = .ok exMB := by decide +kernel
  exact .put (.put (.put .new h1) h2) h3

example : exMB.getItem intMB (exK 0x81 0) = .ok 3 ∧ exMB.getItem intMB (exK 0x82 0) = .error .keyError ∧
    exMB.getItem intMB (exK 0x81 1) = .error .keyError := by decide +kernel

/-- C27, the claim. -/
def C27_statement : Prop := ∀ (K V : Type) (_ : DecidableEq K) (C : MBClass K V) (m : Dict K V) (t : MB K V) (k : K) (v : V),
  PrefixFreeKeys C → MBHistory C m t → C.checkKey k = .ok () → C.checkValue v = .ok () →
  ∃ t', t.put C k v = .ok t' ∧ t'.getItem C k = .ok v

/-- C27 fails for a key already present: `put` of an existing key raises. -/
theorem C27_refuted : ¬ C27_statement := by
  intro h
  obtain ⟨t', h1, _⟩ := h _ _ _ intMB _ _ (exK 0 0) 5 intMB_prefixFree exMB_history rfl (by decide +kernel)
  have : exMB.put intMB (exK 0 0) 5 = .error .assertion := by decide +kernel
  rw [this] at h1
  cases h1

/-- What is true of C27: for absent keys `put` returns a tree with the key set; for present keys it always raises
`AssertionError` (merbinnertree.py:329), whatever the value. -/
theorem C27_put_partial (hC : PrefixFreeKeys C) {m : Dict K V} {t : MB K V} (h : MBHistory C m t) {k : K} {v : V}
    (hk : C.checkKey k = .ok ()) (hv : C.checkValue v = .ok ()) :
    (m k = none → ∃ t', t.put C k v = .ok t' ∧ t'.getItem C k = .ok v ∧ ∀ k', k' ≠ k → t'.getItem C k' = t.getItem C k') ∧
    (m k ≠ none → t.put C k v = .error .assertion) := by
  constructor
  · intro hn
    obtain ⟨t', e, h'⟩ := (C26_dict hC h k).2.1 hn v hk hv
    refine ⟨t', e, ?_, ?_⟩
    · rw [(C26_dict hC h' k).1]; simp [Dict.set]
    · intro k' hk'
      rw [(C26_dict hC h' k').1, (C26_dict hC h k').1]; simp [Dict.set, hk']
  · intro hn
    obtain ⟨ht, hm, _⟩ := h.spec hC
    cases hk' : m k with
    | none => exact absurd hk' hn
    | some w => exact ht.put_present hC hk hv ((hm k w).mp hk')

/-- C28: the final contents determine the tree. -/
theorem C28_history_independent (hC : PrefixFreeKeys C) {m : Dict K V} {t u : MB K V} (ht : MBHistory C m t)
    (hu : MBHistory C m u) : t = u := by
  obtain ⟨h1, h2, _⟩ := ht.spec hC
  obtain ⟨h3, h4, _⟩ := hu.spec hC
  exact h1.unique h3 (fun kv => (h2 kv.1 kv.2).symm.trans (h4 kv.1 kv.2))

/-- C28 for the constructor: the order of the iterable does not matter. -/
theorem C28_of_pairs (hC : PrefixFreeKeys C) {xs ys : List (K × V)} (hp : xs.Perm ys) {t u : MB K V}
    (ht : ofPairs C .empty xs = .ok t) (hu : ofPairs C .empty ys = .ok u) : t = u := by
  have key : ∀ (xs : List (K × V)) (t t' : MB K V), Tree C t → ofPairs C t xs = .ok t' → Tree C t' ∧ t'.pairs.Perm (xs ++ t.pairs) := by
    intro xs
    induction xs with
    | nil => intro t t' h1 h2; cases h2; exact ⟨h1, List.Perm.refl _⟩
    | cons kv xs ih =>
      intro t t' h1 h2
      obtain ⟨k, v⟩ := kv
      obtain ⟨t1, e1, e2⟩ := Except.bind_eq_ok h2
      obtain ⟨_, hl, _⟩ := Except.bind_eq_ok e1
      obtain ⟨hk, hv⟩ := mkLeaf_check hl
      have hfresh : ∀ w, (k, w) ∉ t.pairs := by
        intro w hw
        rw [h1.put_present hC hk hv hw] at e1
        cases e1
      obtain ⟨t'', f1, f2, f3⟩ := h1.put hC hk hv hfresh
      rw [f1] at e1
      cases e1
      obtain ⟨g1, g2⟩ := ih _ _ (.inr f2) e2
      exact ⟨g1, g2.trans ((List.Perm.append_left xs f3).trans List.perm_middle)⟩
  obtain ⟨a1, a2⟩ := key xs _ _ (.inl rfl) ht
  obtain ⟨b1, b2⟩ := key ys _ _ (.inl rfl) hu
  refine a1.unique b1 (fun kv => ?_)
  rw [a2.mem_iff, b2.mem_iff]
  simp only [pairs, List.append_nil]
  exact hp.mem_iff

example : ofPairs intMB .empty [(exK 0 0, 1), (exK 0x80 0, 2), (exK 0x81 0, 3)] = .ok exMB := by decide +kernel

/-- C29: iteration yields the contents, each key once, in prefix order; `len` counts them. -/
theorem C29_iteration (hC : PrefixFreeKeys C) {m : Dict K V} {t : MB K V} (h : MBHistory C m t) :
    (∀ k, k ∈ t.keys ↔ m k ≠ none) ∧ t.keys.Nodup ∧
    t.keys.Pairwise (fun a b => lexLt (C.key2prefix a) (C.key2prefix b) = true) ∧
    (∀ k v, (k, v) ∈ t.items ↔ m k = some v) ∧
    t.keys.length = t.values.length ∧ t.items.map (·.1) = t.keys ∧ t.items.map (·.2) = t.values ∧
    (t.keys.length < 2 ^ 63 → t.len = .ok t.keys.length) := by
  obtain ⟨ht, hm, _⟩ := h.spec hC
  refine ⟨?_, ?_, ?_, ?_, ?_, ?_, ?_, ?_⟩
  · intro k
    rw [keys_eq]
    simp only [List.mem_map, Prod.exists]
    constructor
    · rintro ⟨k', v, h, rfl⟩ hn
      rw [← hm, hn] at h; cases h
    · intro hn
      cases hk : m k with
      | none => exact absurd hk hn
      | some v => exact ⟨k, v, (hm k v).mp hk, rfl⟩
  · rw [keys_eq]; exact ht.nodup
  · rw [keys_eq, List.pairwise_map]; exact ht.sorted
  · intro k v; rw [items_eq, hm]
  · rw [keys_eq, values_eq]; simp
  · rw [items_eq, keys_eq]
  · rw [items_eq, values_eq]
  · rw [keys_eq, List.length_map]; exact len_eq t

example : exMB.keys = [exK 0 0, exK 0x80 0, exK 0x81 0] ∧ exMB.values = [1, 2, 3] ∧ exMB.len = .ok 3 := by decide +kernel

/-- C30: `remove` undoes `put`, and `put` undoes `remove`. -/
theorem C30_remove_put (hC : PrefixFreeKeys C) {m : Dict K V} {t t' : MB K V} (h : MBHistory C m t) {k : K} {v : V}
    (hp : t.put C k v = .ok t') : t'.remove C k = .ok t := by
  have h' := MBHistory.put h hp
  obtain ⟨t'', e, h''⟩ := (C26_dict hC h' k).2.2.1 (by simp [Dict.set])
  rw [e]
  have hmk : m k = none := by
    cases hk : m k with
    | none => rfl
    | some w =>
      obtain ⟨_, hl, _⟩ := Except.bind_eq_ok hp
      obtain ⟨c1, c2⟩ := mkLeaf_check hl
      rw [(C27_put_partial hC h c1 c2).2 (by rw [hk]; simp)] at hp
      cases hp
  have : (m.set k v).del k = m := by
    funext k'
    unfold Dict.del Dict.set
    by_cases hkk : k' = k
    · subst hkk; simp [hmk]
    · simp [hkk]
  rw [this] at h''
  rw [C28_history_independent hC h'' h]

theorem C30_put_remove (hC : PrefixFreeKeys C) {m : Dict K V} {t t' : MB K V} (h : MBHistory C m t) {k : K} {v : V}
    (hv : t.getItem C k = .ok v) (hr : t.remove C k = .ok t') : t'.put C k v = .ok t := by
  have h' := MBHistory.remove h hr
  have hmk : m k = some v := by
    rw [(C26_dict hC h k).1] at hv
    cases hk : m k with
    | none => rw [hk] at hv; cases hv
    | some w => rw [hk] at hv; cases hv; rfl
  obtain ⟨_, hm, hck⟩ := h.spec hC
  obtain ⟨c1, c2⟩ := hck (k, v) ((hm k v).mp hmk)
  obtain ⟨t'', e, h''⟩ := (C26_dict hC h' k).2.1 (by simp [Dict.del]) v c1 c2
  rw [e]
  have : (m.del k).set k v = m := by
    funext k'
    unfold Dict.del Dict.set
    by_cases hkk : k' = k
    · subst hkk; simp [hmk]
    · simp [hkk]
  rw [this] at h''
  rw [C28_history_independent hC h'' h]

example : exMB.remove intMB (exK 0x80 0) = .ok (.inner [] (.leaf (exK 0 0) 1) (.leaf (exK 0x81 0) 3)) := by decide +kernel

/-- The variant tags of a class do not collide. -/
def MBTagsDistinct (H : HashFns) (tag : Bytes) : Prop :=
  CollisionFree (fun m => (H.sha256 m).take 16)
    [derivationTag ++ (subtagEmpty ++ tag), derivationTag ++ (subtagLeaf ++ tag), derivationTag ++ (subtagInner ++ tag)]

theorem MBTagsDistinct.ne {H : HashFns} {tag : Bytes} (htag : MBTagsDistinct H tag) :
    H.derive subtagEmpty tag ≠ H.derive subtagLeaf tag ∧ H.derive subtagEmpty tag ≠ H.derive subtagInner tag ∧
      H.derive subtagLeaf tag ≠ H.derive subtagInner tag := by
  have key : ∀ {s s' : Bytes}, s.length = 16 → s'.length = 16 → s ≠ s' →
      derivationTag ++ (s ++ tag) ∈ [derivationTag ++ (subtagEmpty ++ tag), derivationTag ++ (subtagLeaf ++ tag), derivationTag ++ (subtagInner ++ tag)] →
      derivationTag ++ (s' ++ tag) ∈ [derivationTag ++ (subtagEmpty ++ tag), derivationTag ++ (subtagLeaf ++ tag), derivationTag ++ (subtagInner ++ tag)] →
      H.derive s tag ≠ H.derive s' tag := by
    intro s s' hs hs' hne h1 h2 he
    have := htag _ h1 _ h2 he
    exact hne (List.append_inj (List.append_cancel_left this) (by omega)).1
  exact ⟨key rfl rfl (by decide) (by simp) (by simp), key rfl rfl (by decide) (by simp) (by simp),
    key rfl rfl (by decide) (by simp) (by simp)⟩

/-- Leaves with the same hashed bytes are the same entry, among keys and values that pass `check_instance`. -/
def LeafDigestInj (C : MBClass K V) : Prop :=
  ∀ k v k' v', C.checkKey k = .ok () → C.checkValue v = .ok () → C.checkKey k' = .ok () → C.checkValue v' = .ok () →
    C.keyDigest k ++ C.valueDigest v = C.keyDigest k' ++ C.valueDigest v' → k = k' ∧ C.veq v v' = true

theorem issubset_tree (hC : PrefixFreeKeys C) (H : HashFns) (tag : Bytes) {t u : MB K V} (h1 : Tree C t) (h2 : Tree C u) (htag : MBTagsDistinct H tag)
    (hcf : CollisionFree H.sha256 (t.hashed C H tag ++ u.hashed C H tag ++ (MB.empty : MB K V).hashed C H tag))
    (hinj : ∀ x ∈ t.pairs, ∀ y ∈ u.pairs, C.keyDigest x.1 ++ C.valueDigest x.2 = C.keyDigest y.1 ++ C.valueDigest y.2 → x.1 = y.1 ∧ C.veq x.2 y.2 = true) :
    Decides C t u (t.issubset C H tag u) := by
  obtain ⟨n1, n2, n3⟩ := htag.ne
  have mem3 : ∀ {x : Bytes} {a b c : List Bytes}, x ∈ a ∨ x ∈ b ∨ x ∈ c → x ∈ a ++ b ++ c := by
    intro x a b c h; simp only [List.mem_append]; tauto
  have hemp : ∀ y : MB K V, MBSubtree y u → y.hash C H tag = (empty : MB K V).hash C H tag → y = .empty := by
    intro y hy he
    have := hash_binding (C := C) H tag y .empty n1 n2 n3 (fun a ha b hb => hcf a (mem3 ?_) b (mem3 ?_)) he
    · cases y with
      | empty => rfl
      | leaf => cases this
      | inner => cases this
    · rcases List.mem_append.mp ha with h | h
      · exact .inr (.inl (hashed_sub hy _ h))
      · exact .inr (.inr h)
    · rcases List.mem_append.mp hb with h | h
      · exact .inr (.inl (hashed_sub hy _ h))
      · exact .inr (.inr h)
  rcases h1 with rfl | h1
  · refine ⟨true, ?_, ?_⟩
    · unfold issubset issubsetWith
      split
      · rfl
      · split
        · rename_i h1 h2; exact absurd h2.symm h1
        · rfl
    · simp only [true_iff]; intro kv h; cases h
  · rcases h2 with rfl | h2
    · have hne : t.hash C H tag ≠ (empty : MB K V).hash C H tag := by
        intro he
        have := hash_binding (C := C) H tag t .empty n1 n2 n3 (fun a ha b hb => hcf a (mem3 ?_) b (mem3 ?_)) he
        · cases h1 <;> cases this
        · rcases List.mem_append.mp ha with h | h
          · exact .inl h
          · exact .inr (.inr h)
        · rcases List.mem_append.mp hb with h | h
          · exact .inl h
          · exact .inr (.inr h)
      refine ⟨false, ?_, ?_⟩
      · unfold issubset issubsetWith
        rw [if_neg hne, if_pos rfl]
      · simp only [Bool.false_eq_true, false_iff]
        intro hs
        obtain ⟨kv, hkv⟩ := h1.nonempty
        obtain ⟨_, h, _⟩ := hs kv hkv
        cases h
    · refine issubset_wf hC h1 u h2 ?_ ?_
      · intro x y hx hy he
        apply sub_of_skel
        · intro k v k' v' a b
          exact hinj (k, v) (pairs_sub hx _ a) (k', v') (pairs_sub hy _ b)
        refine hash_binding (C := C) H tag x y n1 n2 n3 (fun a ha b hb => hcf a (mem3 ?_) b (mem3 ?_)) he
        · rcases List.mem_append.mp ha with h | h
          · exact .inl (hashed_sub hx _ h)
          · exact .inr (.inl (hashed_sub hy _ h))
        · rcases List.mem_append.mp hb with h | h
          · exact .inl (hashed_sub hx _ h)
          · exact .inr (.inl (hashed_sub hy _ h))
      · intro y hy he
        have := hemp y hy he
        subst this
        cases h2.sub hy

/-- C31: `issubset` returns, and returns `True` exactly if every entry of `t` is found in `u` with an equal value. -/
theorem C31_issubset (hC : PrefixFreeKeys C) (H : HashFns) (tag : Bytes) {m m' : Dict K V} {t u : MB K V}
    (ht : MBHistory C m t) (hu : MBHistory C m' u) (htag : MBTagsDistinct H tag)
    (hcf : CollisionFree H.sha256 (t.hashed C H tag ++ u.hashed C H tag ++ (MB.empty : MB K V).hashed C H tag))
    (hinj : LeafDigestInj C) :
    ∃ b, t.issubset C H tag u = .ok b ∧
      (b = true ↔ ∀ k v, m k = some v → ∃ v', m' k = some v' ∧ C.veq v v' = true) := by
  obtain ⟨h1, hm, hck⟩ := ht.spec hC
  obtain ⟨h2, hm', hck'⟩ := hu.spec hC
  suffices hd : Decides C t u (t.issubset C H tag u) by
    obtain ⟨b, e1, e2⟩ := hd
    refine ⟨b, e1, e2.trans ?_⟩
    constructor
    · intro hs k v hk
      obtain ⟨v', a, b⟩ := hs (k, v) ((hm k v).mp hk)
      exact ⟨v', (hm' k v').mpr a, b⟩
    · intro hs kv hkv
      obtain ⟨v', a, b⟩ := hs kv.1 kv.2 ((hm kv.1 kv.2).mpr hkv)
      exact ⟨v', (hm' _ v').mp a, b⟩
  refine issubset_tree hC H tag h1 h2 htag hcf fun x hx y hy => ?_
  obtain ⟨c1, c2⟩ := hck _ hx
  obtain ⟨c3, c4⟩ := hck' _ hy
  exact hinj _ _ _ _ c1 c2 c3 c4

/-- `IntMBTree` distinguishes its leaves. -/
theorem intMB_leafInj : LeafDigestInj intMB := by
  rintro ⟨k, hk⟩ v ⟨k', hk'⟩ v' _ h0 _ h0' h
  have hpos : ∀ v : Int, intMB.checkValue v = .ok () → 0 ≤ v := by
    intro v hv
    by_cases hn : 0 ≤ v
    · exact hn
    · have : intMB.checkValue v = .error .serValue := by
        simp [intMB, PrimTy.check, PrimTy.uint64, hn]
      rw [this] at hv; cases hv
  have h0 := hpos v h0
  have h0' := hpos v' h0'
  change k ++ writeVaruintInt v = k' ++ writeVaruintInt v' at h
  obtain ⟨rfl, h⟩ := List.append_inj h (hk.trans hk'.symm)
  refine ⟨rfl, ?_⟩
  change decide (v = v') = true
  unfold writeVaruintInt at h
  rw [if_neg (by omega), if_neg (by omega)] at h
  have := (Bits.writeVaruint_prefix_inj (x := []) (y := []) (by simpa using h)).1
  simp; omega

example : issubset intMB realHash intMBTag (.inner [] (.leaf (exK 0 0) 1) (.leaf (exK 0x81 0) 3)) exMB = .ok true ∧
    issubset intMB realHash intMBTag (.inner [] (.leaf (exK 0 0) 1) (.leaf (exK 0x81 0) 4)) exMB = .ok false := by decide +kernel

/-- C32: prefixes are longest common prefixes, the sides are split by the next bit, no empty node below the root. -/
theorem C32_layout (hC : PrefixFreeKeys C) {m : Dict K V} {t : MB K V} (h : MBHistory C m t) {p : List Bool} {l r : MB K V}
    (hs : MBSubtree (.inner p l r) t) :
    (∀ k ∈ (MB.inner p l r).keys, p <+: C.key2prefix k) ∧
    (∀ q, (∀ k ∈ (MB.inner p l r).keys, q <+: C.key2prefix k) → q <+: p) ∧
    (∀ k ∈ l.keys, p ++ [false] <+: C.key2prefix k) ∧ (∀ k ∈ r.keys, p ++ [true] <+: C.key2prefix k) ∧
    l ≠ .empty ∧ r ≠ .empty := by
  obtain ⟨ht, _, _⟩ := h.spec hC
  rcases ht with rfl | ht
  · cases hs
  · have hw := ht.sub hs
    have hk : ∀ (x : MB K V) (P : K → Prop), (∀ k ∈ x.keys, P k) ↔ ∀ kv ∈ x.pairs, P kv.1 := by
      intro x P; rw [keys_eq]; simp only [List.mem_map]; constructor
      · intro h kv hkv; exact h _ ⟨kv, hkv, rfl⟩
      · rintro h k ⟨kv, hkv, rfl⟩; exact h kv hkv
    obtain ⟨h1, h2, h3, h4⟩ : WF C l ∧ WF C r ∧ _ ∧ _ := by cases hw with | inner a b c d => exact ⟨a, b, c, d⟩
    refine ⟨(hk _ _).mpr hw.pfx_prefix, fun q hq => hw.pfx_longest ((hk _ _).mp hq), (hk _ _).mpr h3, (hk _ _).mpr h4, ?_, ?_⟩
    · rintro rfl; cases h1
    · rintro rfl; cases h2

/-- C33: equal hashes, same entries (so the same absences), for any two trees, built by a history or not. -/
theorem C33_binding (H : HashFns) (tag : Bytes) (t u : MB K V) (htag : MBTagsDistinct H tag)
    (hcf : CollisionFree H.sha256 (t.hashed C H tag ++ u.hashed C H tag)) (h : t.hash C H tag = u.hash C H tag) :
    t.skel C = u.skel C ∧
    ((∀ k v k' v', (k, v) ∈ t.items → (k', v') ∈ u.items →
        C.keyDigest k ++ C.valueDigest v = C.keyDigest k' ++ C.valueDigest v' → k = k' ∧ C.veq v v' = true) →
      ∀ k v, (k, v) ∈ t.items → ∃ v', (k, v') ∈ u.items ∧ C.veq v v' = true) := by
  obtain ⟨n1, n2, n3⟩ := htag.ne
  have hs := hash_binding (C := C) H tag t u n1 n2 n3 hcf h
  refine ⟨hs, fun hinj k v hk => ?_⟩
  rw [items_eq, items_eq] at *
  exact sub_of_skel hinj hs (k, v) hk

/-- C33 for two histories. -/
theorem C33_binding_dicts (hC : PrefixFreeKeys C) (H : HashFns) (tag : Bytes) {m m' : Dict K V} {t u : MB K V}
    (ht : MBHistory C m t) (hu : MBHistory C m' u) (htag : MBTagsDistinct H tag)
    (hcf : CollisionFree H.sha256 (t.hashed C H tag ++ u.hashed C H tag))
    (hinj : LeafDigestInj C) (hveq : ∀ a b, C.veq a b = true → a = b)
    (h : t.hash C H tag = u.hash C H tag) : m = m' := by
  have key : ∀ {m m' : Dict K V} {t u : MB K V}, MBHistory C m t → MBHistory C m' u →
      CollisionFree H.sha256 (t.hashed C H tag ++ u.hashed C H tag) → t.hash C H tag = u.hash C H tag →
      ∀ k v, m k = some v → m' k = some v := by
    intro m m' t u ht hu hcf h k v hk
    obtain ⟨_, hm, hck⟩ := ht.spec hC
    obtain ⟨_, hm', hck'⟩ := hu.spec hC
    obtain ⟨v', a, b⟩ := (C33_binding H tag t u htag hcf h).2 (fun k v k' v' a b => by
      rw [items_eq] at a b
      exact hinj k v k' v' (hck _ a).1 (hck _ a).2 (hck' _ b).1 (hck' _ b).2) k v (by rw [items_eq]; exact (hm k v).mp hk)
    rw [items_eq] at a
    rw [hveq _ _ b]
    exact (hm' k v').mpr a
  have hcf' : CollisionFree H.sha256 (u.hashed C H tag ++ t.hashed C H tag) := by
    intro a ha b hb
    exact hcf a (by simp only [List.mem_append] at ha ⊢; tauto) b (by simp only [List.mem_append] at hb ⊢; tauto)
  funext k
  cases hk : m k with
  | some v => exact (key ht hu hcf h k v hk).symm
  | none =>
    cases hk' : m' k with
    | none => rfl
    | some v => rw [key hu ht hcf' h.symm k v hk'] at hk; cases hk

/-- The hypotheses of C31 and C33 hold of `IntMBTree`s with the real SHA-256. -/
example : MBTagsDistinct realHash intMBTag := by
  unfold MBTagsDistinct CollisionFree; decide +kernel
example : CollisionFree realHash.sha256 ((MB.leaf (exK 0 0) 1).hashed intMB realHash intMBTag ++
    (MB.leaf (exK 0 0) 2).hashed intMB realHash intMBTag ++ (MB.empty : MB DigestKey Int).hashed intMB realHash intMBTag) := by
  unfold CollisionFree; decide +kernel

/-- C61, the claim. -/
def C61_statement : Prop := ∀ (K V : Type) (_ : DecidableEq K) (C : MBClass K V) (m : Dict K V) (t : MB K V) (k : K),
  PrefixFreeKeys C → MBHistory C m t → t.contains k = .ok (decide (k ∈ t.keys))

/-- C61 is false of every tree and key: the membership test is not implemented. -/
theorem C61_refuted : ¬ C61_statement := by
  intro h
  have := h _ _ _ intMB _ _ (exK 0 0) intMB_prefixFree exMB_history
  cases this

theorem C61_never_partial (t : MB K V) (k : K) : t.contains k = .error .notImplemented := rfl

end Verif
