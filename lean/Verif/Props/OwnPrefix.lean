import Verif.Model.OwnPrefix
import Verif.Lemmas.Codec
import Verif.Lemmas.Proof
/-!
# C147: trees and maps that keep the `key2prefix` they come with
-/
namespace Verif
namespace OwnTree
variable {K V : Type} [DecidableEq K] {C : OwnClass K V}

/-- The trees that calls of the constructor, `put` and `remove` lead to. -/
inductive Made (C : OwnClass K V) : OwnTree K V → Prop
  | empty : Made C .empty
  | put {t t' : OwnTree K V} {k : K} {v : V} : Made C t → t.put C k v = .ok t' → Made C t'
  | remove {t t' : OwnTree K V} {k : K} : Made C t → t.remove C k = .ok t' → Made C t'

theorem put_empty (k : K) (v : V) : (empty : OwnTree K V).put C k v = mkLeaf C k v := by
  unfold put
  cases h : mkLeaf C k v with
  | error e => rfl
  | ok t => rfl

theorem mkLeaf_ok {k : K} {v : V} {t : OwnTree K V} (h : mkLeaf C k v = .ok t) : C.checkKey k = .ok () ∧ C.checkValue v = .ok () ∧ t = leaf k v := by
  unfold mkLeaf at h
  obtain ⟨_, h1, h⟩ := Except.bind_eq_ok h
  obtain ⟨_, h2, h⟩ := Except.bind_eq_ok h
  cases h
  exact ⟨h1, h2, rfl⟩

theorem put_leaf (k k' : K) (v v' : V) (h1 : C.checkKey k' = .ok ()) (h2 : C.checkValue v' = .ok ()) :
    (leaf k v : OwnTree K V).put C k' v' = .error (if C.keyHash k' = C.keyHash k then .assertion else .attributeError) := by
  have : mkLeaf C k' v' = .ok (leaf k' v') := by
    unfold mkLeaf
    rw [h1, h2]
    rfl
  unfold put
  rw [this]
  change (do let tip ← mkInner C (leaf k' v') (leaf k v); rebuild C tip []) = _
  unfold mkInner pyAssert
  by_cases he : C.keyHash k' = C.keyHash k
  · simp [pfx, he]; rfl
  · simp [pfx, he, Pfx.commonPrefix]; rfl

theorem put_inv {t t' : OwnTree K V} {k : K} {v : V} (ht : t = .empty ∨ ∃ k v, t = .leaf k v) (h : t.put C k v = .ok t') :
    t = .empty ∧ C.checkKey k = .ok () ∧ C.checkValue v = .ok () ∧ t' = .leaf k v := by
  rcases ht with rfl | ⟨k0, v0, rfl⟩
  · rw [put_empty] at h
    exact ⟨rfl, mkLeaf_ok h⟩
  · have h' := h
    unfold put at h'
    obtain ⟨l, hl, -⟩ := Except.bind_eq_ok h'
    obtain ⟨c1, c2, -⟩ := mkLeaf_ok hl
    rw [put_leaf _ _ _ _ c1 c2] at h
    cases h

/-- There is never more than one key in a tree. -/
theorem Made.shape {t : OwnTree K V} (h : Made C t) : t = .empty ∨ ∃ k v, t = .leaf k v := by
  induction h with
  | empty => exact .inl rfl
  | put _ hp ih => exact .inr ⟨_, _, (put_inv ih hp).2.2.2⟩
  | remove _ hr ih =>
    rcases ih with rfl | ⟨k0, v0, rfl⟩
    · cases hr
    · unfold OwnTree.remove descend at hr
      simp only [Except.bind_ok] at hr
      split at hr
      · cases hr; exact .inl rfl
      · cases hr

end OwnTree
open OwnTree

/-! ## C147 -/

/-- C147: a tree of keys with different hashes can be made, whatever the keys, by a class that does not override `key2prefix`. -/
def C147_statement : Prop :=
  ∀ (K V : Type) [DecidableEq K] (C : OwnClass K V) (kvs : List (K × V)), (∀ kv ∈ kvs, C.checkKey kv.1 = .ok () ∧ C.checkValue kv.2 = .ok ()) →
    (kvs.map fun kv => C.keyHash kv.1).Nodup → ∃ t, OwnTree.ofPairs C .empty kvs = .ok t

/-- Keys that are bytes, standing for proofs with that hash. -/
def exOwn : OwnClass Bytes Nat := ⟨fun _ => .ok (), fun _ => .ok (), fun k => k⟩

/-- Two keys. -/
theorem C147_refuted : ¬ C147_statement := by
  intro h
  obtain ⟨t, ht⟩ := h Bytes Nat exOwn [([1#8], 1), ([2#8], 2)] (fun _ _ => ⟨rfl, rfl⟩) (by decide)
  have : OwnTree.ofPairs exOwn .empty [([1#8], 1), ([2#8], 2)] = .error .attributeError := by decide +kernel
  rw [this] at ht
  cases ht

section
variable {K V : Type} [DecidableEq K] {C : OwnClass K V}

/-- C147, what holds: the constructor takes one key at most. -/
theorem C147_constructor_partial (kvs : List (K × V)) (t : OwnTree K V) : OwnTree.ofPairs C .empty kvs = .ok t ↔
    (kvs = [] ∧ t = .empty) ∨ ∃ k v, kvs = [(k, v)] ∧ C.checkKey k = .ok () ∧ C.checkValue v = .ok () ∧ t = .leaf k v := by
  constructor
  · intro h
    cases kvs with
    | nil => cases h; exact .inl ⟨rfl, rfl⟩
    | cons kv kvs =>
      obtain ⟨k, v⟩ := kv
      unfold ofPairs at h
      obtain ⟨t1, h1, h⟩ := Except.bind_eq_ok h
      obtain ⟨-, c1, c2, rfl⟩ := put_inv (.inl rfl) h1
      cases kvs with
      | nil => cases h; exact .inr ⟨k, v, rfl, c1, c2, rfl⟩
      | cons kv' kvs =>
        unfold ofPairs at h
        obtain ⟨t2, h2, h⟩ := Except.bind_eq_ok h
        have := (put_inv (.inr ⟨k, v, rfl⟩) h2).1
        cases this
  · rintro (⟨rfl, rfl⟩ | ⟨k, v, rfl, c1, c2, rfl⟩)
    · rfl
    · unfold ofPairs
      rw [put_empty]
      unfold mkLeaf
      rw [c1, c2]
      rfl

/-- C147, what holds: whatever is done with them, trees have one key at most, which they find; to put in a second one ends with `AttributeError`, or with
`AssertionError` if it has the same hash. -/
theorem C147_tree_partial {t : OwnTree K V} (h : Made C t) : t = .empty ∨ ∃ k v, t = .leaf k v ∧
    (∀ k', t.getItem C k' = if k = k' then .ok v else .error .keyError) ∧
    (∀ k', t.remove C k' = if k = k' then .ok .empty else .error .keyError) ∧
    ∀ k' v', C.checkKey k' = .ok () → C.checkValue v' = .ok () →
      t.put C k' v' = .error (if C.keyHash k' = C.keyHash k then .assertion else .attributeError) := by
  rcases h.shape with rfl | ⟨k, v, rfl⟩
  · exact .inl rfl
  · refine .inr ⟨k, v, rfl, fun k' => ?_, fun k' => ?_, fun k' v' h1 h2 => put_leaf k k' v v' h1 h2⟩
    · unfold getItem descend
      simp only [Except.bind_ok]
      split <;> rfl
    · unfold OwnTree.remove descend
      simp only [Except.bind_ok]
      split <;> rfl
end

/-- A tree with a key. -/
example : Made exOwn (.leaf [1#8] 7) := .put (k := [1#8]) (v := 7) .empty (by decide +kernel)
example : (OwnTree.leaf [1#8] 7).put exOwn [2#8] 5 = .error .attributeError := by decide +kernel

namespace GuMap
open Seal
variable {T : Table} {H : HashFns} {g : GuMapDecl}

/-- Objects keep their class. -/
def Keeps {α} (m : HM α) : Prop := ∀ (s : PState) (j : Nat) (o : Obj), s.objs[j]? = some o → ∃ o', (m s).2.objs[j]? = some o' ∧ o'.cls = o.cls

theorem Keeps.bind {α β} {m : HM α} {f : α → HM β} (h : Keeps m) (hf : ∀ a, Keeps (f a)) : Keeps (m >>= f) := by
  intro s j o ho
  rw [HM.bind_apply]
  obtain ⟨o1, h1, h2⟩ := h s j o ho
  generalize m s = x at h1 ⊢
  obtain ⟨r, s1⟩ := x
  cases r with
  | error e => exact ⟨o1, h1, h2⟩
  | ok a =>
    obtain ⟨o2, h3, h4⟩ := hf a s1 j o1 h1
    exact ⟨o2, h3, h4.trans h2⟩

theorem Keeps.same {α} {m : HM α} (h : ∀ s, (m s).2 = s) : Keeps m := fun s j o ho => ⟨o, by rw [h]; exact ho, rfl⟩

theorem Keeps.alloc (o : Obj) : Keeps (HM.alloc o) := fun s j o' ho =>
  ⟨o', by
    have := (List.getElem?_eq_some_iff.mp ho).1
    change (s.objs ++ [o])[j]? = _
    rw [List.getElem?_append_left this, ho], rfl⟩

theorem Keeps.upd (r : Nat) (f : Obj → Obj) (hf : ∀ o, (f o).cls = o.cls) : Keeps (HM.upd r f) := fun s j o ho => by
  change ∃ o', (s.objs.modify r f)[j]? = some o' ∧ _
  rw [List.getElem?_modify, ho]
  by_cases h : r = j
  · exact ⟨f o, by simp [h], hf o⟩
  · exact ⟨o, by simp [h], rfl⟩

theorem Keeps.obj {α} {r : Nat} {f : Obj → HM α} (h : ∀ o, Keeps (f o)) : Keeps (HM.obj r >>= f) := (Keeps.same fun _ => rfl).bind h

theorem keeps_getAttrF (T : Table) : ∀ n r i, Keeps (Prf.getAttrF T n r i)
  | 0, _, _ => .same fun _ => rfl
  | n + 1, r, i => by
    rw [Prf.getAttrF]
    refine .obj fun o => ?_
    split
    · exact .same fun _ => rfl
    · split
      · exact .same fun _ => rfl
      · refine (Keeps.same fun _ => rfl).bind fun _ => (keeps_getAttrF T n _ i).bind fun v => Keeps.bind ?_ fun v => Keeps.bind (Keeps.upd r _ ?_) fun _ => .same fun _ => rfl
        rotate_left
        · exact fun _ => rfl
        cases v with
        | prim v => exact .same fun _ => rfl
        | ref q => exact Keeps.bind (.obj fun o => .alloc _) fun _ => .same fun _ => rfl

theorem keeps_getAttr (T : Table) (r i : Nat) : Keeps (Prf.getAttr T r i) := fun s => keeps_getAttrF T _ r i s

theorem ok_bind {α β} {m : HM α} {f : α → HM β} {s s' : PState} {b : β} (h : (m >>= f) s = (.ok b, s')) : ∃ a s1, m s = (.ok a, s1) ∧ f a s1 = (.ok b, s') := by
  rw [HM.bind_apply] at h
  cases hm : m s with
  | mk r s1 =>
    rw [hm] at h
    cases r with
    | error e => cases h
    | ok a => exact ⟨a, s1, rfl, h⟩

/-- The prefix of a leaf is no `Bits`; and if that of the left child is one, the right child is still of its class. -/
theorem ownPrefix_ok {r : Nat} {s s' : PState} {p : Pfx} (h : ownPrefix T H r s = (.ok p, s')) :
    ∃ o, s.objs[r]? = some o ∧ ((o.cls = Cls.leafPrefix ∧ ∃ b, p = .bytes b) ∨
      (o.cls ≠ Cls.leafPrefix ∧ (∃ b, p = .bits b) ∧ ∀ (j : Nat) (o : Obj), s.objs[j]? = some o → ∃ o', s'.objs[j]? = some o' ∧ o'.cls = o.cls)) := by
  unfold ownPrefix at h
  obtain ⟨o, s1, h1, h2⟩ := ok_bind h
  clear h
  have h := h2
  clear h2
  have : s.objs[r]? = some o ∧ s1 = s := by
    unfold HM.obj at h1
    cases ho : s.objs[r]? with
    | none => rw [ho] at h1; cases h1
    | some o' => rw [ho] at h1; cases h1; exact ⟨rfl, rfl⟩
  obtain ⟨ho, rfl⟩ := this
  refine ⟨o, ho, ?_⟩
  split at h
  · rename_i hc
    obtain ⟨v, s2, h2, h⟩ := ok_bind h
    refine .inr ⟨?_, ?_⟩
    · rcases hc with hc | hc <;> (rw [hc]; decide)
    · split at h
      · cases h
        refine ⟨⟨_, rfl⟩, fun j o' hj => ?_⟩
        have := keeps_getAttr T r 0 s1 j o' hj
        rw [h2] at this
        exact this
      · cases h
  · split at h
    · rename_i hc
      obtain ⟨v, s2, h2, h⟩ := ok_bind h
      split at h
      · obtain ⟨hh, s3, h3, h⟩ := ok_bind h
        cases h
        exact .inl ⟨hc, _, rfl⟩
      · cases h
    · cases h

/-- C147, for maps: `from_children` of a class that does not override `key2prefix` never makes a node above a leaf. -/
theorem C147_map_partial {left right : Nat} {s : PState} {l o : Obj} (hl : s.objs[left]? = some l) (ho : s.objs[right]? = some o)
    (hc : l.cls = Cls.leafPrefix ∨ o.cls = Cls.leafPrefix) (r : Nat) : (ownFromChildren T H g left right s).1 ≠ .ok r := by
  intro h
  have h : ownFromChildren T H g left right s = (.ok r, (ownFromChildren T H g left right s).2) := Prod.ext h rfl
  unfold ownFromChildren at h
  obtain ⟨p, s1, h1, h⟩ := ok_bind h
  obtain ⟨q, s2, h2, h⟩ := ok_bind h
  obtain ⟨c, s3, h3, -⟩ := ok_bind h
  obtain ⟨l1, hl1, hl'⟩ := ownPrefix_ok h1
  obtain ⟨o1, ho1, ho'⟩ := ownPrefix_ok h2
  have hcp : p.commonPrefix q = .ok c := (Prod.mk.inj h3).1
  rw [hl] at hl1
  cases hl1
  rcases hl' with ⟨-, b, rfl⟩ | ⟨g1, ⟨b, rfl⟩, g3⟩
  · cases hcp
  · rcases ho' with ⟨-, b', rfl⟩ | ⟨g4, -, -⟩
    · cases hcp
    · obtain ⟨o', k1, k2⟩ := g3 right o ho
      rw [ho1] at k1
      cases k1
      rcases hc with hc | hc
      · exact g1 hc
      · exact g4 (k2.trans hc)

/-- A leaf, whose key is a proof, beside an unused prefix, on either side. -/
def exOwnMap : GuMapDecl := { hashtag := hex "7377738488f040cca836443cc6db3589", key := .proof Cls.fakeSeal, value := .prim (.uint 0xff) }
def exOwnState : Py (Nat × Nat) × PState := (do
  let T := classes realHash exOwnMap
  let k ← Prf.new T Cls.fakeSeal [.prim (.bytes (List.replicate 32 1))]
  let w ← fromHash T (List.replicate 32 2)
  let l ← Prf.new T Cls.leafPrefix [.ref w, .ref k, .prim (.int 5)]
  let u ← Prf.new T Cls.unusedPrefix [.prim (.bits [true]), .ref k]
  return (l, u)) {}
example : exOwnState.1 = .ok (3, 4) ∧ (ownFromChildren (classes realHash exOwnMap) realHash exOwnMap 3 4 exOwnState.2).1 = .error .attributeError ∧
    (ownFromChildren (classes realHash exOwnMap) realHash exOwnMap 4 3 exOwnState.2).1 = .error .typeError ∧
    (ownFromChildren (classes realHash exOwnMap) realHash exOwnMap 4 4 exOwnState.2).1.isOk = true := by decide +kernel

end GuMap
end Verif
