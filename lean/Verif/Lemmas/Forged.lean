import Verif.Spec.Received
import Verif.Lemmas.Merbinner
import Verif.Lemmas.MMR
/-! # Looking up in trees whose lengths and prefixes may be lies -/
namespace Verif

namespace MMR
variable {α : Type}

theorem pyLen_inv {n a : Nat} (h : pyLen n = .ok a) : a = n ∧ n < 2 ^ 63 := by
  unfold pyLen at h
  split at h
  · next hn => exact ⟨(Except.ok.inj h).symm, hn⟩
  · cases h

theorem pyLen_of {n : Nat} (h : n < 2 ^ 63) : pyLen n = .ok n := if_pos h

/-- What indexing gives is an item. -/
theorem getItem_mem : ∀ {t : MMR α} {i : Int} {v : α}, t.getItem i = .ok v → v ∈ t.items
  | .empty, _, _, h => by cases h
  | .leaf w, i, v, h => by
    rw [getItem] at h
    split at h
    · cases h; simp [items]
    · cases h
  | .inner l r n, i, v, h => by
    rw [getItem] at h
    obtain ⟨len, _, h⟩ := Except.bind_eq_ok h
    dsimp only at h
    generalize (if i < 0 then (len : Int) + i else i) = i' at h
    split at h
    · cases h
    obtain ⟨a, _, h⟩ := Except.bind_eq_ok h
    rw [items, List.mem_append]
    split at h
    · exact .inl (getItem_mem h)
    obtain ⟨b, _, h⟩ := Except.bind_eq_ok h
    split at h
    · exact .inr (getItem_mem h)
    · cases h

/-- Items numbered below. -/
def Shows (t : MMR α) : Prop := ∀ (j : Nat) (h : j < t.items.length), t.getItem j = .ok t.items[j]

theorem getItem_inner_nat {l r : MMR α} {n j : Nat} {v : α} (h : (MMR.inner l r n).getItem j = .ok v) :
    n < 2 ^ 63 ∧ j < n ∧ ∃ a, l.len = .ok a ∧ ((j < a ∧ l.getItem j = .ok v) ∨
      (a ≤ j ∧ ∃ b, r.len = .ok b ∧ j < a + b ∧ r.getItem (j - a : Nat) = .ok v)) := by
  rw [getItem] at h
  obtain ⟨len, hl, h'⟩ := Except.bind_eq_ok h
  clear h
  have h := h'
  clear h'
  obtain ⟨rfl, hn⟩ := pyLen_inv hl
  dsimp only at h
  rw [if_neg (by omega : ¬ (j : Int) < 0)] at h
  by_cases h1 : (0 : Int) ≤ j ∧ (j : Int) < len
  · rw [if_neg (not_not_intro h1)] at h
    obtain ⟨a, ha, h⟩ := Except.bind_eq_ok h
    refine ⟨hn, by omega, a, ha, ?_⟩
    by_cases h2 : (0 : Int) ≤ j ∧ (j : Int) < a
    · rw [if_pos h2] at h
      exact .inl ⟨by omega, h⟩
    · rw [if_neg h2] at h
      obtain ⟨b, hb, h⟩ := Except.bind_eq_ok h
      split at h
      · refine .inr ⟨by omega, b, hb, by omega, ?_⟩
        rw [show ((j - a : Nat) : Int) = (j : Int) - a by omega]
        exact h
      · cases h
  · rw [if_pos h1] at h; cases h

theorem getItem_left {l r : MMR α} {n j a : Nat} (hn : n < 2 ^ 63) (hj : j < n) (ha : l.len = .ok a) (h : j < a) : (MMR.inner l r n).getItem j = l.getItem j := by
  rw [getItem, pyLen_of hn, Except.bind_ok]
  dsimp only
  rw [if_neg (by omega : ¬ (j : Int) < 0), if_neg (by omega), ha, Except.bind_ok, if_pos (by omega)]

theorem getItem_right {l r : MMR α} {n j a b : Nat} (hn : n < 2 ^ 63) (hj : j < n) (ha : l.len = .ok a) (h : a ≤ j) (hb : r.len = .ok b) (h2 : j < a + b) :
    (MMR.inner l r n).getItem j = r.getItem (j - a : Nat) := by
  rw [getItem, pyLen_of hn, Except.bind_ok]
  dsimp only
  rw [if_neg (by omega : ¬ (j : Int) < 0), if_neg (by omega), ha, Except.bind_ok, if_neg (by omega), hb, Except.bind_ok, if_pos (by omega),
    show ((j - a : Nat) : Int) = (j : Int) - a by omega]

theorem Findable.shows : ∀ {t : MMR α}, t.Findable → t.Shows
  | .empty, _, j, h => by simp [items] at h
  | .leaf v, _, j, h => by
    have : j = 0 := by simp [items] at h; exact h
    subst this
    rfl
  | .inner l r n, hf, j, h => by
    rw [items, List.length_append] at h
    have hne : l.items ++ r.items ≠ [] := by
      intro e
      have := congrArg List.length e
      rw [List.length_append, List.length_nil] at this
      omega
    obtain ⟨hn, hle, ⟨a, ha, hla, hr⟩, h1, h2⟩ := hf hne
    simp only [items]
    by_cases hj : j < l.items.length
    · rw [getItem_left hn (by omega) ha (by omega), h1.shows j hj, List.getElem_append_left hj]
    · have hrne : r.items ≠ [] := by
        intro e
        rw [e, List.length_nil] at h
        omega
      obtain ⟨rfl, b, hb, hrb⟩ := hr hrne
      rw [getItem_right hn (by omega) ha (by omega) hb (by omega), h2.shows _ (by omega), List.getElem_append_right (by omega)]

/-- The other way round, for different items. -/
theorem Shows.findable : ∀ {t : MMR α}, t.items.Nodup → t.Shows → t.Findable
  | .empty, _, _ => trivial
  | .leaf _, _, _ => trivial
  | .inner l r n, hnd, hs => by
    intro hne
    rw [items] at hnd
    obtain ⟨ndl, ndr, hdis⟩ := List.nodup_append.mp hnd
    have hpos : 0 < l.items.length + r.items.length := by
      rw [← List.length_append]
      exact List.length_pos_iff.mpr hne
    have hsj : ∀ (j : Nat) (h : j < (l.items ++ r.items).length), (MMR.inner l r n).getItem j = .ok (l.items ++ r.items)[j] := hs
    obtain ⟨hn, hlast, a, ha, _⟩ := getItem_inner_nat (hsj (l.items.length + r.items.length - 1) (by rw [List.length_append]; omega))
    -- the left side claims as many items at least as it has
    have hla : l.items.length ≤ a := by
      refine Nat.le_of_not_lt fun hlt => ?_
      have h0 := hsj a (by rw [List.length_append]; omega)
      rw [List.getElem_append_left hlt] at h0
      obtain ⟨_, _, a', ha', h1⟩ := getItem_inner_nat h0
      rw [ha] at ha'
      cases ha'
      rcases h1 with ⟨h1, _⟩ | ⟨_, b, _, _, h1⟩
      · omega
      · exact hdis _ (List.getElem_mem hlt) _ (getItem_mem h1) rfl
    have hlr : r.items ≠ [] → a = l.items.length := by
      intro hr
      have hr := List.length_pos_iff.mpr hr
      refine Nat.le_antisymm (Nat.le_of_not_lt fun hlt => ?_) hla
      have h0 := hsj l.items.length (by rw [List.length_append]; omega)
      rw [List.getElem_append_right (Nat.le_refl _)] at h0
      obtain ⟨_, _, a', ha', h1⟩ := getItem_inner_nat h0
      rw [ha] at ha'
      cases ha'
      rcases h1 with ⟨_, h1⟩ | ⟨h1, _⟩
      · exact hdis _ (getItem_mem h1) _ (List.getElem_mem _) rfl
      · omega
    refine ⟨hn, by omega, ⟨a, ha, hla, fun hr => ⟨hlr hr, ?_⟩⟩, Shows.findable ndl fun j hj => ?_, Shows.findable ndr fun j hj => ?_⟩
    · have e := hlr hr
      have hr := List.length_pos_iff.mpr hr
      obtain ⟨_, _, a', ha', h1⟩ := getItem_inner_nat (hsj (l.items.length + r.items.length - 1) (by rw [List.length_append]; omega))
      rw [ha] at ha'
      cases ha'
      rcases h1 with ⟨h1, _⟩ | ⟨_, b, hb, h1, _⟩
      · omega
      · exact ⟨b, hb, by omega⟩
    · have h0 := hsj j (by rw [List.length_append]; omega)
      rw [getItem_left hn (by omega) ha (by omega), List.getElem_append_left hj] at h0
      exact h0
    · have hr : r.items ≠ [] := List.length_pos_iff.mp (by omega)
      have e := hlr hr
      have h0 := hsj (l.items.length + j) (by rw [List.length_append]; omega)
      rw [List.getElem_append_right (by omega)] at h0
      obtain ⟨_, _, a', ha', h1⟩ := getItem_inner_nat h0
      rw [ha] at ha'
      cases ha'
      rcases h1 with ⟨h1, _⟩ | ⟨_, b, hb, _, h1⟩
      · omega
      · rw [e] at h1
        simpa using h1

theorem Honest.findable : ∀ {t : MMR α}, t.Honest → t.items.length < 2 ^ 63 → t.Findable
  | .empty, _, _ => trivial
  | .leaf _, _, _ => trivial
  | .inner l r n, ⟨hn, hl, hr⟩, h => by
    intro _
    rw [items, List.length_append] at h
    have key : ∀ {t : MMR α}, t.Honest → t.items.length < 2 ^ 63 → t.len = .ok t.items.length := by
      intro t ht h
      cases t with
      | empty => rfl
      | leaf => rfl
      | inner l r n =>
        rw [len, ht.1, items, List.length_append]
        rw [items, List.length_append] at h
        exact pyLen_of h
    exact ⟨by omega, by omega, ⟨_, key hl (by omega), Nat.le_refl _, fun _ => ⟨rfl, _, key hr (by omega), Nat.le_refl _⟩⟩, hl.findable (by omega), hr.findable (by omega)⟩

end MMR

namespace MB
variable {K V : Type} [DecidableEq K] {C : MBClass K V}

theorem getItem_inner {p : List Bool} {l r : MB K V} {k : K} {v : V} (h : (MB.inner p l r).getItem C k = .ok v) :
    (p ++ [false] <+: C.key2prefix k ∧ l.getItem C k = .ok v) ∨ (p ++ [true] <+: C.key2prefix k ∧ r.getItem C k = .ok v) := by
  rw [getItem, descend] at h
  by_cases hp : p.length ≤ (C.key2prefix k).length ∧ p.isPrefixOf (C.key2prefix k)
  · rw [if_pos hp] at h
    obtain ⟨q, hq⟩ := List.isPrefixOf_iff_prefix.mp hp.2
    rw [← hq] at h
    rw [← hq]
    cases q with
    | nil => simp at h; cases h
    | cons x q =>
      rw [List.getElem?_append_right (Nat.le_refl _), Nat.sub_self, List.getElem?_cons_zero] at h
      obtain ⟨y, hy, h⟩ := Except.bind_eq_ok h
      cases x with
      | false =>
        obtain ⟨z, hz, hy⟩ := Except.bind_eq_ok hy
        cases hy
        refine .inl ⟨⟨q, by simp⟩, ?_⟩
        rw [getItem, ← hq, hz, Except.bind_ok]
        exact h
      | true =>
        obtain ⟨z, hz, hy⟩ := Except.bind_eq_ok hy
        cases hy
        refine .inr ⟨⟨q, by simp⟩, ?_⟩
        rw [getItem, ← hq, hz, Except.bind_ok]
        exact h
  · rw [if_neg hp] at h
    cases h

theorem getItem_inner_of {p : List Bool} {l r : MB K V} {k : K} (x : Bool) (h : p ++ [x] <+: C.key2prefix k) :
    (MB.inner p l r).getItem C k = (if x then r else l).getItem C k := by
  obtain ⟨q, hq⟩ := h
  rw [getItem, descend, ← hq, if_pos ⟨by simp, by simp⟩]
  simp only [List.append_assoc, List.cons_append, List.nil_append]
  rw [List.getElem?_append_right (Nat.le_refl _), Nat.sub_self, List.getElem?_cons_zero]
  cases x
  · rw [show (if false = true then r else l) = l from rfl]
    simp only [getItem, ← hq, List.append_assoc, List.cons_append, List.nil_append]
    rcases l.descend (p ++ false :: q) with e | ⟨c, s⟩ <;> rfl
  · rw [show (if true = true then r else l) = r from rfl]
    simp only [getItem, ← hq, List.append_assoc, List.cons_append, List.nil_append]
    rcases r.descend (p ++ true :: q) with e | ⟨c, s⟩ <;> rfl

/-- What is looked up is there. -/
theorem getItem_mem : ∀ {t : MB K V} {k : K} {v : V}, t.getItem C k = .ok v → (k, v) ∈ t.pairs
  | .empty, _, _, h => by cases h
  | .leaf k' v', k, v, h => by
    rw [getItem, descend] at h
    simp only [Except.bind_ok] at h
    split at h
    · next e => cases h; simp [pairs, e]
    · cases h
  | .inner p l r, k, v, h => by
    rw [pairs, List.mem_append]
    rcases getItem_inner h with ⟨_, h⟩ | ⟨_, h⟩
    · exact .inl (getItem_mem h)
    · exact .inr (getItem_mem h)

theorem Findable.found : ∀ {t : MB K V}, t.Findable C → ∀ kv ∈ t.pairs, t.getItem C kv.1 = .ok kv.2
  | .empty, _, _, h => by simp [pairs] at h
  | .leaf k v, _, kv, h => by
    cases List.mem_singleton.mp h
    simp [getItem, descend, Except.bind_ok, pure, Except.pure]
  | .inner p l r, ⟨h1, h2, hl, hr⟩, kv, h => by
    rcases List.mem_append.mp h with h | h
    · rw [getItem_inner_of false (h1 kv h)]
      exact hl.found kv h
    · rw [getItem_inner_of true (h2 kv h)]
      exact hr.found kv h

theorem Findable.nodup : ∀ {t : MB K V}, t.Findable C → (t.pairs.map (·.1)).Nodup
  | .empty, _ => by simp [pairs]
  | .leaf _ _, _ => by simp [pairs]
  | .inner p l r, ⟨h1, h2, hl, hr⟩ => by
    rw [pairs, List.map_append]
    refine List.nodup_append.mpr ⟨hl.nodup, hr.nodup, ?_⟩
    rintro k hk k' hk' rfl
    obtain ⟨kv, m1, rfl⟩ := List.mem_map.mp hk
    obtain ⟨kv', m2, e⟩ := List.mem_map.mp hk'
    have e1 := h1 kv m1
    have e2 := h2 kv' m2
    rw [e] at e2
    have := (List.prefix_of_prefix_length_le e1 e2 (by simp)).eq_of_length (by simp)
    simp at this

theorem findable_of : ∀ {t : MB K V}, (t.pairs.map (·.1)).Nodup → (∀ kv ∈ t.pairs, t.getItem C kv.1 = .ok kv.2) → t.Findable C
  | .empty, _, _ => trivial
  | .leaf _ _, _, _ => trivial
  | .inner p l r, hn, h => by
    rw [pairs, List.map_append] at hn
    obtain ⟨nl, nr, hd⟩ := List.nodup_append.mp hn
    have hl : ∀ kv ∈ l.pairs, p ++ [false] <+: C.key2prefix kv.1 ∧ l.getItem C kv.1 = .ok kv.2 := by
      intro kv hkv
      rcases getItem_inner (h kv (List.mem_append_left _ hkv)) with h | ⟨_, h⟩
      · exact h
      · exact absurd rfl (hd _ (List.mem_map_of_mem hkv) _ (List.mem_map_of_mem (getItem_mem h)))
    have hr : ∀ kv ∈ r.pairs, p ++ [true] <+: C.key2prefix kv.1 ∧ r.getItem C kv.1 = .ok kv.2 := by
      intro kv hkv
      rcases getItem_inner (h kv (List.mem_append_right _ hkv)) with ⟨_, h⟩ | h
      · exact absurd rfl (hd _ (List.mem_map_of_mem (getItem_mem h)) _ (List.mem_map_of_mem hkv))
      · exact h
    exact ⟨fun kv m => (hl kv m).1, fun kv m => (hr kv m).1, findable_of nl fun kv m => (hl kv m).2, findable_of nr fun kv m => (hr kv m).2⟩

end MB
end Verif
