import Verif.Lemmas.MMR
import Verif.Spec.Hash
import Mathlib.Data.Nat.Log
import Mathlib.Tactic.Linarith
/-! Merkle mountain ranges: appending, the documented construction, indexing, slicing, depth. -/
namespace Verif
namespace MMR
variable {α : Type}

/-- Empty, or a row of mountains. -/
def Good (t : MMR α) : Prop := t = .empty ∨ ∃ h, Range h t

theorem Good.pyLen {t : MMR α} (h : Good t) : t.len = Verif.pyLen t.items.length := by
  rcases h with rfl | ⟨h, h'⟩
  · rfl
  · exact h'.pyLen

theorem Range.zero_cases {t : MMR α} (h : Range 0 t) :
    (∃ v, t = .leaf v) ∨ ∃ h' l v, Range h' l ∧ 0 < h' ∧ t = .inner l (.leaf v) (l.items.length + 1) := by
  cases h with
  | peak p => cases p; exact .inl ⟨_, rfl⟩
  | more h1 h2 h3 => cases h2; exact .inr ⟨_, _, _, h1, h3, rfl⟩

theorem Range.parity {h : Nat} {t : MMR α} (p : Range h t) : t.items.length &&& 1 = if h = 0 then 1 else 0 := by
  obtain ⟨q, hq⟩ := p.odd
  have := and_two_pow_odd h q 0 (by omega)
  rw [hq]
  rw [Nat.pow_zero] at this
  rw [this]
  by_cases h0 : h = 0
  · subst h0; simp
  · rw [if_neg (fun h => h0 h.symm), if_neg h0]

theorem mkLeaves (w v : α) : mkInner (leaf w) (leaf v) = .ok (.inner (.leaf w) (.leaf v) 2) := by
  have := mkInner_ok (l := .leaf w) (r := .leaf v) (pyLen_ok (n := 1) (by omega)).symm (pyLen_ok (n := 1) (by omega)).symm
  simp only [items, List.length_singleton] at this
  exact this (by omega)

theorem append_spec (VS : ValueSer α) {t : MMR α} {v : α} (ht : Good t) (hv : VS.check v = .ok ())
    (hb : t.items.length + 1 < 2 ^ 63) :
    ∃ t', t.append VS v = .ok t' ∧ Good t' ∧ t'.items = t.items ++ [v] ∧
      (∀ s, Subtree s t → IsPow2 s.items.length → Subtree s t') := by
  have hleaf : mkLeaf VS v = .ok (.leaf v) := by unfold mkLeaf; rw [hv]; rfl
  rcases ht with rfl | ⟨h, hR⟩
  · refine ⟨.leaf v, hleaf, .inr ⟨0, .peak (.leaf v)⟩, rfl, ?_⟩
    intro s hs hp
    cases hs
    obtain ⟨e, he⟩ := hp
    have : 0 < 2 ^ e := by positivity
    simp only [items, List.length_nil] at he
    omega
  · rcases Nat.eq_zero_or_pos h with rfl | hpos
    · rcases hR.zero_cases with ⟨w, rfl⟩ | ⟨h', l, w, h1, h2, rfl⟩
      · refine ⟨.inner (.leaf w) (.leaf v) 2, ?_, .inr ⟨1, .peak (.inner (.leaf w) (.leaf v))⟩, rfl, fun s hs _ => .left hs⟩
        unfold append
        rw [hleaf, Except.bind_ok, mkLeaves]
      · have hl := hR.pyLen
        have hpar := hR.parity
        rw [pyLen_ok (by omega)] at hl
        have hit : (MMR.inner l (.leaf w) (l.items.length + 1)).items.length = l.items.length + 1 := by
          simp [items]
        rw [hit] at hb hl hpar
        have hP : Perfect 1 (.inner (.leaf w) (.leaf v) 2) := .inner (.leaf w) (.leaf v)
        have hr : (MMR.leaf w).append VS v = .ok (.inner (.leaf w) (.leaf v) 2) := by
          unfold append
          rw [hleaf, Except.bind_ok, mkLeaves]
        obtain ⟨t, k, ht, hR', hi, hs1, hs2⟩ := h1.merge hP (by omega) (by omega) (by simp only [items, List.length_append, List.length_singleton]; omega)
        refine ⟨t, ?_, .inr ⟨k, hR'⟩, ?_, ?_⟩
        · unfold append
          simp only [len] at hl
          rw [hl]
          simp only [Except.bind_ok]
          rw [hpar, if_neg (by decide), hr]
          exact ht
        · rw [hi]; simp [items]
        · intro s hs hp
          cases hs with
          | refl => exact absurd hp (more_not_pow2 (l := l) (r := .leaf w) hR (.leaf w) h1)
          | left hs => exact hs1 s hs hp
          | right hs => exact hs2.trans (.left hs)
    · have hl := hR.pyLen
      have hpar := hR.parity
      have hmk := mkInner_ok (l := t) (r := .leaf v) hR.pyLen rfl (by simpa [items] using hb)
      rw [pyLen_ok (by omega)] at hl
      refine ⟨_, ?_, .inr ⟨0, .more hR (.leaf v) hpos⟩, rfl, fun s hs _ => .left hs⟩
      cases t with
      | empty => exact absurd hR.pos (by simp [items])
      | leaf w =>
        exfalso
        obtain ⟨q, hq⟩ := hR.odd
        have := hR.ge
        simp only [items, List.length_singleton] at this
        have : 2 ^ 1 ≤ 2 ^ h := Nat.pow_le_pow_right (by omega) hpos
        omega
      | inner l r n =>
        unfold append
        simp only [len] at hl
        rw [hl]
        simp only [Except.bind_ok]
        rw [hpar, if_neg (by omega : ¬ h = 0), if_pos rfl, hleaf]
        exact hmk

theorem extend_spec (VS : ValueSer α) {t : MMR α} {vs : List α} (ht : Good t) (hv : ∀ v ∈ vs, VS.check v = .ok ())
    (hb : t.items.length + vs.length < 2 ^ 63) :
    ∃ t', t.extend VS vs = .ok t' ∧ Good t' ∧ t'.items = t.items ++ vs := by
  induction vs generalizing t with
  | nil => exact ⟨t, rfl, ht, by simp⟩
  | cons v vs ih =>
    rw [List.length_cons] at hb
    obtain ⟨t1, h1, h2, h3, _⟩ := append_spec VS ht (hv v (by simp)) (by omega)
    obtain ⟨t2, h4, h5, h6⟩ := ih h2 (fun w hw => hv w (by simp [hw])) (by rw [h3]; simp; omega)
    refine ⟨t2, ?_, h5, by rw [h6, h3]; simp⟩
    unfold extend
    rw [h1]
    exact h4

theorem reversed_eq (t : MMR α) : t.reversed = t.items.reverse := by
  induction t with
  | empty => rfl
  | leaf => rfl
  | inner l r n ih1 ih2 => simp [reversed, items, ih1, ih2]

/-! ### The documented construction -/

theorem and_eq_testBit {n e : Nat} : n &&& 2 ^ e = 2 ^ e ↔ n.testBit e = true := by
  rw [Nat.and_two_pow]
  have : 0 < 2 ^ e := by positivity
  cases n.testBit e
  · simp; omega
  · simp

theorem IsSplit.unique {n k k' : Nat} (h : IsSplit n k) (h' : IsSplit n k') : k = k' := by
  rcases h with ⟨h1, h2, h3, h4⟩ | ⟨h1, h2⟩ <;> rcases h' with ⟨g1, g2, g3, g4⟩ | ⟨g1, g2⟩
  · exact Nat.le_antisymm (h4 _ g1 g2 g3) (g4 _ h1 h2 h3)
  · exact absurd ⟨k, h1, h2, h3⟩ g1
  · exact absurd ⟨k', g1, g2, g3⟩ h1
  · omega

theorem split_perfect (h : Nat) : IsSplit (2 ^ (h + 1)) (2 ^ h) := by
  refine .inr ⟨?_, by rw [Nat.pow_succ]; omega⟩
  rintro ⟨_, ⟨e, rfl⟩, h1, h2⟩
  rw [and_eq_testBit, Nat.testBit_two_pow] at h2
  have : h + 1 = e := by simpa using h2
  subst this
  omega

theorem split_more {h q : Nat} (hq : 0 < q) : IsSplit (2 ^ h * (2 * q + 1)) (2 ^ h) := by
  refine .inl ⟨⟨h, rfl⟩, ?_, ?_, ?_⟩
  · have : 0 < 2 ^ h := by positivity
    nlinarith
  · rw [and_two_pow_odd h q h (Nat.le_refl _), if_pos rfl]
  · rintro _ ⟨e, rfl⟩ h1 h2
    by_contra hc
    have he : e < h := by
      by_contra hc'
      exact hc (Nat.pow_le_pow_right (by omega) (by omega))
    rw [and_eq_testBit, testBit_odd h q e (by omega)] at h2
    have : e = h := by simpa using h2
    omega

theorem Perfect.isMMR {h : Nat} {t : MMR α} (p : Perfect h t) : IsMMR t.items t := by
  induction p with
  | leaf v => exact .leaf v
  | @inner h l r p1 p2 ih1 ih2 =>
    have hlen : (l.items ++ r.items).length = 2 ^ (h + 1) := (Perfect.inner p1 p2).length
    have := IsMMR.inner (xs := l.items) (ys := r.items) (l := l) (r := r) ?_ ?_ ih1 ih2
    · rw [hlen] at this; exact this
    · rw [hlen, Nat.pow_succ]
      have : 0 < 2 ^ h := by positivity
      omega
    · rw [hlen, p2.length]; exact split_perfect h

theorem Range.isMMR {h : Nat} {t : MMR α} (p : Range h t) : IsMMR t.items t := by
  induction p with
  | peak p => exact p.isMMR
  | @more h h' l r p1 p2 hlt ih =>
    have hm : Range h (.inner l r (l.items.length + r.items.length)) := .more p1 p2 hlt
    obtain ⟨q, hq⟩ := hm.odd
    have hlen : (l.items ++ r.items).length = l.items.length + r.items.length := by simp
    have h1 := p1.pos
    have h2 := p2.length
    have := IsMMR.inner (xs := l.items) (ys := r.items) (l := l) (r := r) ?_ ?_ ih p2.isMMR
    · rw [hlen] at this; exact this
    · have : 0 < 2 ^ h := by positivity
      omega
    · rw [p2.length]
      change IsSplit (MMR.inner l r (l.items.length + r.items.length)).items.length _
      rw [hq]
      apply split_more
      rcases Nat.eq_zero_or_pos q with rfl | h0
      · rw [items, List.length_append] at hq; omega
      · exact h0

theorem Good.isMMR {t : MMR α} (h : Good t) : IsMMR t.items t := by
  rcases h with rfl | ⟨h, h'⟩
  · exact .empty
  · exact h'.isMMR

theorem _root_.Verif.IsMMR.items_eq {xs : List α} {t : MMR α} (h : IsMMR xs t) : t.items = xs := by
  induction h with
  | empty => rfl
  | leaf => rfl
  | inner _ _ _ _ ih1 ih2 => rw [items, ih1, ih2]

theorem Range.perfect {h : Nat} {t : MMR α} (p : Range h t) (hp : IsPow2 t.items.length) : Perfect h t := by
  cases p with
  | peak p => exact p
  | more p1 p2 hlt => exact absurd hp (more_not_pow2 (.more p1 p2 hlt) p2 p1)

theorem Range.perfect' {h e : Nat} {t : MMR α} (p : Range h t) (hp : t.items.length = 2 ^ e) : Perfect e t := by
  have := p.perfect ⟨e, hp⟩
  have h2 := this.length
  rw [hp] at h2
  rw [Nat.pow_right_injective (Nat.le_refl 2) h2]
  exact this

theorem _root_.Verif.IsMMR.good {xs : List α} {t : MMR α} (h : IsMMR xs t) : Good t := by
  induction h with
  | empty => exact .inl rfl
  | leaf v => exact .inr ⟨0, .peak (.leaf v)⟩
  | @inner xs ys l r hn hs hl hr ih1 ih2 =>
    have e1 := hl.items_eq
    have e2 := hr.items_eq
    have hlen : (xs ++ ys).length = xs.length + ys.length := List.length_append
    rcases hs with ⟨⟨e, he⟩, h1, h2, h3⟩ | ⟨h1, h2⟩
    · have hpos : 0 < 2 ^ e := by positivity
      rcases ih2 with rfl | ⟨k, hk⟩
      · rw [← e2] at he; simp [items] at he; omega
      rcases ih1 with rfl | ⟨k', hk'⟩
      · rw [← e1] at hlen h1; simp [items] at h1
      have hP := hk.perfect' (e2 ▸ he)
      have : e < k' := by
        obtain ⟨q, hq⟩ := hk'.odd
        rw [e1] at hq
        rw [he, and_eq_testBit] at h2
        by_contra hc
        rcases Nat.lt_or_eq_of_le (Nat.le_of_not_lt hc) with hlt | heq
        · have hb : (xs ++ ys).length.testBit k' = true := by
            rw [hlen, hq, he]
            obtain ⟨d, rfl⟩ := Nat.exists_eq_add_of_lt hlt
            have : 2 ^ k' * (2 * q + 1) + 2 ^ (k' + d + 1) = 2 ^ k' * (2 * (q + 2 ^ d) + 1) := by
              rw [Nat.pow_succ, Nat.pow_add]; ring
            rw [this, testBit_odd _ _ _ (Nat.le_refl _)]; simp
          have hk2 : 2 ^ k' < (xs ++ ys).length := by
            have := hk'.ge
            rw [e1] at this
            omega
          have := h3 (2 ^ k') ⟨k', rfl⟩ hk2 (and_eq_testBit.mpr hb)
          rw [he] at this
          have := (Nat.pow_le_pow_iff_right (by omega : 1 < 2)).mp this
          omega
        · subst heq
          rw [hlen, hq, he] at h2
          have : 2 ^ k' * (2 * q + 1) + 2 ^ k' = 2 ^ (k' + 1) * (q + 1) := by rw [Nat.pow_succ]; ring
          rw [this, Nat.testBit_two_pow_mul] at h2
          simp at h2
      have := Range.more hk' hP this
      rw [e1, e2] at this
      rw [hlen]
      exact .inr ⟨_, this⟩
    · -- no smaller power of two inside the length: it is a power of two
      have hx : xs.length = ys.length ∨ xs.length = ys.length + 1 := by omega
      rcases ih2 with rfl | ⟨k, hk⟩
      · rw [← e2] at hx h2 hlen; simp only [items, List.length_nil, List.append_nil] at hx h2 hlen hn
        rw [← e2] at hn; simp only [items, List.append_nil] at hn; omega
      rcases ih1 with rfl | ⟨k', hk'⟩
      · rw [← e1] at hx
        have := hk.pos
        rw [e2] at this
        simp [items] at hx; omega
      have hlow : ∀ e, (xs ++ ys).length.testBit e = true → (xs ++ ys).length ≤ 2 ^ e := by
        intro e he
        by_contra hc
        exact h1 ⟨2 ^ e, ⟨e, rfl⟩, by omega, and_eq_testBit.mpr he⟩
      obtain ⟨e, he⟩ := Nat.exists_testBit_of_ne_zero (by omega : (xs ++ ys).length ≠ 0)
      have hn2 : (xs ++ ys).length = 2 ^ e := by
        have := Nat.ge_two_pow_of_testBit he
        have := hlow e he
        omega
      cases e with
      | zero => omega
      | succ e =>
        have hy : ys.length = 2 ^ e := by rw [h2, hn2, Nat.pow_succ]; omega
        have hx : xs.length = 2 ^ e := by rw [hlen, Nat.pow_succ] at hn2; omega
        rw [hn2]
        exact .inr ⟨_, .peak (.inner (hk'.perfect' (e1 ▸ hx)) (hk.perfect' (e2 ▸ hy)))⟩

theorem _root_.Verif.IsMMR.unique {xs : List α} {t u : MMR α} (h : IsMMR xs t) (h' : IsMMR xs u) : t = u := by
  induction h generalizing u with
  | empty =>
    generalize hx : ([] : List α) = zs at h'
    cases h' with
    | empty => rfl
    | leaf => cases hx
    | inner h1 => rw [← hx] at h1; simp at h1
  | leaf v =>
    generalize hx : [v] = zs at h'
    cases h' with
    | empty => cases hx
    | leaf => cases hx; rfl
    | inner h1 => rw [← hx] at h1; simp at h1
  | @inner xs ys l r hn hs hl hr ih1 ih2 =>
    generalize hx : xs ++ ys = zs at h'
    cases h' with
    | empty => rw [hx] at hn; simp at hn
    | leaf => rw [hx] at hn; simp at hn
    | @inner xs' ys' l' r' hn' hs' hl' hr' =>
      rw [hx] at hs
      have hk := IsSplit.unique hs hs'
      have := congrArg List.length hx
      simp only [List.length_append] at this
      obtain ⟨rfl, rfl⟩ := List.append_inj hx (by omega)
      rw [ih1 hl', ih2 hr']

/-! ### Depth -/

theorem Perfect.depth {h : Nat} {t : MMR α} (p : Perfect h t) : t.depth = h := by
  induction p with
  | leaf => rfl
  | inner _ _ ih1 ih2 => rw [MMR.depth, ih1, ih2]; omega

theorem Range.depth {h : Nat} {t : MMR α} (p : Range h t) : t.depth + h ≤ 2 * Nat.log 2 t.items.length := by
  induction p with
  | peak p => rw [p.depth, p.length, Nat.log_pow (by omega)]; omega
  | @more h h' l r p1 p2 hlt ih =>
    have h1 : Nat.log 2 l.items.length ≤ Nat.log 2 (MMR.inner l r (l.items.length + r.items.length)).items.length := by
      apply Nat.log_mono_right
      rw [items, List.length_append]; omega
    have h2 : h' ≤ Nat.log 2 l.items.length := Nat.le_log_of_pow_le (by omega) p1.ge
    rw [MMR.depth, p2.depth]
    omega

theorem Good.depth {t : MMR α} (p : Good t) : t.depth ≤ 2 * Nat.log 2 t.items.length := by
  rcases p with rfl | ⟨h, p⟩
  · simp [MMR.depth]
  · have := p.depth; omega

/-! ### Indexing -/

theorem pyGetItem_neg {α} (xs : List α) (i : Int) (h : i < 0) : pyGetItem xs i = if i + xs.length < 0 then .error .indexError else pyGetItem xs (i + xs.length) := by
  unfold pyGetItem
  simp only [if_pos h]
  split
  · rfl
  · rfl

theorem pyGetItem_nat {α} (xs : List α) (i : Nat) : pyGetItem xs i = match xs[i]? with
    | some a => .ok a
    | none => .error .indexError := by
  unfold pyGetItem
  have h : ¬ ((i : Int) < 0) := by omega
  simp only [if_neg h, Int.toNat_natCast]
  rfl

theorem Good.left {l r : MMR α} {n : Nat} (h : Good (.inner l r n)) : Good l ∧ Good r ∧ n = l.items.length + r.items.length := by
  rcases h with h | ⟨h, p⟩
  · cases h
  · cases p with
    | peak p =>
      cases p with
      | inner p1 p2 => exact ⟨.inr ⟨_, .peak p1⟩, .inr ⟨_, .peak p2⟩, by rw [p1.length, p2.length, Nat.pow_succ]; omega⟩
    | more p1 p2 hlt => exact ⟨.inr ⟨_, p1⟩, .inr ⟨_, .peak p2⟩, rfl⟩

theorem getItem_spec {t : MMR α} (ht : Good t) (hb : t.items.length < 2 ^ 63) (i : Int) :
    t.getItem i = pyGetItem t.items i := by
  induction t generalizing i with
  | empty =>
    unfold getItem pyGetItem items
    simp only [List.getElem?_nil, ite_self]
  | leaf v =>
    unfold getItem items
    by_cases h : i = 0 ∨ i = -1
    · rw [if_pos h]; rcases h with rfl | rfl <;> rfl
    · rw [if_neg h]
      by_cases hi : i < 0
      · rw [pyGetItem_neg _ _ hi, if_pos (by simp only [List.length_singleton]; omega)]
      · obtain ⟨j, rfl⟩ := Int.eq_ofNat_of_zero_le (by omega : 0 ≤ i)
        rw [pyGetItem_nat, List.getElem?_eq_none (by simp only [List.length_singleton]; omega)]
  | inner l r n ih1 ih2 =>
    obtain ⟨g1, g2, rfl⟩ := ht.left
    have hit : (MMR.inner l r (l.items.length + r.items.length)).items.length = l.items.length + r.items.length := by
      rw [items, List.length_append]
    rw [hit] at hb
    have ih1 := ih1 g1 (by omega)
    have ih2 := ih2 g2 (by omega)
    unfold getItem
    rw [pyLen_ok hb, g1.pyLen, g2.pyLen, pyLen_ok (by omega), pyLen_ok (by omega)]
    simp only [Except.bind_ok]
    have key : ∀ j : Int, (if ¬(0 ≤ j ∧ j < ((l.items.length + r.items.length : Nat) : Int)) then (Except.error PyErr.indexError : Py α)
        else if 0 ≤ j ∧ j < (l.items.length : Int) then l.getItem j
        else if (l.items.length : Int) ≤ j ∧ j < (l.items.length : Int) + r.items.length then r.getItem (j - l.items.length)
        else .error .assertion) = if j < 0 then .error .indexError else pyGetItem (l.items ++ r.items) j := by
      intro j
      by_cases hj : j < 0
      · rw [if_pos (by omega), if_pos hj]
      · obtain ⟨j, rfl⟩ := Int.eq_ofNat_of_zero_le (by omega : 0 ≤ j)
        rw [if_neg hj, pyGetItem_nat, List.getElem?_append]
        by_cases h1 : j < l.items.length
        · rw [if_neg (by omega), if_pos (by omega), ih1, pyGetItem_nat, if_pos h1]
        · rw [if_neg h1]
          by_cases h2 : j < l.items.length + r.items.length
          · rw [if_neg (by omega), if_neg (by omega), if_pos (by omega), ih2,
              show (j : Int) - l.items.length = ((j - l.items.length : Nat) : Int) by omega, pyGetItem_nat]
          · rw [if_pos (by omega), List.getElem?_eq_none (by omega)]
    rw [key]
    by_cases hi : i < 0
    · rw [if_pos hi, items, pyGetItem_neg _ _ hi, List.length_append, Int.add_comm]
    · rw [if_neg hi, if_neg hi, items]

/-! ### Slicing -/

theorem indices_some {a b : Int} {n : Nat} (ha : 0 ≤ a) (hb : 0 ≤ b) :
    PySlice.indices ⟨some a, some b, some 1⟩ n = .ok (min a n, min b n, 1) := by
  unfold PySlice.indices
  simp only [Option.getD_some]
  rw [if_neg (by omega)]
  simp only [show ¬ ((1 : Int) < 0) by omega, if_false, show ¬ (a < 0) by omega, show ¬ (b < 0) by omega]
  congr 2
  · split <;> omega
  · congr 1
    split <;> omega

theorem getSlice_spec (VS : ValueSer α) {t : MMR α} (ht : Good t) (hb : t.items.length < 2 ^ 63)
    (hv : ∀ v ∈ t.items, VS.check v = .ok ()) {s : PySlice} {a b : Int}
    (hs : s.indices t.items.length = .ok (a, b, 1)) (hab : a ≤ b) :
    ∃ t', t.getSlice VS s = .ok t' ∧ Good t' ∧ t'.items = (t.items.take b.toNat).drop a.toNat := by
  induction t generalizing s a b with
  | empty =>
    refine ⟨.empty, ?_, .inl rfl, by simp [items]⟩
    unfold getSlice
    simp only [items, List.length_nil] at hs
    rw [hs]; rfl
  | leaf v =>
    simp only [items, List.length_singleton] at hs
    obtain ⟨h1, h2, h3, h4, _⟩ := indices_step1 hs
    unfold getSlice
    rw [hs]
    simp only [Except.bind_ok, ne_eq, not_true_eq_false, if_false]
    by_cases hc : a ≤ 0 ∧ b ≥ 1
    · rw [if_pos hc]
      have ea : a = 0 := by omega
      have eb : b = 1 := by omega
      subst ea eb
      exact ⟨_, rfl, ht, rfl⟩
    · rw [if_neg hc]
      refine ⟨_, rfl, .inl rfl, ?_⟩
      have : a = b := by omega
      subst this
      have : a = 0 ∨ a = 1 := by omega
      rcases this with rfl | rfl <;> rfl
  | inner l r n ih1 ih2 =>
    obtain ⟨g1, g2, rfl⟩ := ht.left
    have hit : (MMR.inner l r (l.items.length + r.items.length)).items.length = l.items.length + r.items.length := by
      rw [items, List.length_append]
    rw [hit] at hb hs
    rw [items] at hv ⊢
    have ih1 := @ih1 g1 (by omega) (fun v h => hv v (by simp [h]))
    have ih2 := @ih2 g2 (by omega) (fun v h => hv v (by simp [h]))
    obtain ⟨h1, h2, h3, h4, _⟩ := indices_step1 hs
    unfold getSlice
    rw [pyLen_ok hb, g1.pyLen, pyLen_ok (by omega)]
    simp only [Except.bind_ok]
    rw [hs]
    simp only [Except.bind_ok, ne_eq, not_true_eq_false, if_false]
    obtain ⟨a, rfl⟩ := Int.eq_ofNat_of_zero_le h1
    obtain ⟨b, rfl⟩ := Int.eq_ofNat_of_zero_le h3
    simp only [Int.toNat_natCast]
    by_cases hc : (a : Int) ≤ 0 ∧ (b : Int) ≥ ((l.items.length + r.items.length : Nat) : Int)
    · rw [if_pos hc]
      refine ⟨_, rfl, ht, ?_⟩
      have : a = 0 := by omega
      subst this
      rw [List.take_of_length_le (by simp; omega)]
      rfl
    · rw [if_neg hc]
      by_cases ha : (a : Int) < l.items.length
      · rw [if_pos ha]
        obtain ⟨x, hx, gx, ix⟩ := ih1 (indices_some (a := a) (b := b) (by omega) (by omega)) (by omega)
        rw [hx]
        simp only [Except.bind_ok]
        by_cases hbl : (b : Int) > l.items.length
        · rw [if_pos hbl]
          obtain ⟨y, hy, gy, iy⟩ := ih2 (indices_some (a := 0) (b := (b : Int) - l.items.length) (by omega) (by omega)) (by omega)
          rw [hy]
          simp only [Except.bind_ok]
          have ea : (min (a : Int) l.items.length).toNat = a := by omega
          have eb : (min (b : Int) l.items.length).toNat = l.items.length := by omega
          rw [ea, eb, List.take_length] at ix
          have ec : (min (0 : Int) r.items.length).toNat = 0 := by omega
          have ed : (min ((b : Int) - l.items.length) r.items.length).toNat = b - l.items.length := by omega
          rw [ec, ed, List.drop_zero] at iy
          obtain ⟨z, hz, gz, iz⟩ := extend_spec VS gx (vs := y.items) (fun v h => by
              rw [iy] at h; exact hv v (by simp [List.mem_of_mem_take h])) (by rw [ix, iy]; simp; omega)
          refine ⟨z, hz, gz, ?_⟩
          rw [iz, ix, iy, List.take_append, List.take_of_length_le (by omega : l.items.length ≤ b),
            List.drop_append_of_le_length (by omega)]
        · rw [if_neg hbl]
          refine ⟨x, rfl, gx, ?_⟩
          rw [ix, List.take_append_of_le_length (by omega)]
          congr 1
          · omega
          · congr 1; omega
      · rw [if_neg ha]
        by_cases hc2 : (a : Int) ≥ l.items.length ∧ (a : Int) < ((l.items.length + r.items.length : Nat) : Int)
        · rw [if_pos hc2]
          obtain ⟨y, hy, gy, iy⟩ := ih2 (indices_some (a := (a : Int) - l.items.length) (b := (b : Int) - l.items.length) (by omega) (by omega)) (by omega)
          refine ⟨y, hy, gy, ?_⟩
          rw [iy, List.take_append, List.take_of_length_le (by omega : l.items.length ≤ b), List.drop_append,
            List.drop_eq_nil_of_le (by omega : l.items.length ≤ a), List.nil_append]
          congr 1
          · omega
          · congr 1; omega
        · rw [if_neg hc2]
          refine ⟨_, rfl, .inl rfl, ?_⟩
          rw [List.drop_eq_nil_of_le]
          · rfl
          · simp; omega

theorem indices_neg {a b : Int} {n : Nat} (ha : 0 ≤ a) (hb : b < 0) :
    PySlice.indices ⟨some a, some b, some 1⟩ n = .ok (min a n, max (b + n) 0, 1) := by
  unfold PySlice.indices
  simp only [Option.getD_some]
  rw [if_neg (by omega)]
  simp only [show ¬ ((1 : Int) < 0) by omega, if_false, show ¬ (a < 0) by omega, hb, if_true]
  congr 2
  · split <;> omega
  · congr 1
    split <;> omega

theorem Good.split {l r : MMR α} {n : Nat} (h : Good (.inner l r n)) : 1 < n ∧ IsSplit n r.items.length := by
  obtain ⟨_, _, hn⟩ := h.left
  have := h.isMMR
  generalize hx : (MMR.inner l r n).items = xs at this
  cases this with
  | @inner xs ys _ _ h1 h2 h3 h4 => rw [h4.items_eq]; exact ⟨h1, h2⟩

/-- Every slice with step 1. -/
theorem getSlice_any (VS : ValueSer α) {t : MMR α} (ht : Good t) (hb : t.items.length < 2 ^ 63)
    (hv : ∀ v ∈ t.items, VS.check v = .ok ()) {s : PySlice} {a b : Nat}
    (hs : s.indices t.items.length = .ok ((a : Int), (b : Int), 1)) :
    ∃ t' e, t.getSlice VS s = .ok t' ∧ Good t' ∧ SliceEnd t.items.length a b e ∧ e ≤ t.items.length ∧ t'.items = (t.items.take e).drop a := by
  by_cases hab : a ≤ b
  · obtain ⟨t', h1, h2, h3⟩ := getSlice_spec VS ht hb hv hs (by omega)
    have := indices_step1 hs
    exact ⟨t', b, h1, h2, .forward hab, by omega, h3⟩
  · induction t generalizing s a b with
    | empty =>
      obtain ⟨h1, h2, h3, h4, _⟩ := indices_step1 hs
      simp only [items, List.length_nil] at h2 h4
      omega
    | leaf v =>
      simp only [items, List.length_singleton] at hs
      obtain ⟨h1, h2, h3, h4, _⟩ := indices_step1 hs
      refine ⟨.empty, a, ?_, .inl rfl, .nothing (by omega) (.inl (Nat.le_refl 1)), by simp only [items, List.length_singleton]; omega, by simp [items]⟩
      unfold getSlice
      rw [hs]
      simp only [Except.bind_ok, ne_eq, not_true_eq_false, if_false]
      rw [if_neg (by omega)]
      rfl
    | inner l r n ih1 ih2 =>
      obtain ⟨hn, hk⟩ := ht.split
      obtain ⟨g1, g2, rfl⟩ := ht.left
      have hit : (MMR.inner l r (l.items.length + r.items.length)).items.length = l.items.length + r.items.length := by
        rw [items, List.length_append]
      rw [hit] at hb hs ⊢
      rw [items] at hv ⊢
      have ih1 := @ih1 g1 (by omega) (fun v h => hv v (by simp [h]))
      have ih2 := @ih2 g2 (by omega) (fun v h => hv v (by simp [h]))
      obtain ⟨h1, h2, h3, h4, _⟩ := indices_step1 hs
      unfold getSlice
      rw [pyLen_ok hb, g1.pyLen, pyLen_ok (by omega)]
      simp only [Except.bind_ok]
      rw [hs]
      simp only [Except.bind_ok, ne_eq, not_true_eq_false, if_false]
      rw [if_neg (by omega)]
      have hL : l.items.length + r.items.length - r.items.length = l.items.length := by omega
      by_cases ha : (a : Int) < l.items.length
      · rw [if_pos ha]
        have hi := indices_some (a := a) (b := b) (n := l.items.length) (by omega) (by omega)
        rw [show min (a : Int) l.items.length = (a : Int) by omega, show min (b : Int) l.items.length = (b : Int) by omega] at hi
        obtain ⟨x, e, hx, gx, sx, le, ix⟩ := ih1 hi hab
        rw [hx]
        simp only [Except.bind_ok]
        rw [if_neg (by omega)]
        refine ⟨x, e, rfl, gx, .left (by omega) hn hk (by omega) (by rw [hL]; exact sx), by omega, ?_⟩
        rw [ix, List.take_append_of_le_length le]
      · rw [if_neg ha]
        by_cases hc : a < l.items.length + r.items.length
        · rw [if_pos ⟨by omega, by omega⟩]
          obtain ⟨b', hb', hi⟩ : ∃ b' : Nat, b' = (if l.items.length ≤ b then b - l.items.length else b + r.items.length - l.items.length) ∧
              PySlice.indices ⟨some ((a : Int) - l.items.length), some ((b : Int) - l.items.length), some 1⟩ r.items.length = .ok (((a - l.items.length : Nat) : Int), (b' : Int), 1) := by
            refine ⟨_, rfl, ?_⟩
            by_cases hbl : l.items.length ≤ b
            · rw [indices_some (by omega) (by omega), if_pos hbl]
              congr 2
              · omega
              · congr 1; omega
            · rw [indices_neg (by omega) (by omega), if_neg hbl]
              congr 2
              · omega
              · congr 1; omega
          have fin : ∀ y e, r.getSlice VS ⟨some ((a : Int) - l.items.length), some ((b : Int) - l.items.length), some 1⟩ = .ok y → Good y → SliceEnd r.items.length (a - l.items.length) b' e → e ≤ r.items.length →
              y.items = (r.items.take e).drop (a - l.items.length) → ∃ t' e, r.getSlice VS ⟨some ((a : Int) - l.items.length), some ((b : Int) - l.items.length), some 1⟩ = .ok t' ∧ Good t' ∧
              SliceEnd (l.items.length + r.items.length) a b e ∧ e ≤ l.items.length + r.items.length ∧ t'.items = ((l.items ++ r.items).take e).drop a := by
            intro y e hy gy sy le iy
            refine ⟨y, l.items.length + e, hy, gy, ?_, by omega, ?_⟩
            · have := SliceEnd.right (n := l.items.length + r.items.length) (a := a) (b := b) (e := e) (by omega) hn hk (by omega) (by omega) (by rw [hL, ← hb']; exact sy)
              rwa [hL] at this
            · rw [iy, List.take_append, List.take_of_length_le (by omega : l.items.length ≤ l.items.length + e), List.drop_append,
                List.drop_eq_nil_of_le (by omega : l.items.length ≤ a), List.nil_append]
              congr 2
              omega
          by_cases hab' : a - l.items.length ≤ b'
          · obtain ⟨y, h1', h2', h3'⟩ := getSlice_spec VS g2 (by omega) (fun v h => hv v (by simp [h])) hi (by omega)
            have := indices_step1 hi
            exact fin y b' h1' h2' (.forward hab') (by omega) (by rw [h3']; rfl)
          · obtain ⟨y, e, hy, gy, sy, le, iy⟩ := ih2 hi hab'
            exact fin y e hy gy sy le iy
        · rw [if_neg (by omega)]
          exact ⟨_, a, rfl, .inl rfl, .nothing (by omega) (.inr (by omega)), by omega, by simp [items]⟩

/-! ### Binding -/

/-- Every string hashed (with SHA-256) while computing `hash`. -/
def hashed (H : HashFns) (tag : Bytes) (VS : ValueSer α) : MMR α → List Bytes
  | empty => [[], H.derive subtagEmpty tag ++ H.sha256 []]
  | leaf v => [VS.digest v, H.derive subtagLeaf tag ++ H.sha256 (VS.digest v)]
  | inner l r n =>
    let d := l.hash H tag VS ++ r.hash H tag VS ++ writeVaruint n
    [d, H.derive subtagInner tag ++ H.sha256 d] ++ l.hashed H tag VS ++ r.hashed H tag VS

theorem hash_length (H : HashFns) (tag : Bytes) (VS : ValueSer α) (t : MMR α) : (t.hash H tag VS).length = 32 := by
  cases t <;> exact H.sha256_len _

def mapValues {β : Type} (f : α → β) : MMR α → MMR β
  | empty => empty
  | leaf v => leaf (f v)
  | inner l r n => inner (l.mapValues f) (r.mapValues f) n

theorem mapValues_items {β : Type} (f : α → β) (t : MMR α) : (t.mapValues f).items = t.items.map f := by
  induction t with
  | empty => rfl
  | leaf => rfl
  | inner l r n ih1 ih2 => simp [mapValues, items, ih1, ih2]

theorem hash_binding (H : HashFns) (tag : Bytes) (VS : ValueSer α) :
    ∀ (t u : MMR α), H.derive subtagEmpty tag ≠ H.derive subtagLeaf tag →
      H.derive subtagEmpty tag ≠ H.derive subtagInner tag → H.derive subtagLeaf tag ≠ H.derive subtagInner tag →
      CollisionFree H.sha256 (t.hashed H tag VS ++ u.hashed H tag VS) →
      t.hash H tag VS = u.hash H tag VS → t.mapValues VS.digest = u.mapValues VS.digest := by
  intro t u h1 h2 h3 hcf h
  have tagEq : ∀ {a b x y : Bytes}, a.length = 16 → b.length = 16 → a ++ H.sha256 x = b ++ H.sha256 y →
      a = b ∧ H.sha256 x = H.sha256 y := fun ha hb h => List.append_inj h (by omega)
  have dl : ∀ s, (H.derive s tag).length = 16 := fun s => by
    simp [HashFns.derive, HashFns.tagged, H.sha256_len]
  induction t generalizing u with
  | empty =>
    cases u with
    | empty => rfl
    | leaf v =>
      have := hcf _ (by simp [hashed]) _ (by simp [hashed]) h
      exact absurd (tagEq (dl _) (dl _) this).1 h1
    | inner l r n =>
      have := hcf _ (by simp [hashed]) _ (by simp [hashed]) h
      exact absurd (tagEq (dl _) (dl _) this).1 h2
  | leaf w =>
    cases u with
    | empty =>
      have := hcf _ (by simp [hashed]) _ (by simp [hashed]) h
      exact absurd (tagEq (dl _) (dl _) this).1 h1.symm
    | leaf v =>
      have := hcf _ (by simp [hashed]) _ (by simp [hashed]) h
      have := hcf (VS.digest w) (by simp [hashed]) (VS.digest v) (by simp [hashed]) (tagEq (dl _) (dl _) this).2
      simp [mapValues, this]
    | inner l r n =>
      have := hcf _ (by simp [hashed]) _ (by simp [hashed]) h
      exact absurd (tagEq (dl _) (dl _) this).1 h3
  | inner l r n ih1 ih2 =>
    cases u with
    | empty =>
      have := hcf _ (by simp [hashed]) _ (by simp [hashed]) h
      exact absurd (tagEq (dl _) (dl _) this).1 h2.symm
    | leaf v =>
      have := hcf _ (by simp [hashed]) _ (by simp [hashed]) h
      exact absurd (tagEq (dl _) (dl _) this).1 h3.symm
    | inner l' r' n' =>
      have := hcf _ (by simp [hashed]) _ (by simp [hashed]) h
      have := hcf (l.hash H tag VS ++ r.hash H tag VS ++ writeVaruint n) (by simp [hashed])
        (l'.hash H tag VS ++ r'.hash H tag VS ++ writeVaruint n') (by simp [hashed]) (tagEq (dl _) (dl _) this).2
      simp only [List.append_assoc] at this
      obtain ⟨e1, this⟩ := List.append_inj this (by rw [hash_length, hash_length])
      obtain ⟨e2, this⟩ := List.append_inj this (by rw [hash_length, hash_length])
      have e3 : n = n' := (Bits.writeVaruint_prefix_inj (x := []) (y := []) (by simpa using this)).1
      have f1 := ih1 l' (fun a ha b hb => hcf a (by simp only [hashed, List.mem_append] at ha ⊢; tauto) b (by simp only [hashed, List.mem_append] at hb ⊢; tauto)) e1
      have f2 := ih2 r' (fun a ha b hb => hcf a (by simp only [hashed, List.mem_append] at ha ⊢; tauto) b (by simp only [hashed, List.mem_append] at hb ⊢; tauto)) e2
      simp [mapValues, f1, f2, e3]

end MMR
end Verif
