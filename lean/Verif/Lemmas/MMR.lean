import Verif.Spec.MMR
import Verif.Lemmas.Bits2
import Mathlib.Data.Nat.Bitwise
import Mathlib.Tactic.Ring
import Mathlib.Tactic.Positivity
/-! Merkle mountain ranges: the shape invariant and what each operation does to it. -/
namespace Verif
namespace MMR
variable {α : Type}

/-- A perfect tree of height `h`. -/
inductive Perfect : Nat → MMR α → Prop where
  | leaf (v : α) : Perfect 0 (.leaf v)
  | inner {h l r} : Perfect h l → Perfect h r → Perfect (h + 1) (.inner l r (2 ^ (h + 1)))

/-- A row of mountains of strictly decreasing heights, the lowest of height `h`. -/
inductive Range : Nat → MMR α → Prop where
  | peak {h t} : Perfect h t → Range h t
  | more {h h' l r} : Range h' l → Perfect h r → h < h' → Range h (.inner l r (l.items.length + r.items.length))

theorem _root_.Verif.Subtree.trans {a b c : MMR α} (h : Subtree b c) (h' : Subtree a b) : Subtree a c := by
  induction h with
  | refl => exact h'
  | left _ ih => exact .left ih
  | right _ ih => exact .right ih

theorem Perfect.length {h : Nat} {t : MMR α} (p : Perfect h t) : t.items.length = 2 ^ h := by
  induction p with
  | leaf => rfl
  | inner _ _ ih1 ih2 => rw [items, List.length_append, ih1, ih2, Nat.pow_succ]; omega

theorem Perfect.pyLen {h : Nat} {t : MMR α} (p : Perfect h t) : t.len = Verif.pyLen t.items.length := by
  cases p with
  | leaf => rfl
  | inner h1 h2 => rw [len, (Perfect.inner h1 h2).length]

theorem Range.pyLen {h : Nat} {t : MMR α} (p : Range h t) : t.len = Verif.pyLen t.items.length := by
  cases p with
  | peak p => exact p.pyLen
  | more => rw [len, items, List.length_append]

theorem Range.odd {h : Nat} {t : MMR α} (p : Range h t) : ∃ q, t.items.length = 2 ^ h * (2 * q + 1) := by
  induction p with
  | peak p => exact ⟨0, by rw [p.length]; omega⟩
  | @more h h' l r h1 h2 hlt ih =>
    obtain ⟨q, hq⟩ := ih
    obtain ⟨d, rfl⟩ := Nat.exists_eq_add_of_lt hlt
    refine ⟨2 ^ d * (2 * q + 1), ?_⟩
    rw [items, List.length_append, h2.length, hq, Nat.pow_succ, Nat.pow_add]
    generalize 2 ^ h = x
    generalize 2 ^ d = y
    ring_nf

theorem testBit_odd (h q e : Nat) (he : e ≤ h) : Nat.testBit (2 ^ h * (2 * q + 1)) e = decide (e = h) := by
  rw [Nat.testBit_two_pow_mul]
  rcases Nat.lt_or_eq_of_le he with h1 | rfl
  · have : ¬ (e ≥ h) := by omega
    have h2 : e ≠ h := by omega
    simp [this, h2]
  · have : (2 * q + 1).testBit 0 = true := by simp [Nat.testBit_zero]
    simp

theorem and_two_pow_odd (h q e : Nat) (he : e ≤ h) :
    (2 ^ h * (2 * q + 1)) &&& 2 ^ e = if e = h then 2 ^ h else 0 := by
  rw [Nat.and_two_pow, testBit_odd h q e he]
  split
  · next h => subst h; simp
  · next h => simp [h]

theorem Range.pos {h : Nat} {t : MMR α} (p : Range h t) : 0 < t.items.length := by
  obtain ⟨q, hq⟩ := p.odd
  rw [hq]; exact Nat.mul_pos (Nat.two_pow_pos h) (by omega)

theorem Range.ge {h : Nat} {t : MMR α} (p : Range h t) : 2 ^ h ≤ t.items.length := by
  obtain ⟨q, hq⟩ := p.odd
  rw [hq]; exact Nat.le_mul_of_pos_right _ (by omega)

theorem more_not_pow2 {h h' : Nat} {l r : MMR α} (p : Range h (.inner l r (l.items.length + r.items.length)))
    (hr : Perfect h r) (hl : Range h' l) : ¬ IsPow2 (MMR.inner l r (l.items.length + r.items.length)).items.length := by
  rintro ⟨e, he⟩
  obtain ⟨q, hq⟩ := p.odd
  have h1 := testBit_odd h q h (Nat.le_refl _)
  rw [← hq, he, Nat.testBit_two_pow] at h1
  have h2 : e = h := by simpa using h1
  subst h2
  rw [items, List.length_append, hr.length] at he
  have := hl.pos
  omega

theorem pyLen_ok {n : Nat} (h : n < 2 ^ 63) : Verif.pyLen n = .ok n := by
  unfold Verif.pyLen; rw [if_pos h]

theorem mkInner_ok {l r : MMR α} (hl : l.len = Verif.pyLen l.items.length) (hr : r.len = Verif.pyLen r.items.length)
    (h : l.items.length + r.items.length < 2 ^ 63) :
    mkInner l r = .ok (.inner l r (l.items.length + r.items.length)) := by
  unfold mkInner
  rw [hl, hr, pyLen_ok (by omega), pyLen_ok (by omega)]
  simp only [Except.bind_ok]
  have : PrimTy.uint64.check (.int ((l.items.length + r.items.length : Nat) : Int)) = .ok () := by
    simp only [PrimTy.uint64, PrimTy.check]
    rw [if_neg]
    omega
  rw [this]
  rfl

theorem shiftOutZeros_pow (h : Nat) : shiftOutZeros (2 ^ h) = 1 := by
  induction h with
  | zero => unfold shiftOutZeros; simp
  | succ h ih =>
    unfold shiftOutZeros
    have h1 : 2 ^ (h + 1) ≠ 0 := by positivity
    have h2 : 2 ^ (h + 1) &&& 1 = 0 := by rw [Nat.and_one_is_mod]; omega
    have h3 : 2 ^ (h + 1) >>> 1 = 2 ^ h := by rw [Nat.shiftRight_eq_div_pow]; omega
    rw [dif_neg h1, h2, if_pos (by simp), h3, ih]

theorem shiftOutZeros_eq_one {n : Nat} (h : shiftOutZeros n = 1) : IsPow2 n := by
  induction n using Nat.strongRecOn with
  | _ n ih =>
    unfold shiftOutZeros at h
    split at h
    · omega
    · split at h
      · next h1 =>
        obtain ⟨e, he⟩ := ih (n >>> 1) (by rw [Nat.shiftRight_eq_div_pow]; omega) h
        refine ⟨e + 1, ?_⟩
        rw [Nat.shiftRight_eq_div_pow] at he
        rw [Nat.and_one_is_mod] at h1
        omega
      · exact ⟨0, h⟩

theorem shiftOutZeros_odd {n : Nat} (h : n ≠ 0) : shiftOutZeros n % 2 = 1 := by
  induction n using Nat.strongRecOn with
  | _ n ih =>
    unfold shiftOutZeros
    rw [dif_neg h]
    split
    · next h1 =>
      rw [Nat.and_one_is_mod] at h1
      exact ih _ (by rw [Nat.shiftRight_eq_div_pow]; omega) (by rw [Nat.shiftRight_eq_div_pow]; omega)
    · next h1 => rw [Nat.and_one_is_mod] at h1; omega

theorem isPerfectTree_spec {t : MMR α} {n : Nat} (h : t.len = .ok n) :
    ∃ b, t.isPerfectTree = .ok b ∧ (b = true ↔ IsPow2 n) := by
  unfold isPerfectTree
  rw [h]
  simp only [Except.bind_ok]
  by_cases h0 : n = 0
  · subst h0
    refine ⟨false, by simp [Except.pure_eq], ?_⟩
    simp only [Bool.false_eq_true, false_iff]
    rintro ⟨e, he⟩
    have : 0 < 2 ^ e := by positivity
    omega
  · rw [if_neg h0]
    refine ⟨_, rfl, ?_⟩
    rw [decide_eq_true_eq]
    have hodd := shiftOutZeros_odd h0
    have : (shiftOutZeros n >>> 1) <<< 1 = 0 ↔ shiftOutZeros n = 1 := by
      rw [Nat.shiftRight_eq_div_pow, Nat.shiftLeft_eq]; omega
    rw [this]
    constructor
    · exact shiftOutZeros_eq_one
    · rintro ⟨e, rfl⟩; exact shiftOutZeros_pow e

theorem Perfect.merge {h : Nat} {l r : MMR α} (hl : Perfect (h + 1) l) (hr : Perfect (h + 1) r)
    (hb : l.items.length + r.items.length < 2 ^ 63) :
    mergeTrees l r = .ok (.inner l r (2 ^ (h + 2))) := by
  have e1 := hl.length
  have e2 := hr.length
  have l1 := hl.pyLen
  have l2 := hr.pyLen
  rw [e1] at l1; rw [e2] at l2
  have hmk := mkInner_ok hl.pyLen hr.pyLen hb
  have hlt : 2 ^ (h + 1) < 2 ^ 63 := by rw [e1] at hb; omega
  rw [pyLen_ok hlt] at l1 l2
  obtain ⟨b, hp, hpb⟩ := isPerfectTree_spec l1
  have hbt : b = true := hpb.mpr ⟨_, rfl⟩
  subst hbt
  cases hl with
  | @inner _ ll lr h1 h2 =>
    unfold mergeTrees
    simp only [len] at l1
    rw [l1, l2]
    simp only [Except.bind_ok]
    have hne : 2 ^ (h + 1) &&& 2 ^ (h + 1) ≠ 0 := by
      rw [Nat.and_self]; positivity
    rw [if_neg hne]
    simp only [if_true]
    rw [hp]
    simp only [pyAssert, ge_iff_le, Nat.le_refl, decide_true, if_true, Except.bind_ok]
    rw [hmk, e1, e2]
    congr 2
    rw [Nat.pow_succ 2 (h + 1)]; omega

theorem Range.merge {h h' : Nat} {l r : MMR α} (hl : Range h l) (hr : Perfect h' r) (hh : h' ≤ h) (h0 : 1 ≤ h)
    (hb : l.items.length + r.items.length < 2 ^ 63) :
    ∃ t k, mergeTrees l r = .ok t ∧ Range k t ∧ t.items = l.items ++ r.items ∧
      (∀ s, Subtree s l → IsPow2 s.items.length → Subtree s t) ∧ Subtree r t := by
  induction hl generalizing h' r with
  | @peak h l p =>
    rcases Nat.lt_or_eq_of_le hh with hlt | rfl
    · have e1 := p.length
      have e2 := hr.length
      have l1 := p.pyLen
      have l2 := hr.pyLen
      have hmk := mkInner_ok l1 l2 hb
      have hz : l.items.length &&& r.items.length = 0 := by
        have := and_two_pow_odd h 0 h' (by omega)
        rw [e1, e2]
        simpa [show h' ≠ h by omega] using this
      have hle : r.items.length ≤ l.items.length := by
        rw [e1, e2]; exact Nat.pow_le_pow_right (by omega) (by omega)
      rw [pyLen_ok (by omega)] at l1 l2
      have hR : Range h' (.inner l r (l.items.length + r.items.length)) := .more (.peak p) hr hlt
      refine ⟨_, _, ?_, hR, rfl, fun s hs _ => .left hs, .right .refl⟩
      obtain ⟨h, rfl⟩ : ∃ k, h = k + 1 := ⟨h - 1, by omega⟩
      cases p with
      | @inner _ ll lr h1 h2 =>
        unfold mergeTrees
        simp only [len] at l1
        rw [l1, l2]
        simp only [Except.bind_ok]
        rw [hz, if_pos rfl, hmk]
        simp only [pyAssert, hle, decide_true, if_true, Except.bind_ok]
    · obtain ⟨h, rfl⟩ : ∃ k, h' = k + 1 := ⟨h' - 1, by omega⟩
      exact ⟨_, _, p.merge hr hb, .peak (.inner p hr), rfl, fun s hs _ => .left hs, .right .refl⟩
  | @more h hl' ll lr p1 p2 hlt ih =>
    have hm : Range h (.inner ll lr (ll.items.length + lr.items.length)) := .more p1 p2 hlt
    have l1 := hm.pyLen
    have l2 := hr.pyLen
    have e2 := hr.length
    obtain ⟨q, hq⟩ := hm.odd
    have hge := hm.ge
    have hmk := mkInner_ok l1 l2 hb
    rw [pyLen_ok (by omega)] at l1 l2
    have hle : r.items.length ≤ (MMR.inner ll lr (ll.items.length + lr.items.length)).items.length := by
      rw [e2]; exact Nat.le_trans (Nat.pow_le_pow_right (by omega) hh) hge
    have hand := and_two_pow_odd h q h' hh
    rw [← hq, ← e2] at hand
    have hit : (MMR.inner ll lr (ll.items.length + lr.items.length)).items.length = ll.items.length + lr.items.length := by
      rw [items, List.length_append]
    rcases Nat.lt_or_eq_of_le hh with hlt' | rfl
    · rw [if_neg (by omega)] at hand
      refine ⟨_, _, ?_, .more hm hr hlt', rfl, fun s hs _ => .left hs, .right .refl⟩
      unfold mergeTrees
      simp only [len] at l1
      rw [l1, l2]
      simp only [Except.bind_ok]
      rw [hand, if_pos rfl, hmk]
      simp only [pyAssert, hle, decide_true, if_true, Except.bind_ok]
    · rw [if_pos rfl] at hand
      have e3 := p2.length
      have hb' : lr.items.length + r.items.length < 2 ^ 63 := by omega
      obtain ⟨k, rfl⟩ : ∃ k, h' = k + 1 := ⟨h' - 1, by omega⟩
      have hmg := p2.merge hr hb'
      have hP : Perfect (k + 2) (.inner lr r (2 ^ (k + 2))) := .inner p2 hr
      have hitP : (MMR.inner lr r (2 ^ (k + 2))).items.length = lr.items.length + r.items.length := by
        rw [items, List.length_append]
      obtain ⟨t, k', ht, hR, hi, hs1, hs2⟩ := ih hP (by omega) (by omega) (by rw [hitP]; omega)
      have hl2 := p2.pyLen
      rw [pyLen_ok (by omega)] at hl2
      have trans : ∀ s, Subtree s (.inner lr r (2 ^ (k + 2))) → Subtree s t := by
        intro s hs
        exact hs2.trans hs
      refine ⟨t, k', ?_, hR, ?_, ?_, trans _ (.right .refl)⟩
      · unfold mergeTrees
        simp only [len] at l1
        rw [l1, l2]
        simp only [Except.bind_ok]
        have hne : 2 ^ (k + 1) ≠ 0 := by positivity
        rw [hand, if_neg hne, if_neg (by have := p1.pos; omega), hl2]
        simp only [Except.bind_ok]
        have : lr.items.length &&& r.items.length ≠ 0 := by rw [e3, e2, Nat.and_self]; exact hne
        rw [hmg]
        simp only [pyAssert, hle, this, decide_true, ne_eq, not_false_eq_true, if_true, Except.bind_ok]
        exact ht
      · rw [hi]; simp [items]
      · intro s hs hp
        cases hs with
        | refl => exact absurd hp (more_not_pow2 hm p2 p1)
        | left hs => exact hs1 s hs hp
        | right hs => exact trans s (.left hs)

end MMR
end Verif
