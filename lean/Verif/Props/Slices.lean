import Verif.Props.Bits
/-!
# C13: what a slice of a list is, in the words of the language reference

`pySlice` (Model/Slice.lean) follows the C code of the interpreter; here its result is said again after
https://docs.python.org/3/library/stdtypes.html#common-sequence-operations, notes 3 to 5: "the sequence of items with index x = i + n*k such that 0 <= n < (j-i)/k".
-/
namespace Verif

/-- Note 3: a negative index is relative to the end of the sequence. -/
def fromEnd (len : Nat) (x : Int) : Int := if x < 0 then x + len else x

/-- The items `xs[i]`, `xs[i+k]`, `xs[i+2k]`, … before `j` is reached: `ys` are these. -/
def SliceSteps {α} (xs : List α) (i j k : Int) (ys : List α) : Prop :=
  ∀ n : Nat, ys[n]? = if (0 < k ∧ i + n * k < j) ∨ (k < 0 ∧ j < i + n * k) then xs[(i + n * k).toNat]? else none

/-- Notes 3 to 5: `ys` is `xs[i:j:k]`, `k` not 0. -/
def IsSlice {α} (xs : List α) (s : PySlice) (ys : List α) : Prop :=
  if 0 < s.step.getD 1 then
    SliceSteps xs (match s.start with | none => 0 | some x => max (fromEnd xs.length x) 0)
      (match s.stop with | none => xs.length | some x => fromEnd xs.length x) (s.step.getD 1) ys
  else
    SliceSteps xs (match s.start with | none => xs.length - 1 | some x => min (fromEnd xs.length x) (xs.length - 1))
      (match s.stop with | none => -1 | some x => max (fromEnd xs.length x) (-1)) (s.step.getD 1) ys

theorem filterMap_present {α β} (f : α → Option β) : ∀ l : List α, (∀ x ∈ l, (f x).isSome) → ∀ n : Nat, (l.filterMap f)[n]? = l[n]?.bind f
  | [], _, n => by simp
  | x :: l, h, n => by
    obtain ⟨y, hy⟩ := Option.isSome_iff_exists.1 (h x (by simp))
    rw [List.filterMap_cons_some hy]
    cases n with
    | zero => simp [hy]
    | succ n => simpa using filterMap_present f l (fun z hz => h z (by simp [hz])) n

theorem lt_rangeLen {a b k : Int} (hk : k ≠ 0) (n : Nat) : n < pyRangeLen a b k ↔ (0 < k ∧ a + n * k < b) ∨ (k < 0 ∧ b < a + n * k) := by
  unfold pyRangeLen
  rcases Int.lt_or_gt_of_ne hk with h | h
  · have h0 : ¬ 0 < k := by omega
    simp only [h0, if_false, false_and, false_or, h, true_and]
    by_cases hb : b < a
    · simp only [hb, if_true]
      have : (n : Int) < (a - b - 1) / (-k) + 1 ↔ n * (-k) ≤ a - b - 1 := by
        rw [Int.lt_add_one_iff, Int.le_ediv_iff_mul_le (by omega)]
      have h1 : (n : Int) * (-k) = -(n * k) := Int.mul_neg _ _
      have h2 : 0 ≤ (a - b - 1) / (-k) := Int.ediv_nonneg (by omega) (by omega)
      constructor
      · intro hn
        have := this.1 (by omega)
        omega
      · intro hn
        have := this.2 (by omega)
        omega
    · simp only [hb, if_false]
      have : (n : Int) * k ≤ 0 := Int.mul_nonpos_of_nonneg_of_nonpos (by omega) (by omega)
      omega
  · have h0 : ¬ k < 0 := by omega
    simp only [h, if_true, true_and, h0, false_and, or_false]
    by_cases hb : a < b
    · simp only [hb, if_true]
      have : (n : Int) < (b - a - 1) / k + 1 ↔ n * k ≤ b - a - 1 := by
        rw [Int.lt_add_one_iff, Int.le_ediv_iff_mul_le h]
      have h2 : 0 ≤ (b - a - 1) / k := Int.ediv_nonneg (by omega) (by omega)
      constructor
      · intro hn
        have := this.1 (by omega)
        omega
      · intro hn
        have := this.2 (by omega)
        omega
    · simp only [hb, if_false]
      have : 0 ≤ (n : Int) * k := Int.mul_nonneg (by omega) (by omega)
      omega

theorem pySlice_steps {α} {xs : List α} {i j k : Int} (hk : k ≠ 0) (hi : 0 < k → 0 ≤ i) (hj : 0 < k → j ≤ xs.length)
    (hi' : k < 0 → i < xs.length) (hj' : k < 0 → -1 ≤ j) : SliceSteps xs i j k ((pyRange i j k).filterMap fun x => xs[x.toNat]?) := by
  intro n
  have hin : ∀ m : Nat, m < pyRangeLen i j k → 0 ≤ i + m * k ∧ i + m * k < xs.length := by
    intro m hm
    rcases (lt_rangeLen hk m).1 hm with ⟨h1, h2⟩ | ⟨h1, h2⟩
    · have : 0 ≤ (m : Int) * k := Int.mul_nonneg (by omega) (by omega)
      have := hi h1; have := hj h1
      omega
    · have : (m : Int) * k ≤ 0 := Int.mul_nonpos_of_nonneg_of_nonpos (by omega) (by omega)
      have := hi' h1; have := hj' h1
      omega
  rw [filterMap_present]
  · unfold pyRange
    rw [List.getElem?_map]
    by_cases hn : n < pyRangeLen i j k
    · rw [if_pos ((lt_rangeLen hk n).1 hn)]
      simp [hn]
    · rw [if_neg (fun h => hn ((lt_rangeLen hk n).2 h))]
      simp [hn]
  · intro x hx
    unfold pyRange at hx
    obtain ⟨m, hm, rfl⟩ := List.mem_map.1 hx
    obtain ⟨h1, h2⟩ := hin m (List.mem_range.1 hm)
    have : (i + (m : Int) * k).toNat < xs.length := by omega
    simp [this]

theorem SliceSteps.congr {α} {xs ys : List α} {i j i' j' k : Int} (h : SliceSteps xs i j k ys)
    (e : ∀ n : Nat, ((0 < k ∧ i + n * k < j) ∨ (k < 0 ∧ j < i + n * k)) → i = i')
    (hc : ∀ n : Nat, (((0 < k ∧ i + n * k < j) ∨ (k < 0 ∧ j < i + n * k)) ∧ i + n * k < xs.length) ↔
      (((0 < k ∧ i' + n * k < j') ∨ (k < 0 ∧ j' < i' + n * k)) ∧ i' + n * k < xs.length)) : SliceSteps xs i' j' k ys := by
  intro n
  rw [h n]
  have hc := hc n
  by_cases h1 : (0 < k ∧ i + n * k < j) ∨ (k < 0 ∧ j < i + n * k)
  · rw [if_pos h1]
    have := e n h1
    subst this
    by_cases h2 : i + n * k < xs.length
    · rw [if_pos (hc.1 ⟨h1, h2⟩).1]
    · have : xs[(i + n * k).toNat]? = none := by
        rw [List.getElem?_eq_none_iff]; omega
      rw [this]
      simp
  · rw [if_neg h1]
    by_cases h2 : (0 < k ∧ i' + n * k < j') ∨ (k < 0 ∧ j' < i' + n * k)
    · rw [if_pos h2]
      by_cases h3 : i' + n * k < xs.length
      · exact absurd (hc.2 ⟨h2, h3⟩).1 h1
      · have : xs[(i' + n * k).toNat]? = none := by
          rw [List.getElem?_eq_none_iff]; omega
        rw [this]
    · rw [if_neg h2]

theorem pySlice_isSlice {α} (xs : List α) (s : PySlice) :
    (s.step = some 0 ∧ pySlice xs s = .error .valueError) ∨ (s.step ≠ some 0 ∧ ∃ ys, pySlice xs s = .ok ys ∧ IsSlice xs s ys) := by
  obtain ⟨a, b, c⟩ := s
  by_cases h0 : c = some 0
  · subst h0
    exact .inl ⟨rfl, rfl⟩
  · refine .inr ⟨h0, ?_⟩
    have hk : c.getD 1 ≠ 0 := by
      cases c with
      | none => simp
      | some c => simpa using h0
    unfold pySlice PySlice.indices IsSlice
    generalize c.getD 1 = k at hk ⊢
    simp only [hk, if_false]
    refine ⟨_, rfl, ?_⟩
    rcases Int.lt_or_gt_of_ne hk with h | h
    · have hn : ¬ 0 < k := by omega
      have hm : ∀ n : Nat, (n : Int) * k ≤ 0 := fun n => Int.mul_nonpos_of_nonneg_of_nonpos (by omega) (by omega)
      simp only [h, if_true, hn, if_false]
      unfold fromEnd
      refine SliceSteps.congr (pySlice_steps hk (by omega) (by omega) ?_ ?_) ?_ ?_
      · intro _; cases a <;> simp only [] <;> (repeat' split) <;> omega
      · intro _; cases b <;> simp only [] <;> (repeat' split) <;> omega
      · intro n hh; have := hm n; cases a <;> cases b <;> simp only [] at hh ⊢ <;> (repeat' split at hh) <;> (repeat' split) <;> omega
      · intro n; have := hm n; cases a <;> cases b <;> simp only [] <;> (repeat' split) <;> omega
    · have hn : ¬ k < 0 := by omega
      have hm : ∀ n : Nat, 0 ≤ (n : Int) * k := fun n => Int.mul_nonneg (by omega) (by omega)
      simp only [h, if_true, hn, if_false]
      unfold fromEnd
      refine SliceSteps.congr (pySlice_steps hk ?_ ?_ (by omega) (by omega)) ?_ ?_
      · intro _; cases a <;> simp only [] <;> (repeat' split) <;> omega
      · intro _; cases b <;> simp only [] <;> (repeat' split) <;> omega
      · intro n hh; have := hm n; cases a <;> cases b <;> simp only [] at hh ⊢ <;> (repeat' split at hh) <;> (repeat' split) <;> omega
      · intro n; have := hm n; cases a <;> cases b <;> simp only [] <;> (repeat' split) <;> omega

namespace Bits

/-- C13: `b[s]` consists of the bits the language reference says a slice of a list consists of; it raises (`ValueError`) exactly for step 0. -/
theorem C13_meaning {b : Bits} (hb : b.WF) {xs : List Bool} (hx : b.iter = .ok xs) (s : PySlice) :
    (s.step = some 0 ∧ b.getSlice s = .error .valueError) ∨
    (s.step ≠ some 0 ∧ ∃ r ys, b.getSlice s = .ok r ∧ r.WF ∧ r.iter = .ok ys ∧ IsSlice xs s ys) := by
  rcases pySlice_isSlice xs s with ⟨h0, h⟩ | ⟨h0, ys, h, hs⟩ <;> rcases C13_slice hb hx s with ⟨ys', r, h1, h2, h3, h4⟩ | ⟨e, h1, h2⟩
  · rw [h] at h1; cases h1
  · rw [h] at h1; cases h1; exact .inl ⟨h0, h2⟩
  · rw [h] at h1; cases h1; exact .inr ⟨h0, r, ys, h2, h3, h4, hs⟩
  · rw [h] at h1; cases h1

/-- C13: `b[::-1]` is `b` in reverse. -/
theorem C13_reverse {b : Bits} (hb : b.WF) {xs : List Bool} (hx : b.iter = .ok xs) :
    ∃ r, b.getSlice ⟨none, none, some (-1)⟩ = .ok r ∧ r.iter = .ok xs.reverse := by
  rcases C13_meaning hb hx ⟨none, none, some (-1)⟩ with ⟨h, _⟩ | ⟨_, r, ys, h1, _, h2, h3⟩
  · simp at h
  · refine ⟨r, h1, ?_⟩
    rw [h2]
    congr 1
    apply List.ext_getElem?
    intro n
    have := h3 n
    simp only [] at this
    rw [this]
    by_cases hn : n < xs.length
    · rw [if_pos (by right; constructor <;> simp <;> omega), List.getElem?_reverse hn]
      congr 1
      simp
      omega
    · rw [if_neg (by simp; omega), eq_comm, List.getElem?_eq_none_iff]
      simpa using hn

/-- C13: `b[i:j]` for indices from the beginning. -/
theorem C13_between {b : Bits} (hb : b.WF) {xs : List Bool} (hx : b.iter = .ok xs) (i j : Nat) :
    ∃ r, b.getSlice ⟨some i, some j, none⟩ = .ok r ∧ r.iter = .ok ((xs.take j).drop i) := by
  rcases C13_meaning hb hx ⟨some i, some j, none⟩ with ⟨h, _⟩ | ⟨_, r, ys, h1, _, h2, h3⟩
  · simp at h
  · refine ⟨r, h1, ?_⟩
    rw [h2]
    congr 1
    apply List.ext_getElem?
    intro n
    have h3 : SliceSteps xs (i : Int) j 1 ys := by
      have hi : max (fromEnd xs.length i) 0 = (i : Int) := by simp [fromEnd]; omega
      have hj : fromEnd xs.length j = (j : Int) := by unfold fromEnd; split <;> omega
      simpa [IsSlice, hi, hj] using h3
    rw [h3 n, List.getElem?_drop, List.getElem?_take]
    by_cases hn : i + n < j
    · rw [if_pos (by omega), if_pos hn]
      congr 1
      omega
    · rw [if_neg (by omega), if_neg hn]

-- `[a, b, c, d, e][-1::-2]`
example : IsSlice ['a', 'b', 'c', 'd', 'e'] ⟨some (-1), none, some (-2)⟩ ['e', 'c', 'a'] := by
  rcases pySlice_isSlice ['a', 'b', 'c', 'd', 'e'] ⟨some (-1), none, some (-2)⟩ with ⟨h, _⟩ | ⟨_, ys, h, h'⟩
  · simp at h
  · have : pySlice ['a', 'b', 'c', 'd', 'e'] ⟨some (-1), none, some (-2)⟩ = .ok ['e', 'c', 'a'] := by decide
    rw [this] at h
    cases h
    exact h'
example : (⟨9, [0xAB#8, 0xCD#8]⟩ : Bits).WF := by decide

end Bits
end Verif
