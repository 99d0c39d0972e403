import Verif.Lemmas.Texts
/-!
# C133: the texts of tags and bits stand for them
-/
namespace Verif.Rp
open Verif Verif.Sus

/-- `HashTag(str(t)) == t`. -/
theorem C133_str {t : Bytes} (h : t.length = 16) : newTag (strTag t) = .ok t := newTag_strTag h

example : strTag (hex "8125d227981c4ca0afa7ab9911352c85") = "8125d227-981c-4ca0-afa7-ab9911352c85".toList := by decide +kernel
example : newTag "8125d227-981c-4ca0-afa7-ab9911352c85".toList = .ok (hex "8125d227981c4ca0afa7ab9911352c85") := by decide +kernel

/-- A text of hexadecimal digits and `-` is taken exactly if there are 32 digits, wherever the `-` are, and the digits are those of the
tag; anything else is a `ValueError`. -/
theorem C133_texts {s : Str} (h : ∀ c ∈ s, c = '-' ∨ (hexVal c).isSome) :
    newTag s = if (s.filter (· ≠ '-')).length = 32 then unhex (s.filter (· ≠ '-')) else .error .valueError := newTag_plain h

example : newTag "8125D227981c4ca0afa7ab9911352c85".toList = .ok (hex "8125d227981c4ca0afa7ab9911352c85") := by decide +kernel
example : newTag "8125d227-981c-4ca0-afa7-ab9911352c8".toList = .error .valueError := by decide +kernel

/-- `eval(repr(t)) == t`. -/
theorem C133_tag {t : Bytes} (h : t.length = 16) : evalText (reprTag t) = some (.tag t) := by
  obtain ⟨e, h1, h2⟩ := tag_shown h
  rw [evalText, h1.parse]
  exact h2

/-- `repr(b)` does not fail, and `eval(repr(b))` is `Bits` with the same bits, equal to `b`. -/
theorem C133_bits {b : Bits} (h : b.WF) : ∃ text b', reprBits b = .ok text ∧ evalText text = some (.bits b') ∧ b'.iter = b.iter ∧
    Bits.eq b b' = .ok true := by
  obtain ⟨text, e, xs, h1, h2, h3, h4⟩ := bits_shown h
  have ho := C09_of_iterable xs
  refine ⟨text, Bits.ofIter xs, h1, ?_, by rw [ho.1, h3], ?_⟩
  · rw [evalText, h2.parse]; exact h4
  · rw [C10_eq h (Bits.ofIter_spec xs).1 h3 ho.1]
    simp

/-- The text tells how many bits there are and which. -/
theorem C133_bits_same {a b : Bits} (ha : a.WF) (hb : b.WF) : reprBits a = reprBits b ↔ Bits.eq a b = .ok true := by
  obtain ⟨ta, ea, xs, a1, a2, a3, a4⟩ := bits_shown ha
  obtain ⟨tb, eb, ys, b1, b2, b3, b4⟩ := bits_shown hb
  rw [C10_eq ha hb a3 b3]
  constructor
  · intro h
    rw [a1, b1] at h
    cases h
    have he : ea = eb := by
      have := a2.parse
      rw [b2.parse] at this
      cases this; rfl
    rw [he, b4] at a4
    have he2 : Bits.ofIter ys = Bits.ofIter xs := by injection a4 with h; injection h
    have h1 := (C09_of_iterable xs).1
    rw [← he2, (C09_of_iterable ys).1] at h1
    cases h1
    simp
  · intro h
    have : xs = ys := by simpa using h
    subst this
    unfold reprBits
    rw [a3, b3]

example : reprBits (Bits.ofIter [true, false, true]) = .ok "Bits([1,0,1])".toList := by decide +kernel
example : reprBits Bits.empty = .ok "Bits([])".toList := by decide +kernel
example : (Bits.ofIter [true, false, true]).WF := by decide +kernel

end Verif.Rp
