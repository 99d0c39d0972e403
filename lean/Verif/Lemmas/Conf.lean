import Verif.Spec.Conf
import Verif.Props.SusText
/-! # Reading bitcoin.conf, and URLs -/
namespace Verif.Rpc
open Verif Sus

theorem confSpace_iff (c : Char) : confSpace c = true ↔ c ∈ blanks := by
  unfold confSpace blanks
  rw [Bool.or_eq_true, isSpace_iff]
  have h : (decide (28 ≤ c.toNat) && decide (c.toNat ≤ 31)) = true ↔ c ∈ [Char.ofNat 28, Char.ofNat 29, Char.ofNat 30, Char.ofNat 31] := by
    rw [Bool.and_eq_true, decide_eq_true_iff, decide_eq_true_iff]
    have inj : ∀ d : Char, c = d ↔ c.toNat = d.toNat := fun d => ⟨fun h => h ▸ rfl, fun h => Char.ext (UInt32.toNat_inj.mp h)⟩
    simp only [List.mem_cons, List.not_mem_nil, or_false, inj]
    have e1 : (Char.ofNat 28).toNat = 28 := rfl
    have e2 : (Char.ofNat 29).toNat = 29 := rfl
    have e3 : (Char.ofNat 30).toNat = 30 := rfl
    have e4 : (Char.ofNat 31).toNat = 31 := rfl
    rw [e1, e2, e3, e4]
    omega
  rw [h]
  simp only [List.mem_cons, List.not_mem_nil, or_false, or_assoc]

theorem blank_iff (s : Str) : Blank s ↔ ∀ c ∈ s, confSpace c = true := by
  unfold Blank
  simp only [confSpace_iff]

theorem takeWhile_mem {p : Char → Bool} {c : Char} : ∀ {s : Str}, c ∈ s.takeWhile p → p c = true
  | [], h => by cases h
  | a :: s, h => by
    cases hp : p a with
    | true =>
      rw [List.takeWhile_cons_of_pos hp] at h
      rcases List.mem_cons.mp h with rfl | h
      · exact hp
      · exact takeWhile_mem h
    | false =>
      rw [List.takeWhile_cons_of_neg (by rw [hp]; decide)] at h
      cases h

theorem dropWhile_all {p : Char → Bool} : ∀ {w : Str}, (∀ c ∈ w, p c = true) → w.dropWhile p = []
  | [], _ => rfl
  | c :: w, h => by
    rw [List.dropWhile_cons_of_pos (h c (by simp))]
    exact dropWhile_all fun d hd => h d (by simp [hd])

theorem dropWhile_append {p : Char → Bool} : ∀ {w t : Str}, (∀ c ∈ w, p c = true) → (w ++ t).dropWhile p = t.dropWhile p
  | [], _, _ => rfl
  | c :: w, t, h => by
    rw [List.cons_append, List.dropWhile_cons_of_pos (h c (by simp))]
    exact dropWhile_append fun d hd => h d (by simp [hd])

theorem takeWhile_append_stop {p : Char → Bool} : ∀ {w t : Str}, (∀ c ∈ w, p c = true) → (∀ c t', t = c :: t' → p c = false) → (w ++ t).takeWhile p = w
  | [], [], _, _ => rfl
  | [], c :: t, _, h => List.takeWhile_cons_of_neg (by rw [h c t rfl]; decide)
  | c :: w, t, h, h' => by
    rw [List.cons_append, List.takeWhile_cons_of_pos (h c (by simp)), takeWhile_append_stop (fun d hd => h d (by simp [hd])) h']

theorem dropWhile_head {p : Char → Bool} : ∀ {s : Str} {c : Char} {t : Str}, s.dropWhile p = c :: t → p c = false
  | [], _, _, h => by cases h
  | a :: s, c, t, h => by
    cases hp : p a with
    | true =>
      rw [List.dropWhile_cons_of_pos hp] at h
      exact dropWhile_head h
    | false =>
      rw [List.dropWhile_cons_of_neg (by rw [hp]; decide)] at h
      cases h
      exact hp

theorem strip_iff (s v : Str) : confStrip s = v ↔ ∃ a d, s = a ++ (v ++ d) ∧ Blank a ∧ Blank d ∧ Trimmed v := by
  constructor
  · rintro rfl
    have h1 := (List.takeWhile_append_dropWhile (p := confSpace) (l := s)).symm
    have h2 := (List.takeWhile_append_dropWhile (p := confSpace) (l := (s.dropWhile confSpace).reverse)).symm
    have h3 : s.dropWhile confSpace = confStrip s ++ ((s.dropWhile confSpace).reverse.takeWhile confSpace).reverse := by
      unfold confStrip
      rw [← List.reverse_append, ← h2, List.reverse_reverse]
    refine ⟨s.takeWhile confSpace, ((s.dropWhile confSpace).reverse.takeWhile confSpace).reverse, ?_, ?_, ?_, ?_, ?_⟩
    · rw [← h3, ← h1]
    · rw [blank_iff]
      exact fun c hc => takeWhile_mem hc
    · rw [blank_iff]
      exact fun c hc => takeWhile_mem (List.mem_reverse.mp hc)
    · intro c t h
      rw [← confSpace_iff]
      have : s.dropWhile confSpace = c :: (t ++ ((s.dropWhile confSpace).reverse.takeWhile confSpace).reverse) := by
        rw [h] at h3
        exact h3
      rw [dropWhile_head this]
      decide
    · intro c t h
      rw [← confSpace_iff]
      have : (s.dropWhile confSpace).reverse.dropWhile confSpace = c :: t.reverse := by
        have := congrArg List.reverse h
        unfold confStrip at this
        rw [List.reverse_reverse] at this
        simpa using this
      rw [dropWhile_head this]
      decide
  · rintro ⟨a, d, rfl, ha, hd, ht1, ht2⟩
    rw [blank_iff] at ha hd
    unfold confStrip
    rw [dropWhile_append ha]
    cases v with
    | nil =>
      rw [List.nil_append, dropWhile_all hd]
      rfl
    | cons c t =>
      have hc : confSpace c = false := by
        have := ht1 c t rfl
        rw [← confSpace_iff] at this
        simpa using this
      rw [List.cons_append, List.dropWhile_cons_of_neg (by rw [hc]; decide), ← List.cons_append, List.reverse_append,
        dropWhile_append (fun x hx => hd x (List.mem_reverse.mp hx))]
      rcases List.eq_nil_or_concat (c :: t) with h | ⟨t', c', h⟩
      · cases h
      · have hc' : confSpace c' = false := by
          have := ht2 c' t' (by rw [h, List.concat_eq_append])
          rw [← confSpace_iff] at this
          simpa using this
        rw [h, List.concat_eq_append, List.reverse_append]
        show (List.dropWhile confSpace (c' :: t'.reverse)).reverse = _
        rw [List.dropWhile_cons_of_neg (by rw [hc']; decide)]
        simp

theorem not_mem_blank {s : Str} {c : Char} (h : Blank s) (hc : c ∉ blanks) : c ∉ s := fun hm => hc (h c hm)

theorem confLine_iff (line k v : Str) : confLine line = some (k, v) ↔ Assigns line k v := by
  unfold confLine
  simp only
  constructor
  · intro h
    split at h
    · rename_i hm
      simp only [Option.some.injEq, Prod.mk.injEq] at h
      obtain ⟨hk, hv⟩ := h
      obtain ⟨a, b, h1, ha, hb, tk⟩ := (strip_iff _ _).mp hk
      obtain ⟨c, d, h2, hc, hd, tv⟩ := (strip_iff _ _).mp hv
      have e1 := (List.takeWhile_append_dropWhile (p := fun x => decide (x ≠ '#')) (l := line)).symm
      have e2 := (List.takeWhile_append_dropWhile (p := fun x => decide (x ≠ '=')) (l := line.takeWhile fun x => decide (x ≠ '#'))).symm
      have nohash : ∀ x ∈ line.takeWhile fun x => decide (x ≠ '#'), x ≠ '#' := fun x hx => by simpa using takeWhile_mem hx
      have noeq : ∀ x ∈ (line.takeWhile fun x => decide (x ≠ '#')).takeWhile fun x => decide (x ≠ '='), x ≠ '=' := fun x hx => by simpa using takeWhile_mem hx
      obtain ⟨y, ys, hy⟩ : ∃ y ys, (line.takeWhile fun x => decide (x ≠ '#')).dropWhile (fun x => decide (x ≠ '=')) = y :: ys := by
        cases hd' : (line.takeWhile fun x => decide (x ≠ '#')).dropWhile (fun x => decide (x ≠ '=')) with
        | nil =>
          rw [hd', List.append_nil] at e2
          rw [e2] at hm
          exact absurd rfl (noeq _ hm)
        | cons y ys => exact ⟨y, ys, rfl⟩
      have hy' : y = '=' := by simpa using dropWhile_head hy
      rw [hy, List.drop_one, List.tail_cons] at h2
      rw [h1, hy, hy', h2] at e2
      have all : line.takeWhile (fun x => decide (x ≠ '#')) = a ++ (k ++ (b ++ '=' :: (c ++ (v ++ d)))) := by
        rw [e2]; simp
      refine ⟨⟨a, b, c, d, line.dropWhile fun x => decide (x ≠ '#'), ?_, ha, hb, hc, hd, ?_⟩, ⟨?_, ?_⟩, ?_, tk, tv⟩
      · have := congrArg (· ++ line.dropWhile fun x => decide (x ≠ '#')) all
        refine e1.trans (this.trans ?_)
        simp
      · cases hx : line.dropWhile fun x => decide (x ≠ '#') with
        | nil => exact .inl rfl
        | cons x xs =>
          have : x = '#' := by simpa using dropWhile_head hx
          rw [this]
          exact .inr rfl
      · intro hm
        rw [h1] at noeq
        exact noeq '=' (by simp [hm]) rfl
      · intro hm
        rw [all] at nohash
        exact nohash '#' (by simp [hm]) rfl
      · intro hm
        rw [all] at nohash
        exact nohash '#' (by simp [hm]) rfl
    · cases h
  · rintro ⟨⟨a, b, c, d, e, h, ha, hb, hc, hd, he⟩, ⟨hk1, hk2⟩, hv, tk, tv⟩
    have hsp : '#' ∉ blanks ∧ '=' ∉ blanks := by decide
    have h1 : line.takeWhile (fun x => decide (x ≠ '#')) = a ++ (k ++ (b ++ '=' :: (c ++ (v ++ d)))) := by
      have : line = (a ++ (k ++ (b ++ '=' :: (c ++ (v ++ d))))) ++ e := by rw [h]; simp
      rw [this]
      apply takeWhile_append_stop
      · intro x hx
        simp only [ne_eq, decide_not, Bool.not_eq_true', decide_eq_false_iff_not]
        rintro rfl
        simp only [List.mem_append, List.mem_cons] at hx
        rcases hx with hx | hx | hx | hx | hx | hx | hx
        · exact not_mem_blank ha hsp.1 hx
        · exact hk2 hx
        · exact not_mem_blank hb hsp.1 hx
        · cases hx
        · exact not_mem_blank hc hsp.1 hx
        · exact hv hx
        · exact not_mem_blank hd hsp.1 hx
      · rintro x t rfl
        rcases he with he | he
        · cases he
        · simp only [List.head?_cons, Option.some.injEq] at he
          simp [he]
    have before : ∀ x ∈ a ++ (k ++ b), decide (x ≠ '=') = true := by
      intro x hx
      simp only [ne_eq, decide_not, Bool.not_eq_true', decide_eq_false_iff_not]
      rintro rfl
      simp only [List.mem_append] at hx
      rcases hx with hx | hx | hx
      · exact not_mem_blank ha hsp.2 hx
      · exact hk1 hx
      · exact not_mem_blank hb hsp.2 hx
    have hre : a ++ (k ++ (b ++ '=' :: (c ++ (v ++ d)))) = (a ++ (k ++ b)) ++ '=' :: (c ++ (v ++ d)) := by simp
    rw [h1, if_pos (by simp), hre, takeWhile_append_stop before (by rintro x t ⟨⟩; simp), dropWhile_append before, List.dropWhile_cons_of_neg (by simp)]
    rw [List.drop_one, List.tail_cons, (strip_iff _ k).mpr ⟨a, b, rfl, ha, hb, tk⟩, (strip_iff _ v).mpr ⟨c, d, rfl, hc, hd, tv⟩]

theorem confGet_unset {lines : List Str} {k : String} (h : Unset lines k) : confGet lines k = none := by
  unfold confGet
  have : (lines.filterMap confLine).filter (fun kv => kv.1 = k.toList) = [] := by
    rw [List.filter_eq_nil_iff]
    rintro ⟨k', v⟩ hm hk
    obtain ⟨l, hl, hc⟩ := List.mem_filterMap.mp hm
    have : k' = k.toList := by simpa using hk
    subst this
    exact h l hl v ((confLine_iff _ _ _).mp hc)
  rw [this]
  rfl

theorem confGet_setting {lines : List Str} {k : String} {v : Str} (h : Setting lines k v) : confGet lines k = some v := by
  obtain ⟨l1, line, l2, rfl, ha, hn⟩ := h
  have h2 := confGet_unset (lines := l2) (k := k) hn
  unfold confGet at h2 ⊢
  have h3 : (l2.filterMap confLine).filter (fun kv => kv.1 = k.toList) = [] := by simpa using h2
  rw [List.filterMap_append, List.filterMap_cons, (confLine_iff _ _ _).mpr ha]
  simp only
  rw [List.filter_append, List.filter_cons, if_pos (by simp), h3]
  simp

/-- One or the other. -/
theorem setting_or (lines : List Str) (k : String) : Unset lines k ∨ ∃ v, Setting lines k v := by
  induction lines with
  | nil => exact .inl (by intro l hl; cases hl)
  | cons l ls ih =>
    rcases ih with ih | ⟨v, l1, line, l2, rfl, h⟩
    · by_cases h : ∃ v, Assigns l k.toList v
      · obtain ⟨v, h⟩ := h
        exact .inr ⟨v, [], l, ls, rfl, h, ih⟩
      · refine .inl fun l' hl' v hv => ?_
        rcases List.mem_cons.mp hl' with rfl | hl'
        · exact h ⟨v, hv⟩
        · exact ih l' hl' v hv
    · exact .inr ⟨v, l :: l1, line, l2, rfl, h⟩

end Verif.Rpc
