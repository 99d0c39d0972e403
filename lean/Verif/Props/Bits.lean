import Verif.Lemmas.Bits2
/-! # C09–C18: Bits

All theorems quantify over `Bits` objects satisfying `Bits.WF` (the buffer covers the length); by
`C09_constructible_wf` that is every object a program can obtain.  `list(b)` is `b.iter`. -/
namespace Verif
open Bits

/-- Every `Bits` object obtainable through the public API satisfies the representation invariant. -/
theorem C09_constructible_wf {b : Bits} (h : Constructible b) : b.WF := h.wf

/-- Iteration never raises and yields `len(b)` bits, the first bits of the buffer. -/
theorem C09_iter {b : Bits} (h : b.WF) :
    b.iter = .ok (firstBits b.buf b.length) ∧ (firstBits b.buf b.length).length = b.length := by
  rw [iter_eq h, bits_eq_firstBits h, ← bits_eq_firstBits h]
  exact ⟨rfl, bits_length b⟩

/-- `list(Bits(xs)) == xs`, `len(Bits(xs)) == len(xs)`. -/
theorem C09_of_iterable (xs : List Bool) : (ofIter xs).iter = .ok xs ∧ (ofIter xs).length = xs.length := by
  obtain ⟨h1, h2⟩ := ofIter_spec xs
  refine ⟨by rw [iter_eq h1, h2], by rw [← bits_length, h2]⟩

/-- Integer indexing agrees with indexing the list of bits, including `IndexError`. -/
theorem C09_getitem {b : Bits} (h : b.WF) {xs : List Bool} (hx : b.iter = .ok xs) (i : Int) :
    b.getItem i = pyGetItem xs i := by
  rw [iter_eq h] at hx
  cases hx
  exact getItem_spec h i

/-- `from_bytes(buf, n)` holds the first `n` bits of `buf`, and raises `ValueError` exactly when `n` is negative
or exceeds `8*len(buf)`; the default length is `8*len(buf)`. -/
theorem C09_from_bytes (buf : Bytes) (n : Option Int) :
    if 0 ≤ n.getD (8 * buf.length) ∧ n.getD (8 * buf.length) ≤ 8 * buf.length then
      ∃ b, fromBytes buf n = .ok b ∧ (b.length : Int) = n.getD (8 * buf.length) ∧
        b.iter = .ok (firstBits buf b.length)
    else fromBytes buf n = .error .valueError := by
  cases hf : fromBytes buf n with
  | ok b =>
    obtain ⟨h1, h2, h3⟩ := fromBytes_ok hf
    have hn : (b.length : Int) = n.getD (8 * buf.length) := by rw [h3]; cases n <;> simp; omega
    have hle : b.length ≤ 8 * buf.length := by
      unfold fromBytes at hf
      simp only at hf
      split at hf
      · cases hf
      split at hf
      · cases hf
      injection hf with hf
      subst hf
      simp only
      omega
    rw [if_pos ⟨by omega, by omega⟩]
    refine ⟨b, rfl, hn, ?_⟩
    rw [iter_eq h1]
    congr 1
    apply List.ext_getElem?
    intro i
    by_cases hi : i < b.length
    · rw [bits_getElem? hi, h2 i hi, firstBits_getElem? _ _ _ hi (by omega)]
    · rw [List.getElem?_eq_none (by simp; omega), List.getElem?_eq_none (by rw [firstBits_length]; omega)]
  | error e =>
    unfold fromBytes at hf
    simp only at hf
    have hn : n.getD (8 * (buf.length : Int)) = n.getD ((buf.length : Int) * 8) := by cases n <;> simp; omega
    rw [hn]
    split at hf
    · injection hf with hf
      rw [if_neg (by omega), hf]
    split at hf
    · injection hf with hf
      rw [if_neg (by omega), hf]
    · cases hf

example : Constructible (ofIter [true, false, true]) ∧
    fromBytes [0xAB#8, 0xCD#8] (some 9) = .ok ⟨9, [0xAB#8, 0xCD#8]⟩ ∧
    (⟨9, [0xAB#8, 0xCD#8]⟩ : Bits).iter = .ok [true, false, true, false, true, false, true, true, true] :=
  ⟨.ofIter _, by decide, by decide⟩

/-- C10: `==` is equality of bit sequences. -/
theorem C10_eq {a b : Bits} (ha : a.WF) (hb : b.WF) {xs ys : List Bool}
    (hx : a.iter = .ok xs) (hy : b.iter = .ok ys) : eq a b = .ok (decide (xs = ys)) := by
  rw [iter_eq ha] at hx
  rw [iter_eq hb] at hy
  cases hx; cases hy
  exact eq_eq ha hb

/-- Equal although buffers differ in unused bits and bytes. -/
example : eq ⟨3, [0xA0#8]⟩ ⟨3, [0xBF#8, 0x55#8]⟩ = .ok true ∧ (⟨3, [0xBF#8, 0x55#8]⟩ : Bits).WF := by decide

/-- C11: concatenation. -/
theorem C11_add {a b : Bits} (ha : a.WF) (hb : b.WF) {xs ys : List Bool}
    (hx : a.iter = .ok xs) (hy : b.iter = .ok ys) :
    ∃ r, a.add b = .ok r ∧ r.WF ∧ r.iter = .ok (xs ++ ys) ∧ r.length = a.length + b.length := by
  rw [iter_eq ha] at hx
  rw [iter_eq hb] at hy
  cases hx; cases hy
  obtain ⟨r, h1, h2, h3⟩ := add_spec ha hb
  refine ⟨r, h1, h2, by rw [iter_eq h2, h3], ?_⟩
  rw [← bits_length r, h3]; simp

example : (do let r ← add ⟨3, [0xBF#8]⟩ ⟨9, [0xF0#8, 0xFF#8]⟩; r.iter) =
    .ok [true, false, true, true, true, true, true, false, false, false, false, true] := by decide

/-- C12: inversion flips every bit. -/
theorem C12_invert {b : Bits} (hb : b.WF) {xs : List Bool} (hx : b.iter = .ok xs) :
    ∃ r, b.invert = .ok r ∧ r.WF ∧ r.iter = .ok (xs.map (!·)) := by
  rw [iter_eq hb] at hx
  cases hx
  obtain ⟨r, h1, h2, h3⟩ := invert_spec hb
  exact ⟨r, h1, h2, by rw [iter_eq h2, h3]⟩

/-- C12: `~~b == b`. -/
theorem C12_invert_invert {b : Bits} (hb : b.WF) :
    ∃ r r', b.invert = .ok r ∧ r.invert = .ok r' ∧ eq r' b = .ok true := by
  obtain ⟨r, h1, h2, h3⟩ := invert_spec hb
  obtain ⟨r', h4, h5, h6⟩ := invert_spec h2
  refine ⟨r, r', h1, h4, ?_⟩
  rw [eq_eq h5 hb, h6, h3]
  simp [List.map_map, Function.comp_def]

example : (do let r ← invert ⟨3, [0xBF#8]⟩; r.iter) = .ok [false, true, false] := by decide

/-- C13: slicing agrees with slicing the list of bits, for every slice, errors included. -/
theorem C13_slice {b : Bits} (hb : b.WF) {xs : List Bool} (hx : b.iter = .ok xs) (s : PySlice) :
    (∃ ys r, pySlice xs s = .ok ys ∧ b.getSlice s = .ok r ∧ r.WF ∧ r.iter = .ok ys) ∨
    (∃ e, pySlice xs s = .error e ∧ b.getSlice s = .error e) := by
  rw [iter_eq hb] at hx
  cases hx
  rcases getSlice_spec hb s with ⟨ys, r, h1, h2, h3, h4⟩ | h
  · exact .inl ⟨ys, r, h1, h2, h3, by rw [iter_eq h3, h4]⟩
  · exact .inr h

example : pySlice [10, 11, 12, 13, 14] ⟨some (-1), none, some (-2)⟩ = .ok [14, 12, 10] := by decide
example : (do let r ← (⟨9, [0xAB#8, 0xCD#8]⟩ : Bits).getSlice ⟨some 1, some (-3), some 2⟩; r.iter) =
    .ok [false, false, false] := by decide
example : (⟨9, [0xAB#8, 0xCD#8]⟩ : Bits).getSlice ⟨none, none, some 0⟩ = .error .valueError := by decide

/-- C14: `startswith` is the prefix relation. -/
theorem C14_startswith {a p : Bits} (ha : a.WF) (hp : p.WF) {xs ps : List Bool}
    (hx : a.iter = .ok xs) (hy : p.iter = .ok ps) : a.startswith p = .ok (decide (ps <+: xs)) := by
  rw [iter_eq ha] at hx
  rw [iter_eq hp] at hy
  cases hx; cases hy
  exact startswith_eq ha hp

example : startswith ⟨9, [0xAB#8, 0xCD#8]⟩ ⟨3, [0xBF#8]⟩ = .ok true ∧
    startswith ⟨9, [0xAB#8, 0xCD#8]⟩ ⟨4, [0xBF#8]⟩ = .ok false := by decide

/-- C15: `common_prefix` never raises and is the longest common prefix. -/
theorem C15_common_prefix {a b : Bits} (ha : a.WF) (hb : b.WF) {xs ys : List Bool}
    (hx : a.iter = .ok xs) (hy : b.iter = .ok ys) :
    ∃ p ps, a.commonPrefix b = .ok p ∧ p.WF ∧ p.iter = .ok ps ∧ IsLongestCommonPrefix ps xs ys := by
  rw [iter_eq ha] at hx
  rw [iter_eq hb] at hy
  cases hx; cases hy
  obtain ⟨p, h1, h2, n, h3, h4, h5, h6, h7⟩ := commonPrefix_spec ha hb
  refine ⟨p, p.bits, h1, h2, iter_eq h2, h5 ▸ List.take_prefix _ _, h6 ▸ List.take_prefix _ _, ?_⟩
  intro q hq1 hq2
  have hqn : q.length ≤ n := by
    apply Classical.byContradiction
    intro hn
    have l1 := hq1.length_le
    have l2 := hq2.length_le
    rw [bits_length] at l1 l2
    apply h7 (by omega) (by omega)
    rw [List.prefix_iff_getElem?] at hq1 hq2
    rw [hq1 n (by omega), hq2 n (by omega)]
  rw [h5]
  rw [List.prefix_take_iff]
  exact ⟨hq1, hqn⟩

/-- C15: commutative up to `==`. -/
theorem C15_common_prefix_comm {a b : Bits} (ha : a.WF) (hb : b.WF) :
    ∃ p q, a.commonPrefix b = .ok p ∧ b.commonPrefix a = .ok q ∧ eq p q = .ok true := by
  obtain ⟨p, ps, h1, h2, h3, h4, h5, h6⟩ := C15_common_prefix ha hb (iter_eq ha) (iter_eq hb)
  obtain ⟨q, qs, g1, g2, g3, g4, g5, g6⟩ := C15_common_prefix hb ha (iter_eq hb) (iter_eq ha)
  refine ⟨p, q, h1, g1, ?_⟩
  rw [C10_eq h2 g2 h3 g3]
  have e1 := g6 _ h5 h4
  have e2 := h6 _ g5 g4
  rw [e1.eq_of_length (Nat.le_antisymm e1.length_le e2.length_le)]
  simp

example : (do let r ← commonPrefix ⟨12, [0xAB#8, 0xCF#8]⟩ ⟨16, [0xAB#8, 0xEF#8]⟩; r.iter) =
    .ok [true, false, true, false, true, false, true, true, true, true] := by decide +kernel

/-- The statement of C16: `<` is a strict total order consistent with `==`. -/
def C16_statement : Prop :=
  (∀ a b : Bits, Constructible a → Constructible b →
    (a.lt b = .ok true ∧ eq a b = .ok false ∧ b.lt a = .ok false) ∨
    (a.lt b = .ok false ∧ eq a b = .ok true ∧ b.lt a = .ok false) ∨
    (a.lt b = .ok false ∧ eq a b = .ok false ∧ b.lt a = .ok true)) ∧
  (∀ a b c : Bits, Constructible a → Constructible b → Constructible c →
    a.lt b = .ok true → b.lt c = .ok true → a.lt c = .ok true)

/-- C16 is false: `Bits([0])` and `Bits([0,0])` are unequal but neither is less than the other. -/
theorem C16_refuted : ¬ C16_statement := by
  intro h
  have := h.1 (ofIter [false]) (ofIter [false, false]) (.ofIter _) (.ofIter _)
  revert this
  decide

/-- What is true of C16: among `Bits` of equal length `<` is dictionary order of the bits, so it is a strict total
order consistent with `==`. Missing: different lengths, where it is refuted. -/
theorem C16_same_length_partial {a b : Bits} (ha : a.WF) (hb : b.WF) (hl : a.length = b.length)
    {xs ys : List Bool} (hx : a.iter = .ok xs) (hy : b.iter = .ok ys) :
    a.lt b = .ok (lexLt xs ys) ∧
    ((a.lt b = .ok true ∧ eq a b = .ok false ∧ b.lt a = .ok false) ∨
     (a.lt b = .ok false ∧ eq a b = .ok true ∧ b.lt a = .ok false) ∨
     (a.lt b = .ok false ∧ eq a b = .ok false ∧ b.lt a = .ok true)) := by
  rw [iter_eq ha] at hx
  rw [iter_eq hb] at hy
  cases hx; cases hy
  refine ⟨lt_same_length ha hb hl, ?_⟩
  rw [lt_same_length ha hb hl, lt_same_length hb ha hl.symm, eq_eq ha hb]
  have hll : a.bits.length = b.bits.length := by simp [hl]
  by_cases he : a.bits = b.bits
  · right; left
    rw [he, lexLt_irrefl]; simp
  · rw [lexLt_bval _ _ hll, lexLt_bval _ _ hll.symm]
    have : bval a.bits ≠ bval b.bits := by
      intro hv
      have : ∀ xs ys : List Bool, xs.length = ys.length → bval xs = bval ys → xs = ys := by
        intro xs
        induction xs with
        | nil => intro ys h _; exact (List.eq_nil_of_length_eq_zero h.symm).symm
        | cons x xs ih =>
          intro ys h h2
          cases ys with
          | nil => simp at h
          | cons y ys =>
            have hl : xs.length = ys.length := by simpa using h
            have b1 := bval_lt xs
            have b2 := bval_lt ys
            simp only [bval, hl] at h2 b1
            have : x = y := by cases x <;> cases y <;> simp at h2 ⊢ <;> omega
            subst this
            rw [ih ys hl (by omega)]
      exact he (this _ _ hll hv)
    simp only [he, Except.ok.injEq, decide_eq_true_eq, decide_eq_false_iff_not, decide_false, true_and, false_and,
      Bool.false_eq_true]
    omega

/-- What is also true of C16: `<` is transitive and irreflexive for all lengths, and the only incomparable unequal
pairs are those that agree up to trailing zero bits in the last, partial byte. -/
theorem C16_order_partial {a b c : Bits} (ha : a.WF) (hb : b.WF) (hc : c.WF) :
    a.lt a = .ok false ∧
    (a.lt b = .ok true → b.lt c = .ok true → a.lt c = .ok true) ∧
    (a.lt b = .ok true ∨ b.lt a = .ok true ∨
      ∃ xs ys, a.iter = .ok xs ∧ b.iter = .ok ys ∧ xs.length / 8 = ys.length / 8 ∧
        xs ++ List.replicate (8 - xs.length % 8) false = ys ++ List.replicate (8 - ys.length % 8) false) := by
  rw [lt_eq ha ha, lt_eq ha hb, lt_eq hb hc, lt_eq ha hc, lt_eq hb ha]
  simp only [Except.ok.injEq, Bool.or_eq_true, Bool.and_eq_true, decide_eq_true_eq, bytesLt_irrefl, Nat.lt_irrefl,
    decide_false, Bool.and_false, Bool.or_false, true_and]
  refine ⟨?_, ?_⟩
  · rintro (h1 | ⟨h1, h2⟩) (h3 | ⟨h3, h4⟩)
    · exact .inl (bytesLt_trans _ _ _ h1 h3)
    · exact .inl (h3 ▸ h1)
    · exact .inl (h1 ▸ h3)
    · exact .inr ⟨h1.trans h3, by omega⟩
  · rcases bytesLt_total a.fullWidthPrefix b.fullWidthPrefix with h | h | h
    · exact .inl (.inl h)
    · rcases Nat.lt_trichotomy a.tailV.toNat b.tailV.toNat with h2 | h2 | h2
      · exact .inl (.inr ⟨h, h2⟩)
      · right; right
        refine ⟨_, _, iter_eq ha, iter_eq hb, ?_, ?_⟩
        · have := congrArg List.length h
          unfold WF at ha hb
          simp only [fullWidthPrefix, List.length_take, bits_length] at this ⊢
          omega
        · rw [bits_length, bits_length, ← padded ha, ← padded hb, h, BitVec.eq_of_toNat_eq h2]
      · exact .inr (.inl (.inr ⟨h.symm, h2⟩))
    · exact .inr (.inl (.inl h))

/-- What is also true of C16: among `Bits` of equal length `<=`, `>` and `>=` are those of dictionary order. -/
theorem C16_derived_partial {a b : Bits} (ha : a.WF) (hb : b.WF) (hl : a.length = b.length)
    {xs ys : List Bool} (hx : a.iter = .ok xs) (hy : b.iter = .ok ys) :
    a.le b = .ok (!lexLt ys xs) ∧ a.gt b = .ok (lexLt ys xs) ∧ a.ge b = .ok (!lexLt xs ys) := by
  obtain ⟨h1, h2⟩ := C16_same_length_partial ha hb hl hx hy
  obtain ⟨h3, _⟩ := C16_same_length_partial hb ha hl.symm hy hx
  unfold le gt ge
  rcases h2 with ⟨g1, g2, g3⟩ | ⟨g1, g2, g3⟩ | ⟨g1, g2, g3⟩ <;> rw [g1] at h1 <;> rw [g3] at h3 <;> rw [g1, g2, ← Except.ok.inj h1, ← Except.ok.inj h3] <;> decide

/-- What is also true of C16, for all lengths: `<=` is `<` or `==`, `>=` is its opposite, and two different values that `<` does not tell apart are
each `>` and `>=` the other. -/
theorem C16_incomparable_partial {a b : Bits} (h1 : a.lt b = .ok false) (h2 : b.lt a = .ok false) (h3 : eq a b = .ok false) (h4 : eq b a = .ok false) :
    a.le b = .ok false ∧ b.le a = .ok false ∧ a.gt b = .ok true ∧ b.gt a = .ok true ∧ a.ge b = .ok true ∧ b.ge a = .ok true := by
  unfold le gt ge
  rw [h1, h2, h3, h4]
  decide

example : lt (ofIter [false]) (ofIter [false, false]) = .ok false ∧ lt (ofIter [false, false]) (ofIter [false]) = .ok false ∧
    eq (ofIter [false]) (ofIter [false, false]) = .ok false ∧ eq (ofIter [false, false]) (ofIter [false]) = .ok false := by decide
example : (⟨9, [0xAB#8, 0xCD#8]⟩ : Bits).lt ⟨9, [0xAC#8, 0xCD#8]⟩ = .ok true := by decide
/-- Not dictionary order across lengths: `111 < 00000000`. -/
example : lt (ofIter [true, true, true]) (ofIter (List.replicate 8 false)) = .ok true := by decide

/-- C17: serialization never raises and identifies exactly the `==` bit strings. -/
theorem C17_serialize_canonical {a b : Bits} (ha : a.WF) (hb : b.WF) :
    ∃ x y, a.serialize = .ok x ∧ b.serialize = .ok y ∧ (x = y ↔ eq a b = .ok true) := by
  refine ⟨_, _, serialize_eq ha, serialize_eq hb, ?_⟩
  rw [serV_inj ha hb, eq_eq ha hb]
  simp

example : serialize ⟨3, [0xA0#8]⟩ = serialize ⟨3, [0xBF#8, 0x55#8]⟩ ∧
    serialize ⟨3, [0xA0#8]⟩ ≠ serialize ⟨4, [0xA0#8]⟩ := by decide +kernel

/-- The statement of C18. -/
def C18_statement : Prop := ∀ b : Bits, Constructible b → ∀ x, b.serialize = .ok x →
  ∃ r, deserialize x = .ok (r, []) ∧ eq r b = .ok true

/-- C18 is false: the empty bit string does not deserialize. -/
theorem C18_refuted : ¬ C18_statement := by
  intro h
  obtain ⟨r, h1, _⟩ := h (ofIter []) (.ofIter _) _ (by decide +kernel : (ofIter []).serialize = .ok [0x00#8])
  revert h1
  rw [show deserialize [0#8] = .error .indexError by decide]
  exact fun h => nomatch h

/-- What is true of C18, exactly: the round trip succeeds if and only if the string is not empty and, when its
length is a multiple of 8, its last eight bits are zero.  Missing: the other strings, where it is refuted. -/
theorem C18_roundtrip_partial {b : Bits} (hb : b.WF) {xs : List Bool} (hx : b.iter = .ok xs) (rest : Bytes) :
    ∃ enc, b.serialize = .ok enc ∧
      if xs ≠ [] ∧ (xs.length % 8 = 0 → xs.drop (xs.length - 8) = List.replicate 8 false) then
        ∃ r, deserialize (enc ++ rest) = .ok (r, rest) ∧ eq r b = .ok true
      else deserialize (enc ++ rest) = .error (if xs = [] then .indexError else .assertion) := by
  rw [iter_eq hb] at hx
  cases hx
  refine ⟨_, serialize_eq hb, ?_⟩
  rw [deserialize_serialize hb]
  by_cases h0 : b.length = 0
  · have : b.bits = [] := List.eq_nil_of_length_eq_zero (by simp [h0])
    simp [this, h0]
  · have hne : b.bits ≠ [] := fun h => h0 (by rw [← bits_length, h]; rfl)
    rw [if_neg h0]
    have hwf : (⟨b.length, b.body⟩ : Bits).WF := by
      unfold WF; simp only; rw [body_length hb]; split <;> omega
    have hok : eq ⟨b.length, b.body⟩ b = .ok true := by
      rw [eq_eq hwf hb]
      simp only [Except.ok.injEq, decide_eq_true_eq]
      rw [bits_eq_iff]
      exact ⟨rfl, fun i hi => body_bit hb hi⟩
    have hlast : b.length % 8 = 0 → (byteD b.buf (b.length / 8 - 1) = 0#8 ↔
        b.bits.drop (b.bits.length - 8) = List.replicate 8 false) := by
      intro h8
      constructor
      · intro hz
        apply List.ext_getElem
        · simp; omega
        · intro i h1 h2
          simp only [List.length_replicate] at h2
          rw [List.getElem_drop, bits_getElem, bits_length, List.getElem_replicate]
          have := bit_mk (buf := b.buf) (j := b.length / 8 - 1) (k := i) h2
          rw [hz] at this
          rw [show b.length - 8 + i = 8 * (b.length / 8 - 1) + i by omega, this]
          simp [BitVec.getMsbD]
      · intro hd
        apply byte_ext
        intro k hk
        have := congrArg (fun l => l[k]?) hd
        simp only [List.getElem?_drop, bits_length] at this
        rw [bits_getElem? (by omega), List.getElem?_replicate, if_pos hk,
          show b.length - 8 + k = 8 * (b.length / 8 - 1) + k by omega, bit_mk hk] at this
        rw [Option.some.inj this]
        simp [BitVec.getMsbD]
    by_cases h8 : b.length % 8 = 0 ∧ byteD b.buf (b.length / 8 - 1) ≠ 0#8
    · rw [if_pos h8, if_neg]
      · simp [hne]
      · rintro ⟨_, h⟩
        exact h8.2 ((hlast h8.1).mpr (h (by simpa using h8.1)))
    · rw [if_neg h8, if_pos]
      · exact ⟨_, rfl, hok⟩
      · refine ⟨hne, fun h => ?_⟩
        rw [bits_length] at h
        apply (hlast h).mp
        apply Classical.byContradiction
        intro hz
        exact h8 ⟨h, hz⟩

example : (do let e ← serialize ⟨9, [0xAB#8, 0xCD#8]⟩; deserialize (e ++ [7#8])) = .ok (⟨9, [0xAB#8, 0x80#8]⟩, [7#8]) := by
  decide +kernel
example : (do let e ← serialize ⟨8, [0xAB#8]⟩; deserialize e) = .error .assertion := by decide +kernel

/-- C63: whatever `deserialize` accepts is a length, in one of its encodings, followed byte for byte by what `serialize`
writes after the length: no two contents for the same bits, and the unused bits of the last byte are zero. -/
theorem C63_accepts_canonical {s rest : Bytes} {r : Bits} (h : deserialize s = .ok (r, rest)) :
    ∃ v body, s = v ++ body ++ rest ∧ readVaruint v = .ok (r.length, []) ∧ r.serialize = .ok (writeVaruint r.length ++ body) ∧
      ∃ xs, r.iter = .ok xs ∧ firstBits body (8 * body.length) = xs ++ List.replicate (8 * body.length - r.length) false := by
  have hwf := (Constructible.deserialize h).wf
  obtain ⟨n, buf, s', h1, h2, h3, h4, t, h5, h6⟩ := deserialize_ok_fromBytes h
  have hlast : buf.getLast? = some t := by
    unfold pyGetItem at h6
    simp only [show ((-1 : Int) < 0) from by omega, if_true] at h6
    split at h6
    · cases h6
    · rename_i hk
      rw [List.getLast?_eq_getElem?]
      rw [show ((-1 : Int) + buf.length).toNat = buf.length - 1 by omega] at h6
      cases hg : buf[buf.length - 1]? with
      | none => rw [hg] at h6; cases h6
      | some u => rw [hg] at h6; cases h6; rfl
  have hn : n ≠ 0 := by
    rintro rfl
    have : buf = [] := List.eq_nil_of_length_eq_zero (by rw [h3]; rfl)
    rw [this] at hlast; cases hlast
  rw [fromBytes_eq (by rw [h3]; split <;> omega), if_pos hn] at h4
  cases h4
  have hv : ∃ v, s = v ++ s' ∧ readVaruint v = .ok (n, []) := by
    rw [readVaruint_eq] at h1
    cases hl : leb s with
    | none => rw [hl] at h1; cases h1
    | some p =>
      rw [hl] at h1
      cases h1
      clear h6 h5 hlast hwf h3 h h2
      suffices ∀ (s : Bytes) (n : Nat) (s' : Bytes), leb s = some (n, s') → ∃ v, s = v ++ s' ∧ leb v = some (n, []) by
        obtain ⟨v, hv, hl⟩ := this _ _ _ hl
        exact ⟨v, hv, by rw [readVaruint_eq, hl]⟩
      intro s
      induction s with
      | nil => intro n s' h; cases h
      | cons b s ih =>
        intro n s' h
        unfold leb at h
        split at h
        · rename_i hb
          cases h
          exact ⟨[b], rfl, by unfold leb; rw [if_pos hb]⟩
        · rename_i hb
          cases hl : leb s with
          | none => rw [hl] at h; cases h
          | some p =>
            obtain ⟨m, r⟩ := p
            rw [hl] at h
            cases h
            obtain ⟨v, hv, hl'⟩ := ih _ _ hl
            exact ⟨b :: v, by rw [hv]; rfl, by unfold leb; rw [if_neg hb, hl']; rfl⟩
  obtain ⟨v, hv, hrv⟩ := hv
  have hbody : (⟨n, buf⟩ : Bits).body = buf := by
    unfold body fullWidthPrefix
    simp only
    by_cases h8 : n % 8 = 0
    · simp only [h8, ne_eq, not_true_eq_false, if_false, List.append_nil, Nat.add_zero] at h3 ⊢
      exact List.take_of_length_le (by omega)
    · simp only [h8, ne_eq, not_false_eq_true, if_true] at h3 ⊢
      rw [tailBits_eq hwf] at h5
      cases h5
      generalize (⟨n, buf⟩ : Bits).tailV = t at hlast ⊢
      obtain ⟨ys, rfl⟩ := List.getLast?_eq_some_iff.mp hlast
      simp only [List.length_append, List.length_cons, List.length_nil] at h3
      rw [List.take_append_of_le_length (by omega), List.take_of_length_le (by omega)]
  refine ⟨v, buf, by rw [hv, h2, List.append_assoc], hrv, ?_, _, iter_eq hwf, ?_⟩
  · rw [serialize_eq hwf]
    have : (⟨n, buf⟩ : Bits).serV = writeVaruint n ++ (⟨n, buf⟩ : Bits).body := by simp [serV, body]
    rw [this, hbody]
  · apply List.ext_getElem?
    intro i
    unfold WF at hwf
    simp only at hwf
    by_cases hi : i < n
    · rw [firstBits_getElem? _ _ _ (by omega) (by omega), List.getElem?_append_left (by simpa using hi), bits_getElem? (by simpa using hi)]
    · rw [List.getElem?_append_right (by simpa using Nat.le_of_not_lt hi), bits_length, List.getElem?_replicate]
      simp only
      by_cases h9 : i < 8 * buf.length
      · rw [if_pos (by omega), firstBits_getElem? _ _ _ h9 h9]
        have h8 : n % 8 ≠ 0 := by
          intro h8
          simp only [h8, ne_eq, not_true_eq_false, if_false] at h3
          omega
        rw [if_pos h8] at h3
        have hf : (⟨n, buf⟩ : Bits).fullWidthPrefix.length = n / 8 := by simp [fullWidthPrefix]; omega
        rw [← hbody]
        unfold body
        simp only
        rw [if_pos h8, bit_append_ge (by rw [hf]; omega), hf, bit_cons_lt (by omega), tailV_bit (by omega),
          decide_eq_false (by simp only; omega)]
        rfl
      · rw [if_neg (by omega), List.getElem?_eq_none (by rw [firstBits_length]; omega)]

example : deserialize [9#8, 0xAB#8, 0x80#8, 7#8] = .ok (⟨9, [0xAB#8, 0x80#8]⟩, [7#8]) ∧
    deserialize [9#8, 0xAB#8, 0x81#8, 7#8] = .error .assertion := by decide

end Verif
