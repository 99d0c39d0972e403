import Verif.Lemmas.Bits
import Verif.Spec.Bits
/-! Slicing, ordering and serialization of `Bits`. -/
namespace Verif

/-! ### slices -/

theorem pyRange_one (a b : Nat) : (pyRange a b 1) = (List.range (b - a)).map fun (i : Nat) => ((a + i : Nat) : Int) := by
  have : pyRangeLen a b 1 = b - a := by
    unfold pyRangeLen
    rw [if_pos (by omega)]
    split
    · rw [Int.ediv_one]; omega
    · omega
  unfold pyRange
  rw [this]
  apply List.map_congr_left
  intro i _
  simp

theorem filterMap_range_get {α} (xs : List α) (a n : Nat) (h : a + n ≤ xs.length) :
    (List.range n).filterMap (fun i => xs[a + i]?) = (xs.drop a).take n := by
  induction n generalizing a with
  | zero => simp
  | succ n ih =>
    rw [List.range_succ_eq_map, List.filterMap_cons, List.getElem?_eq_getElem (by omega)]
    simp only [Nat.add_zero]
    rw [List.drop_eq_getElem_cons (by omega), List.take_succ_cons, List.filterMap_map, ← ih (a + 1) (by omega)]
    congr 2
    funext i
    simp only [Function.comp]
    congr 1; omega

theorem indices_step1 {s : PySlice} {n : Nat} {a b : Int} (h : s.indices n = .ok (a, b, 1)) :
    0 ≤ a ∧ a ≤ n ∧ 0 ≤ b ∧ b ≤ n ∧ s.step.getD 1 = 1 := by
  unfold PySlice.indices at h
  simp only at h
  split at h
  · cases h
  · simp only [Except.ok.injEq, Prod.mk.injEq] at h
    obtain ⟨h1, h2, h3⟩ := h
    rw [h3] at h1 h2
    simp only [show ¬ (1 : Int) < 0 by omega, if_false] at h1 h2
    refine ⟨?_, ?_, ?_, ?_, h3⟩
    all_goals
      first
      | (cases hs : s.start with
          | none => simp only [hs] at h1; omega
          | some x => simp only [hs] at h1; split at h1 <;> split at h1 <;> omega)
      | (cases hs : s.stop with
          | none => simp only [hs] at h2; omega
          | some x => simp only [hs] at h2; split at h2 <;> split at h2 <;> omega)

theorem pySlice_step1 {α} {xs : List α} {s : PySlice} {a b : Int} (h : s.indices xs.length = .ok (a, b, 1)) :
    pySlice xs s = .ok ((xs.take b.toNat).drop a.toNat) := by
  obtain ⟨h1, h2, h3, h4, _⟩ := indices_step1 h
  unfold pySlice
  rw [h]
  simp only [Except.ok.injEq]
  obtain ⟨a, rfl⟩ := Int.eq_ofNat_of_zero_le h1
  obtain ⟨b, rfl⟩ := Int.eq_ofNat_of_zero_le h3
  rw [pyRange_one, List.filterMap_map]
  simp only [Function.comp_def, Int.toNat_natCast]
  by_cases hab : a ≤ b
  · rw [filterMap_range_get _ _ _ (by omega), List.drop_take]
  · rw [show b - a = 0 by omega]
    simp; omega

namespace Bits

theorem getSlice_spec {b : Bits} (hb : b.WF) (s : PySlice) :
    (∃ ys r, pySlice b.bits s = .ok ys ∧ b.getSlice s = .ok r ∧ r.WF ∧ r.bits = ys) ∨
    (∃ e, pySlice b.bits s = .error e ∧ b.getSlice s = .error e) := by
  unfold getSlice
  cases hi : s.indices b.length with
  | error e =>
    right
    refine ⟨e, ?_, rfl⟩
    unfold pySlice
    rw [bits_length, hi]
  | ok v =>
    obtain ⟨a, c, st⟩ := v
    rw [Except.bind_ok]
    left
    simp only
    split
    · rename_i h
      obtain ⟨rfl, rfl⟩ := h
      obtain ⟨h1, h2, h3, h4, _⟩ := indices_step1 hi
      rw [pySlice_step1 (xs := b.bits) (by rw [bits_length]; exact hi)]
      simp only [Int.toNat_zero, List.drop_zero]
      split
      · rename_i h0
        subst h0
        exact ⟨_, _, rfl, rfl, by decide, rfl⟩
      · split
        · rename_i h5
          refine ⟨_, _, rfl, rfl, hb, ?_⟩
          rw [h5, List.take_of_length_le (by simp)]
        · refine ⟨_, _, rfl, rfl, ?_, bits_take (by omega)⟩
          unfold WF at *
          simp only
          omega
    · rw [iter_eq hb, Except.bind_ok]
      have hp : pySlice b.bits s = .ok ((pyRange a c st).filterMap fun i => b.bits[i.toNat]?) := by
        unfold pySlice
        rw [bits_length, hi]
      rw [hp, Except.bind_ok]
      exact ⟨_, _, rfl, rfl, (ofIter_spec _).1, (ofIter_spec _).2⟩

theorem getItem_spec {b : Bits} (hb : b.WF) (i : Int) : b.getItem i = pyGetItem b.bits i := by
  unfold getItem pyGetItem
  simp only [bits_length]
  have : (if i < 0 then (b.length : Int) + i else i) = (if i < 0 then i + (b.length : Int) else i) := by
    split <;> omega
  rw [this]
  generalize (if i < 0 then i + (b.length : Int) else i) = j
  unfold WF at hb
  by_cases h1 : j < 0
  · rw [if_pos (by omega), if_pos h1]
  · rw [if_neg h1]
    by_cases h2 : j < b.length
    · rw [if_neg (by omega), bits_getElem? (by omega), bitAt_eq (by omega)]
    · rw [if_pos (by omega), List.getElem?_eq_none (by simp; omega)]

/-! ### every constructible `Bits` is well formed -/

theorem deserialize_ok_fromBytes {s : Bytes} {b : Bits} {rest : Bytes} (h : deserialize s = .ok (b, rest)) :
    ∃ (n : Nat) (buf s' : Bytes), readVaruint s = .ok (n, s') ∧ s' = buf ++ rest ∧
      buf.length = n / 8 + (if n % 8 ≠ 0 then 1 else 0) ∧
      fromBytes buf (some n) = .ok b ∧ ∃ t, b.tailBits = .ok t ∧ pyGetItem buf (-1) = .ok t := by
  unfold deserialize at h
  rw [P.bind_apply] at h
  cases h1 : readVaruint s with
  | error e => rw [h1] at h; cases h
  | ok v =>
    obtain ⟨n, s'⟩ := v
    rw [h1] at h
    simp only at h
    rw [P.bind_apply] at h
    cases h2 : readBytes (n / 8 + if n % 8 ≠ 0 then 1 else 0) s' with
    | error e => rw [h2] at h; cases h
    | ok v =>
      obtain ⟨buf, s''⟩ := v
      rw [h2] at h
      simp only at h
      obtain ⟨h3, h4⟩ := fdRead_ok h2
      rw [P.bind_apply] at h
      cases h5 : fromBytes buf (some (n : Int)) with
      | error e => simp [P.lift, h5] at h
      | ok r =>
        simp only [P.lift, h5] at h
        rw [P.bind_apply] at h
        cases h6 : r.tailBits with
        | error e => simp [P.lift, h6] at h
        | ok t =>
          simp only [P.lift, h6] at h
          rw [P.bind_apply] at h
          cases h7 : pyGetItem buf (-1) with
          | error e => simp [P.lift, h7] at h
          | ok l =>
            simp only [P.lift, h7] at h
            rw [P.bind_apply] at h
            by_cases h8 : t = l
            · subst h8
              simp only [P.lift, pyAssert, beq_self_eq_true, if_true, P.pure_apply, Except.ok.injEq, Prod.mk.injEq] at h
              obtain ⟨rfl, rfl⟩ := h
              exact ⟨n, buf, s', rfl, h3, h4, h5, t, h6, h7⟩
            · simp [P.lift, pyAssert, h8] at h

theorem Constructible.wf {b : Bits} (h : Constructible b) : b.WF := by
  induction h with
  | ofIter xs => exact (ofIter_spec xs).1
  | fromBytes h => exact (fromBytes_ok h).1
  | slice _ h ih =>
    rcases getSlice_spec ih _ with ⟨_, _, _, h2, h3, _⟩ | ⟨_, _, h2⟩
    · rw [h] at h2; cases h2; exact h3
    · rw [h] at h2; cases h2
  | add _ _ h ih1 ih2 =>
    obtain ⟨r, h1, h2, _⟩ := add_spec ih1 ih2
    rw [h] at h1; cases h1; exact h2
  | invert _ h ih =>
    obtain ⟨r, h1, h2, _⟩ := invert_spec ih
    rw [h] at h1; cases h1; exact h2
  | commonPrefix _ _ h ih1 ih2 =>
    obtain ⟨r, h1, h2, _⟩ := commonPrefix_spec ih1 ih2
    rw [h] at h1; cases h1; exact h2
  | deserialize h =>
    obtain ⟨_, _, _, _, _, _, h1, _⟩ := deserialize_ok_fromBytes h
    exact (fromBytes_ok h1).1

/-! ### `firstBits` -/

theorem firstBits_getElem? : ∀ (buf : Bytes) (n i : Nat), i < n → i < 8 * buf.length →
    (firstBits buf n)[i]? = some (bit buf i) := by
  intro buf
  unfold firstBits
  induction buf with
  | nil => intro n i _ h; simp at h
  | cons x xs ih =>
    intro n i hn h
    rw [List.getElem?_take_of_lt hn, List.flatMap_cons]
    by_cases h8 : i < 8
    · rw [List.getElem?_append_left (by simpa using h8), bit_cons_lt h8]
      have : ∀ (x : Byte) (k : Fin 8), [x.getLsbD 7, x.getLsbD 6, x.getLsbD 5, x.getLsbD 4,
          x.getLsbD 3, x.getLsbD 2, x.getLsbD 1, x.getLsbD 0][k.val]? = some (x.getMsbD k.val) := by
        decide +kernel
      exact this x ⟨i, h8⟩
    · rw [List.getElem?_append_right (by simp; omega), bit_cons_ge (by omega)]
      have := ih (i - 8 + 1) (i - 8) (by omega) (by simp at h; omega)
      rw [List.getElem?_take_of_lt (by omega)] at this
      simpa using this

theorem firstBits_length (buf : Bytes) (n : Nat) : (firstBits buf n).length = min n (8 * buf.length) := by
  unfold firstBits
  rw [List.length_take]
  congr 1
  induction buf with
  | nil => rfl
  | cons x xs ih => simp only [List.flatMap_cons, List.length_append, ih, List.length_cons, List.length_nil]; omega

theorem bits_eq_firstBits {b : Bits} (hb : b.WF) : b.bits = firstBits b.buf b.length := by
  unfold WF at hb
  apply List.ext_getElem?
  intro i
  by_cases h : i < b.length
  · rw [bits_getElem? h, firstBits_getElem? _ _ _ h (by omega)]
  · rw [List.getElem?_eq_none (by simp; omega), List.getElem?_eq_none (by rw [firstBits_length]; omega)]

/-! ### ordering -/

def bval : List Bool → Nat
  | [] => 0
  | b :: bs => (if b then 2 ^ bs.length else 0) + bval bs

theorem bval_lt : ∀ xs : List Bool, bval xs < 2 ^ xs.length
  | [] => by simp [bval]
  | b :: bs => by
    have := bval_lt bs
    simp only [bval, List.length_cons, Nat.pow_succ]
    split <;> omega

theorem lexLt_bval : ∀ xs ys : List Bool, xs.length = ys.length → lexLt xs ys = decide (bval xs < bval ys)
  | [], [], _ => by simp [lexLt, bval]
  | [], _ :: _, h => by simp at h
  | _ :: _, [], h => by simp at h
  | a :: as, b :: bs, h => by
    have hl : as.length = bs.length := by simpa using h
    have h1 := bval_lt as
    have h2 := bval_lt bs
    rw [hl] at h1
    rw [lexLt, lexLt_bval as bs hl]
    simp only [bval, hl]
    cases a <;> cases b <;> simp <;> omega

theorem lexLt_append : ∀ p q xs ys : List Bool, p.length = q.length →
    lexLt (p ++ xs) (q ++ ys) = if p = q then lexLt xs ys else lexLt p q
  | [], [], _, _, _ => by simp
  | [], _ :: _, _, _, h => by simp at h
  | _ :: _, [], _, _, h => by simp at h
  | a :: as, b :: bs, xs, ys, h => by
    have hl : as.length = bs.length := by simpa using h
    simp only [List.cons_append, lexLt, lexLt_append as bs xs ys hl]
    by_cases hab : a = b
    · subst hab; simp
    · simp [hab]

theorem lexLt_irrefl : ∀ xs, lexLt xs xs = false
  | [] => rfl
  | x :: xs => by simp [lexLt, lexLt_irrefl xs]

def byteBits (x : Byte) : List Bool := [x.getMsbD 0, x.getMsbD 1, x.getMsbD 2, x.getMsbD 3,
  x.getMsbD 4, x.getMsbD 5, x.getMsbD 6, x.getMsbD 7]

theorem byteBits_val (x : Byte) : bval (byteBits x) = x.toNat := by
  decide +revert +kernel

theorem byteBits_lex (x y : Byte) : lexLt (byteBits x) (byteBits y) = decide (x.toNat < y.toNat) := by
  rw [lexLt_bval (byteBits x) (byteBits y) rfl, byteBits_val, byteBits_val]

theorem byteBits_inj {x y : Byte} (h : byteBits x = byteBits y) : x = y := by
  apply BitVec.eq_of_toNat_eq
  rw [← byteBits_val, h, byteBits_val]

theorem bytesLt_lex : ∀ xs ys : Bytes, xs.length = ys.length →
    bytesLt xs ys = lexLt (xs.flatMap byteBits) (ys.flatMap byteBits)
  | [], [], _ => rfl
  | [], _ :: _, h => by simp at h
  | _ :: _, [], h => by simp at h
  | x :: xs, y :: ys, h => by
    have hl : xs.length = ys.length := by simpa using h
    rw [bytesLt, List.flatMap_cons, List.flatMap_cons, lexLt_append (byteBits x) (byteBits y) _ _ rfl, bytesLt_lex xs ys hl, byteBits_lex]
    by_cases h1 : x = y
    · subst h1; simp
    · have : byteBits x ≠ byteBits y := fun h => h1 (byteBits_inj h)
      simp [h1, this]

theorem flatMap_byteBits_length (xs : Bytes) : (xs.flatMap byteBits).length = 8 * xs.length := by
  induction xs with
  | nil => rfl
  | cons x xs ih => rw [List.flatMap_cons, List.length_append, ih]; simp [byteBits]; omega

theorem flatMap_byteBits_inj : ∀ {xs ys : Bytes}, xs.length = ys.length →
    xs.flatMap byteBits = ys.flatMap byteBits → xs = ys
  | [], [], _, _ => rfl
  | [], _ :: _, h, _ => by simp at h
  | _ :: _, [], h, _ => by simp at h
  | x :: xs, y :: ys, h, he => by
    rw [List.flatMap_cons, List.flatMap_cons] at he
    obtain ⟨h1, h2⟩ := List.append_inj he rfl
    rw [byteBits_inj h1, flatMap_byteBits_inj (by simpa using h) h2]

theorem flatMap_byteBits_getElem? : ∀ (xs : Bytes) (i : Nat), i < 8 * xs.length →
    (xs.flatMap byteBits)[i]? = some (bit xs i) := by
  intro xs
  induction xs with
  | nil => intro i h; simp at h
  | cons x xs ih =>
    intro i h
    rw [List.flatMap_cons]
    by_cases h8 : i < 8
    · rw [List.getElem?_append_left (by simpa [byteBits] using h8), bit_cons_lt h8]
      have : ∀ (x : Byte) (k : Fin 8), (byteBits x)[k.val]? = some (x.getMsbD k.val) := by
        decide +kernel
      exact this x ⟨i, h8⟩
    · rw [List.getElem?_append_right (by simp [byteBits]; omega), bit_cons_ge (by omega)]
      simpa [byteBits] using ih (i - 8) (by simp at h; omega)

/-- Bits of the padded canonical form. -/
theorem padded {b : Bits} (hb : b.WF) :
    b.fullWidthPrefix.flatMap byteBits ++ byteBits b.tailV = b.bits ++ List.replicate (8 - b.length % 8) false := by
  unfold WF at hb
  have hf : b.fullWidthPrefix.length = b.length / 8 := by simp [fullWidthPrefix]; omega
  apply List.ext_getElem?
  intro i
  by_cases h1 : i < 8 * (b.length / 8)
  · rw [List.getElem?_append_left (by rw [flatMap_byteBits_length, hf]; exact h1),
      List.getElem?_append_left (by simp; omega), flatMap_byteBits_getElem? _ _ (by rw [hf]; exact h1),
      bits_getElem? (by omega)]
    unfold fullWidthPrefix
    rw [bit_take h1]
  · rw [List.getElem?_append_right (by rw [flatMap_byteBits_length, hf]; omega), flatMap_byteBits_length, hf]
    by_cases h2 : i - 8 * (b.length / 8) < 8
    · have : ∀ x : Byte, ∀ k : Fin 8, (byteBits x)[k.val]? = some (x.getMsbD k.val) := by
        decide +kernel
      rw [this _ ⟨i - 8 * (b.length / 8), h2⟩]
      simp only
      rw [tailV_bit h2]
      by_cases h3 : i < b.length
      · rw [List.getElem?_append_left (by simp; omega), bits_getElem? h3,
          show 8 * (b.length / 8) + (i - 8 * (b.length / 8)) = i by omega,
          decide_eq_true (show i - 8 * (b.length / 8) < b.length % 8 by omega)]
        simp
      · rw [List.getElem?_append_right (by simp; omega),
          decide_eq_false (show ¬ i - 8 * (b.length / 8) < b.length % 8 by omega)]
        rw [List.getElem?_replicate, if_pos (by simp; omega)]
        simp
    · rw [List.getElem?_eq_none (by simp [byteBits]; omega), List.getElem?_eq_none (by simp; omega)]

theorem lt_eq {a b : Bits} (ha : a.WF) (hb : b.WF) :
    a.lt b = .ok (bytesLt a.fullWidthPrefix b.fullWidthPrefix ||
      (decide (a.fullWidthPrefix = b.fullWidthPrefix) && decide (a.tailV.toNat < b.tailV.toNat))) := by
  unfold lt
  rw [tailBits_eq ha, tailBits_eq hb]
  simp only [Except.bind_ok, Except.pure_eq]
  split
  · rename_i h; simp [h]
  · rename_i h
    split
    · rename_i h2
      rw [h2] at h
      simp [h, h2]
    · rename_i h2; simp [h, h2]

theorem lt_same_length {a b : Bits} (ha : a.WF) (hb : b.WF) (hl : a.length = b.length) :
    a.lt b = .ok (lexLt a.bits b.bits) := by
  rw [lt_eq ha hb]
  congr 1
  have hf : a.fullWidthPrefix.length = b.fullWidthPrefix.length := by
    unfold WF at *
    simp [fullWidthPrefix, hl]; omega
  have h1 : lexLt (a.bits ++ List.replicate (8 - a.length % 8) false) (b.bits ++ List.replicate (8 - b.length % 8) false)
      = lexLt a.bits b.bits := by
    rw [lexLt_append _ _ _ _ (by simp [hl]), hl, lexLt_irrefl]
    split
    · rename_i h; rw [h, lexLt_irrefl]
    · rfl
  rw [← h1, ← padded ha, ← padded hb, lexLt_append _ _ _ _ (by rw [flatMap_byteBits_length, flatMap_byteBits_length, hf]),
    ← bytesLt_lex _ _ hf, byteBits_lex]
  by_cases he : a.fullWidthPrefix = b.fullWidthPrefix
  · rw [he]
    have : bytesLt b.fullWidthPrefix b.fullWidthPrefix = false := by rw [bytesLt_lex _ _ rfl, lexLt_irrefl]
    simp [this]
  · have : ¬ a.fullWidthPrefix.flatMap byteBits = b.fullWidthPrefix.flatMap byteBits :=
      fun h => he (flatMap_byteBits_inj hf h)
    simp [he, this]

theorem bytesLt_irrefl : ∀ x : Bytes, bytesLt x x = false
  | [] => rfl
  | a :: x => by simp [bytesLt, bytesLt_irrefl x]

theorem bytesLt_trans : ∀ x y z : Bytes, bytesLt x y = true → bytesLt y z = true → bytesLt x z = true
  | _, [], _, h, _ => by cases ‹Bytes› <;> simp [bytesLt] at h
  | _, _ :: _, [], _, h => by simp [bytesLt] at h
  | [], _ :: _, _ :: _, _, _ => rfl
  | a :: x, b :: y, c :: z, h1, h2 => by
    simp only [bytesLt] at *
    by_cases hab : a.toNat < b.toNat
    · by_cases hbc : b.toNat < c.toNat
      · rw [if_pos (by omega)]
      · rw [if_neg hbc] at h2
        by_cases e : b = c
        · subst e; rw [if_pos hab]
        · rw [if_neg e] at h2; cases h2
    · rw [if_neg hab] at h1
      by_cases e : a = b
      · subst e
        rw [if_pos rfl] at h1
        by_cases hbc : a.toNat < c.toNat
        · rw [if_pos hbc]
        · rw [if_neg hbc] at h2 ⊢
          by_cases e : a = c
          · subst e
            rw [if_pos rfl] at h2 ⊢
            exact bytesLt_trans x y z h1 h2
          · rw [if_neg e] at h2; cases h2
      · rw [if_neg e] at h1; cases h1

theorem bytesLt_total : ∀ x y : Bytes, bytesLt x y = true ∨ x = y ∨ bytesLt y x = true
  | [], [] => by simp
  | [], _ :: _ => by simp [bytesLt]
  | _ :: _, [] => by simp [bytesLt]
  | a :: x, b :: y => by
    simp only [bytesLt]
    rcases Nat.lt_trichotomy a.toNat b.toNat with h | h | h
    · left; rw [if_pos h]
    · have : a = b := BitVec.eq_of_toNat_eq h
      subst this
      simp only [Nat.lt_irrefl, if_false, if_true, List.cons.injEq, true_and]
      exact bytesLt_total x y
    · right; right; rw [if_pos h]

/-! ### serialization -/

def serV (b : Bits) : Bytes :=
  writeVaruint b.length ++ b.fullWidthPrefix ++ (if b.length % 8 ≠ 0 then [b.tailV] else [])

theorem serialize_eq {b : Bits} (hb : b.WF) : b.serialize = .ok b.serV := by
  unfold serialize serV
  rw [tailBits_eq hb]
  simp only [Except.bind_ok, Except.pure_eq]
  split <;> rfl

theorem writeVaruint_prefix_inj {m n : Nat} {x y : Bytes} (h : writeVaruint m ++ x = writeVaruint n ++ y) :
    m = n ∧ x = y := by
  have h1 := readVaruint_write m x
  rw [h, readVaruint_write n y] at h1
  simp only [Except.ok.injEq, Prod.mk.injEq] at h1
  exact ⟨h1.1.symm, h1.2.symm⟩

theorem serV_inj {a b : Bits} (ha : a.WF) (hb : b.WF) : a.serV = b.serV ↔ a.bits = b.bits := by
  constructor
  · intro h
    unfold serV at h
    rw [List.append_assoc, List.append_assoc] at h
    obtain ⟨hl, h⟩ := writeVaruint_prefix_inj h
    have hf : a.fullWidthPrefix.length = b.fullWidthPrefix.length := by
      unfold WF at *
      simp [fullWidthPrefix, hl]; omega
    obtain ⟨h1, h2⟩ := List.append_inj h hf
    rw [← eq_iff_parts ha hb hl]
    refine ⟨h1, ?_⟩
    rw [hl] at h2
    by_cases h0 : b.length % 8 = 0
    · simp [tailV, hl, h0]
    · simpa [h0] using h2
  · intro h
    have hl := (bits_eq_iff.mp h).1
    obtain ⟨h1, h2⟩ := (eq_iff_parts ha hb hl).mpr h
    unfold serV
    rw [hl, h1, h2]

/-- The bytes following the length. -/
def body (b : Bits) : Bytes := b.fullWidthPrefix ++ (if b.length % 8 ≠ 0 then [b.tailV] else [])

theorem body_length {b : Bits} (hb : b.WF) : b.body.length = b.length / 8 + (if b.length % 8 ≠ 0 then 1 else 0) := by
  unfold WF at hb
  unfold body fullWidthPrefix
  rw [List.length_append, List.length_take]
  split <;> simp <;> omega

theorem body_bit {b : Bits} (hb : b.WF) {i : Nat} (hi : i < b.length) : bit b.body i = bit b.buf i := by
  unfold WF at hb
  have hf : b.fullWidthPrefix.length = b.length / 8 := by simp [fullWidthPrefix]; omega
  unfold body
  by_cases h : i < 8 * (b.length / 8)
  · rw [bit_append_lt (by rw [hf]; exact h)]
    unfold fullWidthPrefix
    rw [bit_take h]
  · rw [bit_append_ge (by rw [hf]; omega), hf, if_pos (by omega), bit_cons_lt (by omega), tailV_bit (by omega),
      show 8 * (b.length / 8) + (i - 8 * (b.length / 8)) = i by omega,
      decide_eq_true (show i - 8 * (b.length / 8) < b.length % 8 by omega)]
    simp

theorem deserialize_serialize {b : Bits} (hb : b.WF) (rest : Bytes) :
    deserialize (b.serV ++ rest) =
      if b.length = 0 then .error .indexError
      else if b.length % 8 = 0 ∧ byteD b.buf (b.length / 8 - 1) ≠ 0#8 then .error .assertion
      else .ok (⟨b.length, b.body⟩, rest) := by
  unfold deserialize
  rw [show b.serV ++ rest = writeVaruint b.length ++ (b.body ++ rest) by simp [serV, body],
    P.bind_ok (readVaruint_write _ _), P.bind_ok (p := readBytes _) (fdRead_append (body_length hb))]
  have hbl := body_length hb
  have hfb : fromBytes b.body (some (b.length : Int)) = .ok ⟨b.length, if b.length ≠ 0 then b.body else []⟩ :=
    fromBytes_eq (by rw [hbl]; split <;> omega)
  rw [P.bind_ok (P.lift_ok hfb)]
  by_cases h0 : b.length = 0
  · rw [if_pos h0]
    have hnil : b.body = [] := List.eq_nil_of_length_eq_zero (by rw [hbl, h0]; rfl)
    simp only [h0, hnil]
    rfl
  · rw [if_neg h0]
    simp only [ne_eq, h0, not_false_eq_true, if_true]
    have hwf : (⟨b.length, b.body⟩ : Bits).WF := by
      unfold WF; simp only; rw [hbl]; split <;> omega
    have hlast : pyGetItem b.body (-1) = .ok (byteD b.body (b.body.length - 1)) := by
      have hpos : 0 < b.body.length := by rw [hbl]; split <;> omega
      unfold pyGetItem
      simp only [show ((-1 : Int) < 0) from by omega, if_true]
      rw [if_neg (by omega), show ((-1 : Int) + b.body.length).toNat = b.body.length - 1 by omega,
        List.getElem?_eq_getElem (by omega)]
      simp [byteD, show b.body.length - 1 < b.body.length by omega]
    rw [P.bind_ok (P.lift_ok (tailBits_eq hwf)), P.bind_ok (P.lift_ok hlast), P.bind_apply]
    have hf : b.fullWidthPrefix.length = b.length / 8 := by
      unfold WF at hb; simp [fullWidthPrefix]; omega
    by_cases h8 : b.length % 8 = 0
    · have hb2 : byteD b.body (b.body.length - 1) = byteD b.buf (b.length / 8 - 1) := by
        rw [hbl]
        simp only [h8, ne_eq, not_true, if_false, Nat.add_zero, body, List.append_nil, byteD, fullWidthPrefix]
        rw [List.getElem?_take_of_lt (by omega)]
      rw [hb2]
      have ht : tailV ⟨b.length, b.body⟩ = 0#8 := by simp [tailV, h8]
      rw [ht]
      by_cases hz : byteD b.buf (b.length / 8 - 1) = 0#8
      · rw [if_neg (by simp [hz])]
        simp [P.lift, pyAssert, hz]
      · rw [if_pos ⟨h8, hz⟩]
        have : ¬ (0#8 = byteD b.buf (b.length / 8 - 1)) := fun h => hz h.symm
        simp [P.lift, pyAssert, this]
    · have hb2 : byteD b.body (b.body.length - 1) = tailV ⟨b.length, b.body⟩ := by
        have e1 : byteD b.body (b.body.length - 1) = b.tailV := by
          rw [hbl]
          simp only [h8, ne_eq, not_false_eq_true, if_true, body, byteD]
          rw [List.getElem?_append_right (by omega), hf]
          simp
        rw [e1]
        apply byte_ext
        intro k hk
        rw [tailV_bit hk, tailV_bit hk]
        simp only
        by_cases hko : k < b.length % 8
        · rw [body_bit hb (by omega)]
        · simp [hko]
      rw [if_neg (by simp [h8]), hb2]
      simp [P.lift, pyAssert]

end Bits
end Verif
