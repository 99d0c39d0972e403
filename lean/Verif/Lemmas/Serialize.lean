import Verif.Model.Serialize
/-! Helper lemmas about the proofmarshal stream primitives. -/
namespace Verif

theorem and127 (n : Nat) : n &&& 127 = n % 128 := by
  have := Nat.and_two_pow_sub_one_eq_mod n 7
  simpa using this

theorem or128 {n : Nat} (h : n < 128) : n ||| 128 = n + 128 := by
  have := Nat.shiftLeft_add_eq_or_of_lt (i := 7) (b := n) h 1
  simp at this
  rw [Nat.or_comm, ← this]; omega

theorem writeVaruint_lt {n : Nat} (h : n < 128) : writeVaruint n = [BitVec.ofNat 8 n] := by
  unfold writeVaruint
  split
  · subst n; rfl
  · rw [writeVaruintLoop]
    simp only [and127]
    have h1 : ¬ n > 127 := by omega
    have h2 : n ≤ 127 := by omega
    simp only [h1, h2, if_false, dif_pos]
    rw [Nat.mod_eq_of_lt h]

theorem writeVaruint_ge {n : Nat} (h : 128 ≤ n) :
    writeVaruint n = BitVec.ofNat 8 (n % 128 + 128) :: writeVaruint (n / 128) := by
  have h0 : n ≠ 0 := by omega
  have h1 : n > 127 := by omega
  have h2 : ¬ n ≤ 127 := by omega
  have h3 : n / 128 ≠ 0 := by omega
  conv => lhs; unfold writeVaruint
  rw [if_neg h0, writeVaruintLoop]
  simp only [and127, h1, h2, if_true, dif_neg, not_false_eq_true]
  rw [or128 (Nat.mod_lt _ (by omega))]
  congr 1
  unfold writeVaruint
  rw [if_neg h3]
  simp [Nat.shiftRight_eq_div_pow]

/-- Arithmetic description of LEB128 decoding. -/
def leb : Bytes → Option (Nat × Bytes)
  | [] => none
  | b :: rest =>
    if b.toNat < 128 then some (b.toNat, rest)
    else (leb rest).map fun (n, r) => (b.toNat - 128 + 128 * n, r)

theorem topbit (b : Byte) : (b &&& 0b10000000#8 = 0#8) ↔ b.toNat < 128 := by
  revert b; decide +kernel

theorem lowbits (b : Byte) : (b &&& 0b01111111#8).toNat = b.toNat % 128 := by
  revert b; decide +kernel

theorem readVaruintLoop_eq (bs : Bytes) : ∀ (v s : Nat), v < 2 ^ s →
    readVaruintLoop v s bs = match leb bs with
      | some (n, r) => .ok (v + n * 2 ^ s, r)
      | none => .error .truncation := by
  induction bs with
  | nil => intro v s _; rfl
  | cons b rest ih =>
    intro v s hv
    have hb : b.toNat < 256 := b.isLt
    have hor : v ||| ((b &&& 0b01111111#8).toNat <<< s) = v + (b.toNat % 128) * 2 ^ s := by
      rw [lowbits, Nat.or_comm, ← Nat.shiftLeft_add_eq_or_of_lt hv, Nat.shiftLeft_eq]; omega
    unfold readVaruintLoop leb
    simp only [hor]
    by_cases h : b.toNat < 128
    · rw [if_pos ((topbit b).2 h), if_pos h, Nat.mod_eq_of_lt h]
    · rw [if_neg (fun hh => h ((topbit b).1 hh)), if_neg h]
      have hv' : v + (b.toNat % 128) * 2 ^ s < 2 ^ (s + 7) := by
        have h1 : b.toNat % 128 ≤ 127 := by omega
        have h2 : (b.toNat % 128) * 2 ^ s ≤ 127 * 2 ^ s := Nat.mul_le_mul_right _ h1
        have h3 : 2 ^ (s + 7) = 128 * 2 ^ s := by rw [Nat.pow_add]; omega
        omega
      rw [ih _ _ hv']
      cases hl : leb rest with
      | none => rfl
      | some p =>
        obtain ⟨n, r⟩ := p
        simp only [Option.map_some]
        congr 2
        have h3 : 2 ^ (s + 7) = 128 * 2 ^ s := by rw [Nat.pow_add]; omega
        have h4 : b.toNat % 128 = b.toNat - 128 := by omega
        rw [h3, h4, Nat.add_mul, Nat.add_assoc]
        congr 2
        rw [← Nat.mul_assoc, Nat.mul_comm n 128]

theorem readVaruint_eq (bs : Bytes) :
    readVaruint bs = match leb bs with
      | some (n, r) => .ok (n, r)
      | none => .error .truncation := by
  have := readVaruintLoop_eq bs 0 0 (by simp)
  simpa [readVaruint] using this

theorem leb_writeVaruint (n : Nat) (rest : Bytes) : leb (writeVaruint n ++ rest) = some (n, rest) := by
  induction n using Nat.strongRecOn with
  | ind n ih =>
    by_cases h : n < 128
    · rw [writeVaruint_lt h]
      simp only [List.cons_append, List.nil_append, leb, BitVec.toNat_ofNat]
      rw [Nat.mod_eq_of_lt (by omega), if_pos h]
    · have h' : 128 ≤ n := by omega
      rw [writeVaruint_ge h']
      simp only [List.cons_append, leb, BitVec.toNat_ofNat]
      rw [Nat.mod_eq_of_lt (by omega), if_neg (by omega), ih _ (by omega)]
      simp only [Option.map_some, Option.some.injEq, Prod.mk.injEq, and_true]
      omega

theorem readVaruint_write (n : Nat) (rest : Bytes) :
    readVaruint (writeVaruint n ++ rest) = .ok (n, rest) := by
  rw [readVaruint_eq, leb_writeVaruint]

theorem leb_none {bs : Bytes} : leb bs = none ↔ ∀ b ∈ bs, 128 ≤ b.toNat := by
  induction bs with
  | nil => simp [leb]
  | cons b rest ih =>
    by_cases h : b.toNat < 128
    · have : ¬ 128 ≤ b.toNat := by omega
      simp only [leb, h, if_true, List.mem_cons, forall_eq_or_imp]
      simp [this]
    · have : 128 ≤ b.toNat := by omega
      simp [leb, h, ih, this]

theorem leb_some {bs : Bytes} {n : Nat} {r : Bytes} (h : leb bs = some (n, r)) :
    ∃ enc, bs = enc ++ r ∧ (writeVaruint n).length ≤ enc.length ∧
      (enc.length = (writeVaruint n).length → enc = writeVaruint n) := by
  induction bs generalizing n r with
  | nil => simp [leb] at h
  | cons b rest ih =>
    unfold leb at h
    by_cases hb : b.toNat < 128
    · rw [if_pos hb] at h
      simp only [Option.some.injEq, Prod.mk.injEq] at h
      obtain ⟨rfl, rfl⟩ := h
      refine ⟨[b], rfl, ?_, ?_⟩
      · rw [writeVaruint_lt hb]; simp
      · intro _; rw [writeVaruint_lt hb]; simp
    · rw [if_neg hb] at h
      cases hl : leb rest with
      | none => rw [hl] at h; cases h
      | some p =>
        obtain ⟨m, r'⟩ := p
        rw [hl] at h
        simp only [Option.map_some, Option.some.injEq, Prod.mk.injEq] at h
        obtain ⟨hn, rfl⟩ := h
        obtain ⟨enc, rfl, hle, heq⟩ := ih hl
        have hb2 : b.toNat < 256 := b.isLt
        by_cases hn2 : n < 128
        · have hm : m = 0 := by omega
          refine ⟨b :: enc, rfl, ?_, ?_⟩
          · rw [writeVaruint_lt hn2]; simp
          · rw [writeVaruint_lt hn2]
            rw [hm, writeVaruint_lt (by omega)] at hle
            intro hlen
            simp only [List.length_cons, List.length_nil] at hle hlen
            omega
        · have hdiv : n / 128 = m := by omega
          have hmod : n % 128 = b.toNat - 128 := by omega
          rw [writeVaruint_ge (by omega), hdiv, hmod]
          refine ⟨b :: enc, rfl, by simpa using hle, ?_⟩
          intro hlen
          rw [heq (by simpa using hlen)]
          have : b = BitVec.ofNat 8 (b.toNat - 128 + 128) := by
            apply BitVec.eq_of_toNat_eq
            rw [BitVec.toNat_ofNat]
            omega
          rw [← this]

theorem writeVaruint_ne_nil (n : Nat) : writeVaruint n ≠ [] := by
  by_cases h : n < 128
  · rw [writeVaruint_lt h]; simp
  · rw [writeVaruint_ge (by omega)]; simp

/-- A parser `p` reads exactly `enc` and returns `a`, whatever follows. -/
def Reads {α} (p : P α) (enc : Bytes) (a : α) : Prop := ∀ rest, p (enc ++ rest) = .ok (a, rest)

theorem fdRead_append {l : Nat} {b rest : Bytes} (h : b.length = l) :
    fdRead l (b ++ rest) = .ok (b, rest) := by
  subst h; simp [fdRead]

theorem fdRead_ok {l : Nat} {s b rest : Bytes} (h : fdRead l s = .ok (b, rest)) :
    s = b ++ rest ∧ b.length = l := by
  unfold fdRead at h
  simp only at h
  split at h
  · cases h
  · rename_i hl
    simp only [Except.ok.injEq, Prod.mk.injEq] at h
    obtain ⟨rfl, rfl⟩ := h
    exact ⟨(List.take_append_drop _ _).symm, by simpa using hl⟩

theorem fdRead_short {l : Nat} {s : Bytes} (h : s.length < l) (hl : l < 2 ^ 63) : fdRead l s = .error .truncation := by
  unfold fdRead
  simp only
  rw [if_pos, if_pos hl]
  simp; omega

theorem fdRead_error {l : Nat} {s : Bytes} {e : PyErr} (h : fdRead l s = .error e) :
    e = (if l < 2 ^ 63 then .truncation else .overflow) ∧ s.length < l := by
  unfold fdRead at h
  simp only at h
  split at h
  · rename_i hl
    simp only [List.length_take, ne_eq] at hl
    injection h with h
    exact ⟨h.symm, by omega⟩
  · cases h

theorem readBool_write (b : Bool) (rest : Bytes) : readBool (writeBool b ++ rest) = .ok (b, rest) := by
  cases b <;>
  · unfold readBool
    rw [P.bind_ok (fdRead_append (by simp [writeBool]))]
    simp [writeBool]

end Verif
