import Verif.Lemmas.Serialize
/-! Compositional round trips: a parser that reads exactly `enc`, and reports truncation on proper prefixes. -/
namespace Verif

theorem Except.bind_eq_ok {ε α β} {x : Except ε α} {f : α → Except ε β} {b : β} (h : (x >>= f) = .ok b) :
    ∃ a, x = .ok a ∧ f a = .ok b := by
  cases x with
  | error e => cases h
  | ok a => exact ⟨a, rfl, h⟩

structure RT {α} (tr : PyErr) (p : P α) (enc : Bytes) (a : α) : Prop where
  reads : ∀ rest, p (enc ++ rest) = .ok (a, rest)
  trunc : ∀ pre suf, enc = pre ++ suf → suf ≠ [] → (tr = .truncation → enc.length < 2 ^ 63) → p pre = .error tr

theorem RT.bind {α β} {tr : PyErr} {p : P α} {e1 e2 : Bytes} {a : α} {f : α → P β} {b : β}
    (h1 : RT tr p e1 a) (h2 : RT tr (f a) e2 b) : RT tr (p >>= f) (e1 ++ e2) b where
  reads rest := by rw [List.append_assoc, P.bind_ok (h1.reads _), h2.reads]
  trunc pre suf h hs hf := by
    rw [List.length_append] at hf
    rcases List.append_eq_append_iff.mp h with ⟨as, ha, hb⟩ | ⟨as, ha, hb⟩
    · -- pre = e1 ++ as, e2 = as ++ suf
      rw [ha, P.bind_ok (h1.reads as)]
      exact h2.trunc as suf hb hs (fun t => by have := hf t; omega)
    · -- e1 = pre ++ as, suf = as ++ e2
      by_cases has : as = []
      · subst has
        rw [List.append_nil] at ha
        rw [List.nil_append] at hb
        subst ha
        have hr := h1.reads []
        rw [List.append_nil] at hr
        rw [P.bind_ok hr]
        exact h2.trunc [] suf (by simpa using hb.symm) hs (fun t => by have := hf t; omega)
      · exact P.bind_error (h1.trunc pre as ha has (fun t => by have := hf t; omega))

theorem RT.pure {α} {tr : PyErr} (a : α) : RT tr (Pure.pure a : P α) [] a where
  reads _ := rfl
  trunc _ _ h hs _ := absurd (List.append_eq_nil_iff.mp h.symm).2 hs

theorem RT.lift {α} {tr : PyErr} {x : Py α} {a : α} (h : x = .ok a) : RT tr (P.lift x) [] a where
  reads _ := P.lift_ok h
  trunc _ _ h hs _ := absurd (List.append_eq_nil_iff.mp h.symm).2 hs

theorem RT.congr {α} {tr : PyErr} {p : P α} {e e' : Bytes} {a a' : α} (h : RT tr p e a) (he : e = e') (ha : a = a') :
    RT tr p e' a' := he ▸ ha ▸ h

theorem RT.inj {α} {tr : PyErr} {p : P α} {e : Bytes} {a a' : α} (h : RT tr p e a) (h' : RT tr p e a') : a = a' := by
  have := h.reads []
  rw [h'.reads []] at this
  cases this; rfl

/-- Prefix-freeness: equal streams give equal values and equal remainders. -/
theorem RT.inj_append {α} {tr : PyErr} {p : P α} {e e' r r' : Bytes} {a a' : α} (h : RT tr p e a) (h' : RT tr p e' a')
    (he : e ++ r = e' ++ r') : a = a' ∧ r = r' := by
  have := h.reads r
  rw [he, h'.reads r'] at this
  cases this; exact ⟨rfl, rfl⟩

theorem RT.fdRead {b : Bytes} {l : Nat} (h : b.length = l) : RT .truncation (fdRead l) b b where
  reads _ := fdRead_append h
  trunc pre suf he hs hf := by
    apply fdRead_short _ (h ▸ hf rfl)
    have := congrArg List.length he
    rw [List.length_append] at this
    have : 0 < suf.length := List.length_pos_iff.mpr hs
    omega

theorem writeVaruint_init {n : Nat} {pre suf : Bytes} (h : writeVaruint n = pre ++ suf) (hs : suf ≠ []) :
    ∀ b ∈ pre, 128 ≤ b.toNat := by
  induction n using Nat.strongRecOn generalizing pre with
  | _ n ih =>
    by_cases hn : n < 128
    · rw [writeVaruint_lt hn] at h
      have := congrArg List.length h
      have h0 : 0 < suf.length := List.length_pos_iff.mpr hs
      simp at this
      have : pre = [] := List.eq_nil_of_length_eq_zero (by omega)
      simp [this]
    · rw [writeVaruint_ge (by omega)] at h
      cases pre with
      | nil => simp
      | cons c pre =>
        rw [List.cons_append] at h
        injection h with h1 h2
        intro b hb
        rcases List.mem_cons.mp hb with rfl | hb
        · rw [← h1, BitVec.toNat_ofNat]; omega
        · exact ih (n / 128) (by omega) h2 b hb

theorem RT.readVaruint (n : Nat) : RT .truncation readVaruint (writeVaruint n) n where
  reads _ := readVaruint_write _ _
  trunc pre suf he hs _ := by
    rw [readVaruint_eq, leb_none.mpr (writeVaruint_init he hs)]

end Verif
