import Verif.Lemmas.Serialize
import Verif.Spec.Hash
/-! # C01, C02, C08 -/
namespace Verif

/-- C01: reading back what `write_varuint n` wrote yields `n` and leaves exactly what followed. -/
theorem C01_varuint_roundtrip (n : Nat) (rest : Bytes) :
    readVaruint (writeVaruint n ++ rest) = .ok (n, rest) := readVaruint_write n rest

example : writeVaruint 300 = [0xac#8, 0x02#8] := by
  rw [writeVaruint_ge (by decide), writeVaruint_lt (by decide)]
example : readVaruint [0xac#8, 0x02#8, 0x07#8] = .ok (300, [0x07#8]) := by decide

/-- C02, totality: `read_varuint` returns or raises `TruncationError`, the latter exactly when every remaining
byte has its top bit set. -/
theorem C02_varuint_total (s : Bytes) :
    ((∃ n rest, readVaruint s = .ok (n, rest)) ∨ readVaruint s = .error .truncation) ∧
    (readVaruint s = .error .truncation ↔ ∀ b ∈ s, 128 ≤ b.toNat) := by
  rw [readVaruint_eq]
  cases h : leb s with
  | none => exact ⟨.inr rfl, fun _ => leb_none.mp h, fun _ => rfl⟩
  | some p =>
    refine ⟨.inl ⟨p.1, p.2, rfl⟩, (fun h' => nomatch h'), fun h' => ?_⟩
    rw [leb_none.mpr h'] at h; cases h

/-- C02, minimality: the bytes consumed for `n` are at least as many as `write_varuint n` writes, and equal to
them when of the same number. -/
theorem C02_varuint_shortest {s : Bytes} {n : Nat} {rest : Bytes} (h : readVaruint s = .ok (n, rest)) :
    ∃ enc, s = enc ++ rest ∧ (writeVaruint n).length ≤ enc.length ∧
      (enc.length = (writeVaruint n).length → enc = writeVaruint n) := by
  rw [readVaruint_eq] at h
  cases hl : leb s with
  | none => rw [hl] at h; cases h
  | some p =>
    rw [hl] at h
    simp only [Except.ok.injEq, Prod.mk.injEq] at h
    obtain ⟨rfl, rfl⟩ := h
    exact leb_some hl

example : readVaruint [0x80#8, 0x00#8] = .ok (0, []) := by decide
example : readVaruint [0x80#8, 0x80#8] = .error .truncation := by decide

/-- C08: equal tagged digests mean equal tag and message, or a SHA-256 collision on exactly the two strings
hashed.  Tags are 16 bytes (`HashTag.__new__`, S:447-448 and `derive`, S:457). -/
theorem C08_tagged_domain_separation (H : HashFns) {t₁ t₂ m₁ m₂ : Bytes}
    (h₁ : t₁.length = 16) (h₂ : t₂.length = 16) (h : H.tagged t₁ m₁ = H.tagged t₂ m₂) :
    (t₁ = t₂ ∧ m₁ = m₂) ∨ CollidesOn H.sha256 (t₁ ++ m₁) (t₂ ++ m₂) := by
  by_cases he : t₁ ++ m₁ = t₂ ++ m₂
  · exact .inl (List.append_inj he (by omega))
  · exact .inr ⟨he, h⟩

/-- C08: `derive` gives a 16 byte tag. -/
theorem C08_derive_length (H : HashFns) (t s : Bytes) : (H.derive t s).length = 16 := by
  simp [HashFns.derive, HashFns.tagged, H.sha256_len]

/-- C08: equal derived tags mean equal tag and subtag, or the (16-byte truncated) SHA-256 collides on exactly the
two derivation strings. -/
theorem C08_derive_separation (H : HashFns) {t t' s s' : Bytes} (ht : t.length = 16) (ht' : t'.length = 16)
    (h : H.derive t s = H.derive t' s') :
    (t = t' ∧ s = s') ∨
      CollidesOn (fun m => (H.sha256 m).take 16) (derivationTag ++ (t ++ s)) (derivationTag ++ (t' ++ s')) := by
  by_cases he : derivationTag ++ (t ++ s) = derivationTag ++ (t' ++ s')
  · exact .inl (List.append_inj (List.append_cancel_left he) (by omega))
  · exact .inr ⟨he, h⟩

/-- C08: the string hashed by a derivation is never a string hashed under any other tag. -/
theorem C08_derive_domain {t s t' m : Bytes} (ht' : t'.length = 16) (hne : t' ≠ derivationTag) :
    derivationTag ++ (t ++ s) ≠ t' ++ m := fun h =>
  hne ((List.append_inj h (by simp [derivationTag, ht'])).1).symm

/-- A concrete instance of `HashFns` (not a good hash), so the statements above are not about an empty type. -/
def toyHash : HashFns where
  sha256 m := (m ++ List.replicate 32 0#8).take 32
  sha256_len m := by simp
  ripemd160 m := (m ++ List.replicate 20 0#8).take 20
  ripemd160_len m := by simp

example : toyHash.tagged derivationTag [1] = toyHash.tagged derivationTag [1] ∧ derivationTag.length = 16 := by
  decide
/-- The toy hash does collide, and `C08_tagged_domain_separation` then names the colliding strings. -/
example : CollidesOn toyHash.sha256 (derivationTag ++ [1]) (derivationTag ++ [1, 0]) := by
  unfold CollidesOn; decide

end Verif
