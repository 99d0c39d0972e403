import Verif.Lemmas.Btc
/-! # What deserialization of transactions yields -/
namespace Verif

theorem P.bind_inv {α β} {p : P α} {f : α → P β} {s s' : Bytes} {b : β} (h : (p >>= f) s = .ok (b, s')) :
    ∃ a s1, p s = .ok (a, s1) ∧ f a s1 = .ok (b, s') := by
  rw [P.bind_apply] at h
  split at h
  · exact ⟨_, _, ‹_›, h⟩
  · cases h

theorem P.lift_inv {α} {x : Py α} {s s' : Bytes} {a : α} (h : P.lift x s = .ok (a, s')) : x = .ok a ∧ s' = s := by
  unfold P.lift at h
  split at h
  · cases h; exact ⟨rfl, rfl⟩
  · cases h

theorem P.pure_inv {α} {a b : α} {s s' : Bytes} (h : (Pure.pure a : P α) s = .ok (b, s')) : a = b ∧ s' = s := by
  rw [P.pure_apply] at h
  cases h; exact ⟨rfl, rfl⟩

namespace Btc

theorem serRead_max {n : Nat} {s b rest : Bytes} (h : serRead n s = .ok (b, rest)) : n ≤ MAX_SIZE := by
  unfold serRead at h
  split at h
  · cases h
  · omega

theorem deserVarInt_lt {s rest : Bytes} {n : Nat} (h : deserVarInt s = .ok (n, rest)) : n < 2 ^ 64 := by
  unfold deserVarInt at h
  obtain ⟨r, s1, hr, h⟩ := P.bind_inv h
  have hl := (serRead_ok hr).2
  match r, hl with
  | [r], _ =>
    simp only at h
    have key : ∀ k, k ≤ 8 → (do let b ← serRead k; return leNat b : P Nat) s1 = .ok (n, rest) → n < 2 ^ 64 := by
      intro k hk h
      obtain ⟨b, s2, hb, h⟩ := P.bind_inv h
      obtain ⟨rfl, _⟩ := P.pure_inv h
      have := leNat_lt b
      rw [(serRead_ok hb).2] at this
      exact Nat.lt_of_lt_of_le this (Nat.pow_le_pow_right (by omega) (by omega))
    split at h
    · obtain ⟨rfl, _⟩ := P.pure_inv h
      have := r.isLt
      omega
    · split at h
      · exact key 2 (by omega) h
      · split at h
        · exact key 4 (by omega) h
        · exact key 8 (by omega) h

theorem deserBytes_fits {s rest b : Bytes} (h : deserBytes s = .ok (b, rest)) : b.length ≤ MAX_SIZE := by
  unfold deserBytes at h
  obtain ⟨l, s1, hl, h⟩ := P.bind_inv h
  rw [(serRead_ok h).2]
  exact serRead_max h

theorem unpackU4 {s rest b : Bytes} (h : serRead 4 s = .ok (b, rest)) : 0 ≤ unpackU b ∧ unpackU b ≤ 0xffffffff := by
  have := leNat_lt b
  rw [(serRead_ok h).2] at this
  unfold unpackU
  omega

theorem unpackS_range {k : Nat} (hk : 0 < k) {b : Bytes} (hb : b.length = k) : -(2 ^ (8 * k - 1)) ≤ unpackS k b ∧ unpackS k b < 2 ^ (8 * k - 1) := by
  have hlt := leNat_lt b
  rw [hb, show 8 * k = (8 * k - 1) + 1 by omega, Nat.pow_succ] at hlt
  unfold unpackS
  have hpow : (2 : Int) ^ (8 * k) = 2 ^ (8 * k - 1) * 2 := by
    rw [← Int.pow_succ]; congr 1; omega
  have hcast : ((2 ^ (8 * k - 1) : Nat) : Int) = (2 : Int) ^ (8 * k - 1) := by norm_cast
  rw [hpow, ← hcast]
  generalize 2 ^ (8 * k - 1) = m at *
  split <;> omega

theorem COutPoint.deser_valid {s rest : Bytes} {o : COutPoint} (h : COutPoint.deser s = .ok (o, rest)) : o.Valid := by
  unfold COutPoint.deser at h
  obtain ⟨b, s1, hb, h⟩ := P.bind_inv h
  obtain ⟨n, s2, hn, h⟩ := P.bind_inv h
  obtain ⟨h, _⟩ := P.lift_inv h
  unfold COutPoint.new at h
  split at h
  · cases h
  · split at h
    · cases h
    · cases h
      exact ⟨(serRead_ok hb).2, unpackU4 hn⟩

theorem CTxIn.deser_valid {s rest : Bytes} {i : CTxIn} (h : CTxIn.deser s = .ok (i, rest)) : i.Valid ∧ i.scriptSig.length ≤ MAX_SIZE := by
  unfold CTxIn.deser at h
  obtain ⟨p, s1, hp, h⟩ := P.bind_inv h
  obtain ⟨b, s2, hb, h⟩ := P.bind_inv h
  obtain ⟨q, s3, hq, h⟩ := P.bind_inv h
  obtain ⟨h, _⟩ := P.lift_inv h
  unfold CTxIn.new at h
  split at h
  · cases h
  · cases h
    exact ⟨⟨COutPoint.deser_valid hp, unpackU4 hq⟩, deserBytes_fits hb⟩

theorem CTxOut.deser_valid {s rest : Bytes} {o : CTxOut} (h : CTxOut.deser s = .ok (o, rest)) :
    (-(2 ^ 63) ≤ o.nValue ∧ o.nValue < 2 ^ 63) ∧ o.scriptPubKey.length ≤ MAX_SIZE := by
  unfold CTxOut.deser at h
  obtain ⟨p, s1, hp, h⟩ := P.bind_inv h
  obtain ⟨b, s2, hb, h⟩ := P.bind_inv h
  obtain ⟨h, _⟩ := P.pure_inv h
  subst h
  exact ⟨unpackS_range (by omega) (serRead_ok hp).2, deserBytes_fits hb⟩

theorem deserEach_inv {α} {de : P α} {Q : α → Prop} (hde : ∀ s a rest, de s = .ok (a, rest) → Q a) :
    ∀ (n : Nat) (s rest : Bytes) (xs : List α), deserEach de n s = .ok (xs, rest) → xs.length = n ∧ ∀ x ∈ xs, Q x
  | 0, s, rest, xs, h => by
    obtain ⟨rfl, _⟩ := P.pure_inv h
    exact ⟨rfl, by simp⟩
  | n + 1, s, rest, xs, h => by
    unfold deserEach at h
    obtain ⟨a, s1, ha, h⟩ := P.bind_inv h
    obtain ⟨as, s2, has, h⟩ := P.bind_inv h
    obtain ⟨rfl, _⟩ := P.pure_inv h
    obtain ⟨h1, h2⟩ := deserEach_inv hde n _ _ _ has
    refine ⟨by simp [h1], fun x hx => ?_⟩
    rcases List.mem_cons.mp hx with rfl | hx
    · exact hde _ _ _ ha
    · exact h2 x hx

theorem deserVector_inv {α} {de : P α} {Q : α → Prop} (hde : ∀ s a rest, de s = .ok (a, rest) → Q a)
    {s rest : Bytes} {xs : List α} (h : deserVector de s = .ok (xs, rest)) : xs.length < 2 ^ 64 ∧ ∀ x ∈ xs, Q x := by
  unfold deserVector at h
  obtain ⟨n, s1, hn, h⟩ := P.bind_inv h
  obtain ⟨h1, h2⟩ := deserEach_inv hde n _ _ _ h
  exact ⟨by rw [h1]; exact deserVarInt_lt hn, h2⟩

/-- Everything that is known of a deserialized transaction. -/
theorem CTransaction.deser_valid {s rest : Bytes} {t : CTransaction} (h : CTransaction.deser s = .ok (t, rest)) :
    t.Valid ∧ t.ScriptsFit ∧ (-(2 ^ 31) ≤ t.nVersion ∧ t.nVersion < 2 ^ 31) ∧ (∀ o ∈ t.vout, -(2 ^ 63) ≤ o.nValue ∧ o.nValue < 2 ^ 63) ∧
      t.vin.length < 2 ^ 64 ∧ t.vout.length < 2 ^ 64 := by
  unfold CTransaction.deser at h
  obtain ⟨v, s1, hv, h⟩ := P.bind_inv h
  obtain ⟨ins, s2, hi, h⟩ := P.bind_inv h
  obtain ⟨outs, s3, ho, h⟩ := P.bind_inv h
  obtain ⟨l, s4, hl, h⟩ := P.bind_inv h
  obtain ⟨h, _⟩ := P.lift_inv h
  unfold CTransaction.new at h
  split at h
  · cases h
  · cases h
    obtain ⟨i1, i2⟩ := deserVector_inv (Q := fun i : CTxIn => i.Valid ∧ i.scriptSig.length ≤ MAX_SIZE) (fun _ _ _ h => CTxIn.deser_valid h) hi
    obtain ⟨o1, o2⟩ := deserVector_inv
      (Q := fun o : CTxOut => (-(2 ^ 63) ≤ o.nValue ∧ o.nValue < 2 ^ 63) ∧ o.scriptPubKey.length ≤ MAX_SIZE) (fun _ _ _ h => CTxOut.deser_valid h) ho
    exact ⟨⟨fun i hi => (i2 i hi).1, unpackU4 hl⟩, ⟨fun i hi => (i2 i hi).2, fun o ho => (o2 o ho).2⟩,
      unpackS_range (k := 4) (by omega) (serRead_ok hv).2, fun o ho => (o2 o ho).1, i1, o1⟩

theorem CTransaction.deser_ser {s rest : Bytes} {t : CTransaction} (h : CTransaction.deser s = .ok (t, rest)) :
    (∃ e, t.ser = .ok e) ∧ t.ScriptsFit := by
  obtain ⟨h1, h2, h3, h4, h5, h6⟩ := CTransaction.deser_valid h
  exact ⟨CTransaction.ser_total h1 h2 h3 h4 h5 h6, h2⟩

theorem deserializeAll_ok {α} {de : P α} {b : Bytes} {a : α} (h : deserializeAll de b = .ok a) : de b = .ok (a, []) := by
  unfold deserializeAll at h
  split at h
  · cases h
  · split at h
    · cases h
    · rename_i _ _ h1 h2
      cases h
      rw [h1]
      simp only [ne_eq, Decidable.not_not, List.length_eq_zero_iff] at h2
      rw [h2]

end Btc
end Verif
