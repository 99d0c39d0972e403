import Verif.Spec.Key
import Verif.Spec.Spend
import Verif.Props.MsgText
import Verif.Props.Base58
/-!
# C157, C158: keys
-/
namespace Verif.Btc
open Verif
open Verif.Sus (Str)
variable {S : Ssl} {Proper : S.Pt → Prop}

theorem take_all {s : Bytes} (h : s.length = 32) : s.take 32 = s := List.take_of_length_le (by omega)

/-- C157: a key made of a secret of 32 bytes has its public key in the form asked for. -/
theorem C157_key (hS : S.Works Proper) {secret : Bytes} {P : S.Pt} (hl : secret.length = 32) (hP : S.mul secret = some P) (hp : Proper P)
    (compressed : Bool) : ∃ k : CKey S, CKey.new secret compressed = .ok k ∧ k.pub.bytes = S.enc compressed P ∧
      k.pub.isFullyvalid = true ∧ k.pub.isValid = true ∧ k.isCompressed = compressed := by
  have e : (CKey.new secret compressed : Py (CKey S)) =
      .ok ⟨CPubKey.new (S.enc compressed P) ⟨some secret, some P, compressed⟩⟩ := by
    unfold CKey.new EcKey.setSecret
    rw [take_all hl, hP]
    rfl
  refine ⟨_, e, rfl, ?_, ?_, ?_⟩
  · unfold CPubKey.new EcKey.setPubkey
    rw [hS.back P compressed hp]
  · unfold CPubKey.isValid CPubKey.new
    simp only [decide_eq_true_eq]
    rw [hS.size P compressed hp]
    split <;> omega
  · unfold CKey.isCompressed CPubKey.isCompressed CPubKey.new
    simp only
    rw [hS.size P compressed hp]
    cases compressed <;> rfl

/-- C157: without a public key there is no key. -/
theorem C157_none {secret : Bytes} (hl : secret.length = 32) (h : S.mul secret = none) (compressed : Bool) :
    (CKey.new secret compressed : Py (CKey S)) = .error .valueError := by
  unfold CKey.new EcKey.setSecret
  rw [take_all hl, h]
  rfl

/-- C157: hashes of 32 bytes are signed, and nothing else; the public key accepts the signature, as does one made of its bytes. -/
theorem C157_sign (hS : S.Works Proper) {secret : Bytes} {P : S.Pt} (hl : secret.length = 32) (hP : S.mul secret = some P) (hp : Proper P)
    {compressed : Bool} {k : CKey S} (hk : CKey.new secret compressed = .ok k) :
    k.sign .other = .error .typeError ∧ (∀ h : Bytes, h.length ≠ 32 → k.sign (.bytes h) = .error .valueError) ∧
    ∀ h : Bytes, h.length = 32 → ∃ sig, k.sign (.bytes h) = .ok sig ∧ S.sign secret h = some sig ∧ k.pub.verify h sig = true ∧
      (CPubKey.new (S := S) k.pub.bytes).verify h sig = true := by
  have e : (CKey.new secret compressed : Py (CKey S)) =
      .ok ⟨CPubKey.new (S.enc compressed P) ⟨some secret, some P, compressed⟩⟩ := by
    unfold CKey.new EcKey.setSecret
    rw [take_all hl, hP]
    rfl
  rw [e] at hk
  cases hk
  refine ⟨rfl, fun h hh => ?_, fun h hh => ?_⟩
  · unfold CKey.sign EcKey.sign
    simp only
    rw [if_pos hh]
  · obtain ⟨sig, h1, h2, _⟩ := hS.signs _ P h hP hp hh
    refine ⟨sig, ?_, h1, ?_, ?_⟩
    · unfold CKey.sign EcKey.sign CPubKey.new EcKey.setPubkey
      rw [hS.back P compressed hp]
      simp only
      rw [if_neg (by simpa using hh), Option.bind_some, h1]
    · unfold CPubKey.verify EcKey.verify CPubKey.new EcKey.setPubkey
      rw [hS.back P compressed hp]
      exact h2
    · unfold CPubKey.verify EcKey.verify CPubKey.new EcKey.setPubkey
      simp only
      rw [hS.back P compressed hp]
      exact h2

/-- C157: the public key of a key accepts what the one made of its bytes accepts, and the one that the interpreter of scripts makes. -/
theorem C157_same (hS : S.Works Proper) {secret : Bytes} {P : S.Pt} (hl : secret.length = 32) (hP : S.mul secret = some P) (hp : Proper P)
    {compressed : Bool} {k : CKey S} (hk : CKey.new secret compressed = .ok k) (h sig : Bytes) :
    k.pub.verify h sig = S.verify P h sig ∧ (CPubKey.new (S := S) k.pub.bytes).verify h sig = S.verify P h sig ∧
      checkWith S k.pub.bytes h sig = S.verify P h sig := by
  have e : (CKey.new secret compressed : Py (CKey S)) =
      .ok ⟨CPubKey.new (S.enc compressed P) ⟨some secret, some P, compressed⟩⟩ := by
    unfold CKey.new EcKey.setSecret
    rw [take_all hl, hP]
    rfl
  rw [e] at hk
  cases hk
  unfold checkWith CPubKey.verify EcKey.verify CPubKey.new EcKey.setPubkey
  simp only
  rw [hS.back P compressed hp]
  exact ⟨rfl, rfl, rfl⟩

/-- C157: so it is a key as C114–C116 assume: they hold for the keys of the wallet if the interpreter checks signatures with `CECKey`. -/
theorem C157_signer (hS : S.Works Proper) {secret : Bytes} {P : S.Pt} (hl : secret.length = 32) (hP : S.mul secret = some P) (hp : Proper P)
    {compressed : Bool} {k : CKey S} (hk : CKey.new secret compressed = .ok k) (C : Crypto) (hC : C.verify = checkWith S) (g : Signer)
    (hg : g.pub = k.pub.bytes) (hs : ∀ h, h.length = 32 → k.sign (.bytes h) = .ok (g.sign h)) : g.Works C := by
  have hsig : ∀ h, h.length = 32 → S.verify P h (g.sign h) = true ∧ 20 ≤ (g.sign h).length ∧ (g.sign h).length ≤ 72 ∧ (g.sign h).head? = some 0x30#8 := by
    intro h hh
    obtain ⟨sig, h1, h2, _⟩ := (C157_sign hS hl hP hp hk).2.2 h hh
    rw [hs h hh] at h1
    cases h1
    obtain ⟨sig', g1, g2⟩ := hS.signs _ P h hP hp hh
    rw [h2] at g1
    cases g1
    exact g2
  obtain ⟨k', hk', hb, _⟩ := C157_key hS hl hP hp compressed
  rw [hk] at hk'
  cases hk'
  refine ⟨fun h hh => ?_, fun h hh => (hsig h hh).2.1, fun h hh => by have := (hsig h hh).2.2.1; omega, ?_, fun h b hh => ?_⟩
  · rw [hC, hg, (C157_same hS hl hP hp hk h _).2.2]
    exact (hsig h hh).1
  · rw [hg, hb, hS.size P compressed hp]
    split <;> omega
  · intro e
    obtain ⟨x, t, h1, h2⟩ := hS.lead P compressed hp
    rw [hg, hb, h1] at e
    have := (hsig h hh).2.2.2
    cases hq : g.sign h with
    | nil => rw [hq] at this; cases this
    | cons y u =>
      rw [hq] at e this
      cases this
      rw [← (List.cons.inj e).1] at h2
      revert h2
      decide

/-- C157: a key that was written down as a text is the same key again. -/
theorem C157_text {H : HashFns} {p : Prefixes} (hp : p.Ok) {secret : Bytes} (hl : secret.length = 32) (compressed : Bool) :
    ∃ x s a, fromSecretBytes p secret compressed = .ok (x, a) ∧ strB58 H x = .ok s ∧ newSecret H p s = .ok (x, a) ∧
      (CKey.new a.secret a.compressed : Py (CKey S)) = CKey.new secret compressed := by
  obtain ⟨x, s, h1, h2, h3⟩ := C102_round_trip_partial (H := H) hp hl compressed
  exact ⟨x, s, _, h1, h2, h3, rfl⟩

/-- C157: public keys that are printed alike are alike. -/
theorem C157_repr {p q : CPubKey S} : p.repr = q.repr ↔ p.bytes = q.bytes := by
  constructor
  · intro h
    unfold CPubKey.repr at h
    exact (Rp.reprBytes_split (List.append_cancel_left h)).1
  · intro h
    unfold CPubKey.repr
    rw [h]

/-! ## Keys that are none -/

/-- What one may expect: bytes that are no public key accept no signature. -/
def C158_statement : Prop := ∀ (S : Ssl) (Proper : S.Pt → Prop), S.Works Proper → ∀ buf : Bytes,
  (CPubKey.new (S := S) buf).isFullyvalid = false → ∀ h sig, (CPubKey.new (S := S) buf).verify h sig = false ∧ checkWith S buf h sig = false

/-- C158: `verify` does not look at `is_fullyvalid`; such a key accepts what libssl accepts for the point that a new key is left with.
This holds of the interpreter of scripts too. -/
theorem C158_exact_partial {buf : Bytes} (hb : (CPubKey.new (S := S) buf).isFullyvalid = false) (h sig : Bytes) :
    (CPubKey.new (S := S) buf).verify h sig = S.verify S.unset h sig ∧ checkWith S buf h sig = S.verify S.unset h sig := by
  unfold CPubKey.new EcKey.setPubkey at hb
  unfold checkWith CPubKey.verify EcKey.verify CPubKey.new EcKey.setPubkey
  cases hd : S.dec buf with
  | some x => rw [hd] at hb; cases hb
  | none => exact ⟨rfl, rfl⟩

/-- C158: so the expectation is met exactly if libssl accepts nothing for that point, or there is nothing but public keys. -/
theorem C158_when_partial (S : Ssl) : (∀ buf : Bytes, (CPubKey.new (S := S) buf).isFullyvalid = false →
      ∀ h sig, (CPubKey.new (S := S) buf).verify h sig = false ∧ checkWith S buf h sig = false) ↔
    (∀ buf, S.dec buf ≠ none) ∨ ∀ h sig, S.verify S.unset h sig = false := by
  have hv : ∀ buf, (CPubKey.new (S := S) buf).isFullyvalid = false ↔ S.dec buf = none := by
    intro buf
    unfold CPubKey.new EcKey.setPubkey
    cases S.dec buf <;> simp
  constructor
  · intro h
    by_cases hd : ∃ buf, S.dec buf = none
    · obtain ⟨buf, hb⟩ := hd
      refine .inr fun x y => ?_
      rw [← (C158_exact_partial ((hv buf).mpr hb) x y).1]
      exact (h buf ((hv buf).mpr hb) x y).1
    · exact .inl fun buf hb => hd ⟨buf, hb⟩
  · rintro (h | h) buf hb x y
    · exact absurd ((hv buf).mp hb) (h buf)
    · rw [(C158_exact_partial hb x y).1, (C158_exact_partial hb x y).2, h]
      exact ⟨rfl, rfl⟩

/-- C158: a valid key accepts what libssl accepts for its point. -/
theorem C158_valid_partial {buf : Bytes} {P : S.Pt} {c : Bool} (hb : S.dec buf = some (P, c)) (h sig : Bytes) :
    (CPubKey.new (S := S) buf).isFullyvalid = true ∧ (CPubKey.new (S := S) buf).verify h sig = S.verify P h sig ∧
      checkWith S buf h sig = S.verify P h sig := by
  unfold checkWith CPubKey.verify EcKey.verify CPubKey.new EcKey.setPubkey
  rw [hb]
  exact ⟨rfl, rfl, rfl⟩

/-- A library for one key, which accepts one signature for every hash and every point. -/
def Ex.ssl : Ssl where
  Pt := Unit
  mul s := if s = List.replicate 32 7#8 then some () else none
  enc c _ := if c then 0x02#8 :: List.replicate 32 1#8 else 0x04#8 :: List.replicate 64 1#8
  dec b := if b = 0x02#8 :: List.replicate 32 1#8 then some ((), true) else if b = 0x04#8 :: List.replicate 64 1#8 then some ((), false) else none
  unset := ()
  sign _ _ := some (0x30#8 :: List.replicate 69 2#8)
  verify _ _ sig := decide (sig = 0x30#8 :: List.replicate 69 2#8)

theorem Ex.ssl_works : Ex.ssl.Works fun _ => True where
  back := by rintro ⟨⟩ c _; cases c <;> rfl
  size := by rintro ⟨⟩ c _; cases c <;> decide
  lead := by rintro ⟨⟩ c _; cases c <;> exact ⟨_, _, rfl, by decide⟩
  signs := by
    rintro s ⟨⟩ h _ _ _
    exact ⟨_, rfl, rfl, by decide, by decide, by decide⟩

/-- A case of C157. -/
example : Ex.ssl.mul (List.replicate 32 7#8) = some () ∧ (List.replicate 32 7#8).length = 32 := ⟨rfl, rfl⟩

/-- False for this library: the empty key accepts a signature. -/
theorem C158_refuted : ¬ C158_statement := by
  intro h
  have h1 := (h Ex.ssl _ Ex.ssl_works [] rfl [] (0x30#8 :: List.replicate 69 2#8)).1
  have h2 : (CPubKey.new (S := Ex.ssl) []).verify [] (0x30#8 :: List.replicate 69 2#8) = true := by decide
  rw [h2] at h1
  cases h1

end Verif.Btc
