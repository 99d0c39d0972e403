import Verif.Spec.Base58Repr
import Verif.Props.Base58
import Verif.Lemmas.Texts
/-! # The repr of addresses and secret keys (C153) -/
namespace Verif.Btc
open Verif
open Verif.Sus (Str)
open Verif.Rp

variable {H : HashFns} {p : Prefixes}

theorem base58_plain {b : Bytes} {s : Str} (h : Base58 b s) : ∀ c ∈ s, c ≠ '\'' ∧ c ≠ '\\' ∧ c ≠ '\n' := by
  obtain ⟨k, b', ds, _, _, hd, _, _, rfl⟩ := h
  intro c hc
  rcases List.mem_append.mp hc with h | h
  · obtain ⟨_, rfl⟩ := List.mem_replicate.mp h
    decide
  · obtain ⟨d, hm, rfl⟩ := List.mem_map.mp h
    have key : ∀ d : Fin 58, alphabet.getD d '?' ≠ '\'' ∧ alphabet.getD d '?' ≠ '\\' ∧ alphabet.getD d '?' ≠ '\n' := by decide
    exact key ⟨d, hd d hm⟩

theorem call_text {c : B58Cls} {s : Str} (hs : ∀ c ∈ s, c ≠ '\'' ∧ c ≠ '\\' ∧ c ≠ '\n') :
    Rp.parse (c.pyName ++ '(' :: (('\'' :: (s ++ ['\''])) ++ [')'])) = some (.call c.pyName [.str s]) := by
  have ha := args_one (close := ')') (Or.inl rfl) (str_at hs).expr
  cases c
  · exact (call_at (c := 'C') (f := "Base58Data".toList) (by decide) (by decide) ha).expr.parse
  · exact (call_at (c := 'C') (f := "BitcoinAddress".toList) (by decide) (by decide) ha).expr.parse
  · exact (call_at (c := 'P') (f := "2SHBitcoinAddress".toList) (by decide) (by decide) ha).expr.parse
  · exact (call_at (c := 'P') (f := "2PKHBitcoinAddress".toList) (by decide) (by decide) ha).expr.parse
  · exact (call_at (c := 'C') (f := "BitcoinSecret".toList) (by decide) (by decide) ha).expr.parse

theorem named (c : B58Cls) : classNamed c.pyName = some c := by cases c <;> decide

theorem evalB58_text {c : B58Cls} {s : Str} (hs : ∀ c ∈ s, c ≠ '\'' ∧ c ≠ '\\' ∧ c ≠ '\n') :
    evalB58 H p (c.pyName ++ '(' :: (('\'' :: (s ++ ['\''])) ++ [')'])) = some (construct H p c s) := by
  unfold evalB58
  rw [call_text hs]
  simp only [named, Option.map_some]

/-- The text of an object whose version is that of a byte. -/
theorem strB58_text {x : B58Data} (hx : 0 ≤ x.nVersion ∧ x.nVersion ≤ 255) :
    ∃ (v : Byte) (s : Str), (v.toNat : Int) = x.nVersion ∧ strB58 H x = .ok s ∧ Base58 (checked H v x.bytes) s := by
  refine ⟨BitVec.ofNat 8 x.nVersion.toNat, b58encode (checked H (BitVec.ofNat 8 x.nVersion.toNat) x.bytes), ?_, ?_, base58_encode _⟩
  · rw [BitVec.toNat_ofNat, Nat.mod_eq_of_lt (by omega)]; omega
  · unfold strB58
    rw [if_pos hx]
    rfl

theorem newB58_of {v : Byte} {data : Bytes} {s : Str} (h : Base58 (checked H v data) s) (c : B58Cls) : newB58 H p c s = fromBytes p c data v.toNat := by
  rcases newB58_eq (H := H) (p := p) c s with ⟨v', data', g1, g2⟩ | ⟨g, _⟩
  · obtain ⟨rfl, rfl⟩ := parts_unique g1 (Or.inl h)
    exact g2
  · exact absurd ⟨v, data, Or.inl h⟩ g

/-- C153: `repr` is the class called with the text of the object. -/
theorem C153_text {x : B58Data} (hx : 0 ≤ x.nVersion ∧ x.nVersion ≤ 255) :
    ∃ (v : Byte) (s : Str), (v.toNat : Int) = x.nVersion ∧ Base58 (checked H v x.bytes) s ∧ strB58 H x = .ok s ∧
      reprB58 H x = .ok (x.cls.pyName ++ "('".toList ++ s ++ "')".toList) := by
  obtain ⟨v, s, h1, h2, h3⟩ := strB58_text (H := H) hx
  refine ⟨v, s, h1, h3, h2, ?_⟩
  unfold reprB58
  rw [h2, Except.bind_ok]
  simp [pure, Except.pure]

/-- C153: evaluating the `repr` on any chain gives the object, if its version is the one of its kind there; otherwise it raises. -/
theorem C153_exact (hp : p.Ok) {x : B58Data} {text : Str} (hx : 0 ≤ x.nVersion ∧ x.nVersion ≤ 255) (h : reprB58 H x = .ok text) :
    (x.cls = .data → evalB58 H p text = some (.ok x)) ∧
    (x.cls = .p2sh → evalB58 H p text = some (if x.nVersion = p.script then .ok x else .error .valueError)) ∧
    (x.cls = .p2pkh → evalB58 H p text = some (if x.nVersion = p.pubkey then .ok x else .error .valueError)) ∧
    (x.cls = .secret → evalB58 H p text = some (if x.nVersion = p.secret then .ok x else .error .base58)) := by
  obtain ⟨v, s, h1, h2, h3⟩ := strB58_text (H := H) hx
  unfold reprB58 at h
  rw [h2, Except.bind_ok] at h
  cases h
  rw [evalB58_text (base58_plain h3)]
  obtain ⟨c, data, n⟩ := x
  have h1 : (v.toNat : Int) = n := h1
  have h3 : Base58 (checked H v data) s := h3
  have hx : 0 ≤ n ∧ n ≤ 255 := hx
  have hb : ∀ c, baseFromBytes c data (v.toNat : Int) = .ok ⟨c, data, n⟩ := by
    intro c
    unfold baseFromBytes
    rw [h1, if_neg (by simp only [hx, and_self, not_true_eq_false, not_false_eq_true])]
  refine ⟨?_, ?_, ?_, ?_⟩ <;> (intro hc; have hc : c = _ := hc; subst hc; refine congrArg some ?_)
  · show newB58 H p .data s = _
    rw [newB58_of h3]
    exact hb _
  · show newB58 H p .p2sh s = if n = p.script then _ else _
    rw [newB58_of h3]
    unfold fromBytes
    simp only [addrFromBytes_eq hp]
    rw [h1]
    by_cases e : n = p.script
    · simp [e]
    · simp [e]
  · show newB58 H p .p2pkh s = if n = p.pubkey then _ else _
    rw [newB58_of h3]
    unfold fromBytes
    simp only [addrFromBytes_eq hp]
    rw [h1]
    by_cases e : n = p.pubkey
    · simp [e, hp.different.symm]
    · simp [e]
  · show (newSecret H p s).map Prod.fst = if n = p.secret then _ else _
    unfold newSecret
    rw [newB58_of h3]
    unfold fromBytes
    simp only [hb, Except.bind_ok, secretInit]
    by_cases e : n = p.secret
    · simp [e]; rfl
    · simp [e]; rfl

/-- What the constructors make. -/
theorem Made.kinds {x : B58Data} (h : Made H p x) : (0 ≤ x.nVersion ∧ x.nVersion ≤ 255) ∧
    (x.cls = .data ∨ x.cls = .p2sh ∧ x.nVersion = p.script ∨ x.cls = .p2pkh ∧ x.nVersion = p.pubkey ∨ x.cls = .secret ∧ x.nVersion = p.secret) := by
  have hbase : ∀ {c data n y}, baseFromBytes c data n = .ok y → (0 ≤ n ∧ n ≤ 255) ∧ y = ⟨c, data, n⟩ := by
    intro c data n y h
    unfold baseFromBytes at h
    split at h
    · cases h
    · rename_i hn
      cases h
      exact ⟨not_not.mp hn, rfl⟩
  have haddr : ∀ {c data n y}, addrFromBytes p c data n = .ok y → (0 ≤ n ∧ n ≤ 255) ∧ (y = ⟨.p2sh, data, n⟩ ∧ n = p.script ∨ y = ⟨.p2pkh, data, n⟩ ∧ n = p.pubkey) := by
    intro c data n y h
    unfold addrFromBytes at h
    obtain ⟨z, h1, h⟩ := Except.bind_eq_ok h
    obtain ⟨hn, rfl⟩ := hbase h1
    split at h
    · rename_i e
      cases h
      exact ⟨hn, .inl ⟨rfl, e⟩⟩
    · split at h
      · rename_i e
        cases h
        exact ⟨hn, .inr ⟨rfl, e⟩⟩
      · cases h
  have hfrom : ∀ {c data n y}, fromBytes p c data n = .ok y → (0 ≤ y.nVersion ∧ y.nVersion ≤ 255) ∧
      (y.cls = .data ∨ y.cls = .p2sh ∧ y.nVersion = p.script ∨ y.cls = .p2pkh ∧ y.nVersion = p.pubkey ∨ c = .secret ∧ y.cls = .secret) := by
    intro c data n y h
    have ha : addrFromBytes p c data n = .ok y → (0 ≤ y.nVersion ∧ y.nVersion ≤ 255) ∧
      (y.cls = .data ∨ y.cls = .p2sh ∧ y.nVersion = p.script ∨ y.cls = .p2pkh ∧ y.nVersion = p.pubkey ∨ c = .secret ∧ y.cls = .secret) := by
      intro h
      obtain ⟨h1, ⟨rfl, h2⟩ | ⟨rfl, h2⟩⟩ := haddr h
      · exact ⟨h1, .inr (.inl ⟨rfl, h2⟩)⟩
      · exact ⟨h1, .inr (.inr (.inl ⟨rfl, h2⟩))⟩
    unfold fromBytes at h
    cases c with
    | data => obtain ⟨h1, rfl⟩ := hbase h; exact ⟨h1, .inl rfl⟩
    | secret => obtain ⟨h1, rfl⟩ := hbase h; exact ⟨h1, .inr (.inr (.inr ⟨rfl, rfl⟩))⟩
    | address => exact ha h
    | p2sh =>
      simp only at h
      split at h
      · cases h
      · exact ha h
    | p2pkh =>
      simp only at h
      split at h
      · cases h
      · exact ha h
  have hinit : ∀ {y k}, secretInit p y = .ok k → y.nVersion = p.secret := by
    intro y k h
    unfold secretInit at h
    split at h
    · cases h
    · rename_i e
      exact not_not.mp e
  have hnew : ∀ {c s y}, newB58 H p c s = .ok y → (0 ≤ y.nVersion ∧ y.nVersion ≤ 255) ∧
      (y.cls = .data ∨ y.cls = .p2sh ∧ y.nVersion = p.script ∨ y.cls = .p2pkh ∧ y.nVersion = p.pubkey ∨ c = .secret ∧ y.cls = .secret) := by
    intro c s y h
    rcases newB58_eq (H := H) (p := p) c s with ⟨v, data, _, g⟩ | ⟨_, g⟩
    · rw [g] at h
      exact hfrom h
    · rw [g] at h
      cases h
  cases h with
  | bytes cls data n hc h =>
    obtain ⟨h1, h2 | h2 | h2 | h2⟩ := hfrom h
    · exact ⟨h1, .inl h2⟩
    · exact ⟨h1, .inr (.inl h2)⟩
    · exact ⟨h1, .inr (.inr (.inl h2))⟩
    · exact absurd h2.1 hc
  | text cls s h =>
    by_cases hc : cls = .secret
    · subst hc
      have h : (newSecret H p s).map Prod.fst = .ok x := h
      rcases hn : newSecret H p s with e | ⟨y, k⟩
      · rw [hn] at h
        cases h
      · rw [hn] at h
        cases h
        unfold newSecret at hn
        obtain ⟨y, h1, hn⟩ := Except.bind_eq_ok hn
        obtain ⟨k', h2, hn⟩ := Except.bind_eq_ok hn
        cases hn
        obtain ⟨g1, g2 | g2 | g2 | g2⟩ := hnew h1
        · exact ⟨g1, .inl g2⟩
        · exact ⟨g1, .inr (.inl g2)⟩
        · exact ⟨g1, .inr (.inr (.inl g2))⟩
        · exact ⟨g1, .inr (.inr (.inr ⟨g2.2, hinit h2⟩))⟩
    · have h : newB58 H p cls s = .ok x := by cases cls <;> first | exact h | exact absurd rfl hc
      obtain ⟨h1, h2 | h2 | h2 | h2⟩ := hnew h
      · exact ⟨h1, .inl h2⟩
      · exact ⟨h1, .inr (.inl h2)⟩
      · exact ⟨h1, .inr (.inr (.inl h2))⟩
      · exact absurd h2.1 hc
  | secret secret compressed k h =>
    unfold fromSecretBytes at h
    obtain ⟨y, h1, h⟩ := Except.bind_eq_ok h
    obtain ⟨k', h2, h⟩ := Except.bind_eq_ok h
    cases h
    obtain ⟨g1, g2 | g2 | g2 | g2⟩ := hfrom h1
    · exact ⟨g1, .inl g2⟩
    · exact ⟨g1, .inr (.inl g2)⟩
    · exact ⟨g1, .inr (.inr (.inl g2))⟩
    · exact ⟨g1, .inr (.inr (.inr ⟨g2.2, hinit h2⟩))⟩

/-- C153: whatever a constructor made has a `repr`; evaluating it gives an object of the same class, bytes and version. -/
theorem C153_back (hp : p.Ok) {x : B58Data} (h : Made H p x) : ∃ text, reprB58 H x = .ok text ∧ evalB58 H p text = some (.ok x) := by
  obtain ⟨h1, h2⟩ := h.kinds
  obtain ⟨v, s, _, _, _, ht⟩ := C153_text (H := H) h1
  obtain ⟨a, b, c, d⟩ := C153_exact (p := p) hp h1 ht
  refine ⟨_, ht, ?_⟩
  rcases h2 with h2 | ⟨h2, h3⟩ | ⟨h2, h3⟩ | ⟨h2, h3⟩
  · exact a h2
  · rw [b h2, if_pos h3]
  · rw [c h2, if_pos h3]
  · rw [d h2, if_pos h3]

/-- C153: addresses and secret keys of one network are refused on the other. -/
theorem C153_networks {x : B58Data} {text : Str} (hx : x.cls ≠ .data) (h : reprB58 H x = .ok text) :
    (Made H mainPrefixes x → evalB58 H testPrefixes text = some (.error (if x.cls = .secret then .base58 else .valueError))) ∧
    (Made H testPrefixes x → evalB58 H mainPrefixes text = some (.error (if x.cls = .secret then .base58 else .valueError))) := by
  constructor
  · intro hm
    obtain ⟨h1, h2⟩ := hm.kinds
    obtain ⟨_, b, c, d⟩ := C153_exact testPrefixes_ok h1 h
    rcases h2 with h2 | ⟨h2, h3⟩ | ⟨h2, h3⟩ | ⟨h2, h3⟩
    · exact absurd h2 hx
    · rw [b h2, h3, h2]; rfl
    · rw [c h2, h3, h2]; rfl
    · rw [d h2, h3, h2]; rfl
  · intro hm
    obtain ⟨h1, h2⟩ := hm.kinds
    obtain ⟨_, b, c, d⟩ := C153_exact mainPrefixes_ok h1 h
    rcases h2 with h2 | ⟨h2, h3⟩ | ⟨h2, h3⟩ | ⟨h2, h3⟩
    · exact absurd h2 hx
    · rw [b h2, h3, h2]; rfl
    · rw [c h2, h3, h2]; rfl
    · rw [d h2, h3, h2]; rfl

/-- C153: objects made on one network have the same `repr` only if class, bytes and version are the same. -/
theorem C153_same (hp : p.Ok) {x y : B58Data} (hx : Made H p x) (hy : Made H p y) : reprB58 H x = reprB58 H y ↔ x = y := by
  refine ⟨fun h => ?_, fun h => h ▸ rfl⟩
  obtain ⟨s, h1, h2⟩ := C153_back hp hx
  obtain ⟨t, g1, g2⟩ := C153_back hp hy
  rw [h1, g1] at h
  cases h
  rw [h2] at g2
  cases g2
  rfl

/-- A secret key made by `from_bytes` with another version has a `repr` that cannot be evaluated. -/
example : ∃ x text, fromBytes mainPrefixes .secret [0x11#8] 5 = .ok x ∧ reprB58 H x = .ok text ∧ evalB58 H mainPrefixes text = some (.error .base58) := by
  obtain ⟨v, s, _, _, _, ht⟩ := C153_text (H := H) (x := ⟨.secret, [0x11#8], 5⟩) ⟨by decide, by decide⟩
  exact ⟨_, _, rfl, ht, (C153_exact mainPrefixes_ok ⟨by decide, by decide⟩ ht).2.2.2 rfl⟩

/-- An address of an output to a key, and where the theorems apply to it. -/
example : Made H mainPrefixes ⟨.p2pkh, List.replicate 20 0x00#8, 0⟩ ∧
    (∃ text, reprB58 H ⟨.p2pkh, List.replicate 20 0x00#8, 0⟩ = .ok text ∧ evalB58 H testPrefixes text = some (.error .valueError)) := by
  have hm : Made H mainPrefixes ⟨.p2pkh, List.replicate 20 0x00#8, 0⟩ := .bytes .address _ 0 (by decide) rfl
  obtain ⟨text, h, _⟩ := C153_back mainPrefixes_ok hm
  exact ⟨hm, text, h, (C153_networks (by decide) h).1 hm⟩

/-- A secret key. -/
example : Made H testPrefixes ⟨.secret, List.replicate 32 0x07#8 ++ [0x01#8], 239⟩ :=
  .secret (List.replicate 32 0x07#8) true ⟨List.replicate 32 0x07#8, true⟩ rfl

end Verif.Btc
