import Verif.Lemmas.Base58
import Verif.Props.ScriptEval
/-! # C98–C102: base 58, addresses, secret keys -/
namespace Verif.Btc
open Verif
open Verif.Sus (Str)

/-! ## C98: base 58 -/

/-- `encode(b)` is the base 58 text of `b`, of which there is one. -/
theorem C98_encode (b : Bytes) (s : Str) : b58encode b = s ↔ Base58 b s :=
  ⟨fun h => h ▸ base58_encode b, fun h => base58_text (base58_encode b) h⟩

/-- `decode(s)` is the value of which `s` is the base 58 text. -/
theorem C98_decode (b : Bytes) (s : Str) : b58decode s = .ok b ↔ Base58 b s := by
  refine ⟨fun h => ?_, base58_decode⟩
  by_cases ha : ∀ c ∈ s, c ∈ alphabet
  · obtain ⟨b', hb⟩ := base58_exists ha
    rw [base58_decode hb] at h
    cases h
    exact hb
  · rw [decode_bad (by simpa using ha)] at h
    cases h

/-- A text has a value exactly if all its characters are of the 58; otherwise `decode` raises `InvalidBase58Error`. -/
theorem C98_characters (s : Str) : ((∀ c ∈ s, c ∈ alphabet) → ∃ b, b58decode s = .ok b) ∧ ((∃ c ∈ s, c ∉ alphabet) → b58decode s = .error .base58) :=
  ⟨fun h => (base58_exists h).imp fun _ => base58_decode, decode_bad⟩

/-- Encoding and decoding are inverse to each other. -/
theorem C98_round_trip (b : Bytes) (s : Str) : b58decode s = .ok b ↔ b58encode b = s := by
  rw [C98_decode, C98_encode]

/-! ## C99: version and checksum -/

/-- The texts accepted are those of a version byte, data and the first four bytes of the hash of both. -/
def C99_statement : Prop := ∀ (H : HashFns) (p : Prefixes) (s : Str) (x : B58Data),
  newB58 H p .data s = .ok x ↔ ∃ (v : Byte) (data : Bytes), Base58 (checked H v data) s ∧ x = ⟨.data, data, v.toNat⟩

section
variable {H : HashFns} {p : Prefixes}

/-- The texts of four bytes that are the start of the hash of the first of them.  The version byte is part of the checksum. -/
def Overlapping (H : HashFns) (s : Str) (v : Byte) : Prop := ∃ a b c, Base58 [v, a, b, c] s ∧ (H.sha256 (H.sha256 [v])).take 4 = [v, a, b, c]

/-- What `CBase58Data.__new__` takes apart. -/
def Parts (H : HashFns) (s : Str) (v : Byte) (data : Bytes) : Prop := Base58 (checked H v data) s ∨ Overlapping H s v ∧ data = []

theorem check_length (x : Bytes) : ((H.hash256 x).take 4).length = 4 := by
  rw [List.length_take, HashFns.hash256, H.sha256_len]
  rfl

theorem parts_iff {k : Bytes} (v : Byte) (data : Bytes) :
    (k.drop (k.length - 4) = (H.hash256 (k.take 1 ++ (k.drop 1).take (k.length - 5))).take 4 ∧ k.take 1 = [v] ∧ (k.drop 1).take (k.length - 5) = data) ↔
    k = checked H v data ∨ (H.sha256 (H.sha256 [v])).take 4 = k ∧ k.take 1 = [v] ∧ data = [] := by
  constructor
  · rintro ⟨h1, h2, h3⟩
    rw [h2, h3] at h1
    have hl := congrArg List.length h1
    rw [check_length, List.length_drop] at hl
    rcases k with _ | ⟨x, k⟩
    · simp at h2
    · have hx : x = v := by simpa using h2
      subst hx
      rw [List.length_cons] at hl h1 h3
      rw [List.drop_succ_cons, List.drop_zero] at h3
      by_cases h5 : 4 ≤ k.length
      · left
        have e : k.length + 1 - 4 = (k.length + 1 - 5) + 1 := by omega
        rw [e, List.drop_succ_cons] at h1
        have : k = data ++ (H.sha256 (H.sha256 (x :: data))).take 4 := by
          have := (List.take_append_drop (k.length + 1 - 5) k).symm
          rwa [h3, h1] at this
        unfold checked
        rw [List.cons_append, ← this]
      · right
        have e : k.length + 1 - 4 = 0 := by omega
        have e' : k.length + 1 - 5 = 0 := by omega
        rw [e', List.take_zero] at h3
        subst h3
        rw [e, List.drop_zero] at h1
        exact ⟨h1.symm, rfl, rfl⟩
  · rintro (rfl | ⟨h1, h2, rfl⟩)
    · have hl : ((H.sha256 (H.sha256 (v :: data))).take 4).length = 4 := check_length (H := H) (v :: data)
      have e1 : (checked H v data).length = data.length + 5 := by
        unfold checked
        rw [List.length_append, hl, List.length_cons]
      have e3 : (checked H v data).drop 1 = data ++ (H.sha256 (H.sha256 (v :: data))).take 4 := rfl
      have e4 : ((checked H v data).drop 1).take ((checked H v data).length - 5) = data := by
        rw [e3, e1, Nat.add_sub_cancel, List.take_left]
      refine ⟨?_, rfl, e4⟩
      rw [e4, e1]
      have : data.length + 5 - 4 = (v :: data).length := by simp
      rw [this]
      unfold checked
      rw [List.drop_left]
      rfl
    · have hk : k.length = 4 := by
        rw [← h1]
        exact check_length (H := H) [v]
      rw [hk, h2]
      exact ⟨by rw [Nat.sub_self, List.drop_zero, ← h1]; rfl, rfl, rfl⟩

/-- What `cls(s)` does with the parts of the text. -/
theorem newB58_eq (cls : B58Cls) (s : Str) : (∃ v data, Parts H s v data ∧ newB58 H p cls s = fromBytes p cls data v.toNat) ∨
    (¬ ∃ v data, Parts H s v data) ∧ newB58 H p cls s = .error .base58 := by
  unfold newB58
  rcases hd : b58decode s with e | k
  · right
    constructor
    · rintro ⟨v, data, h | ⟨⟨a, b, c, h, _⟩, _⟩⟩ <;> rw [base58_decode h] at hd <;> cases hd
    · have : e = .base58 := by
        by_cases ha : ∀ c ∈ s, c ∈ alphabet
        · obtain ⟨b, hb⟩ := (C98_characters s).1 ha
          rw [hb] at hd
          cases hd
        · rw [decode_bad (by simpa using ha)] at hd
          cases hd
          rfl
      rw [this]
      rfl
  · have hb := (C98_decode k s).mp hd
    have hparts : ∀ v data, Parts H s v data ↔ (k.drop (k.length - 4) = (H.hash256 (k.take 1 ++ (k.drop 1).take (k.length - 5))).take 4 ∧ k.take 1 = [v] ∧ (k.drop 1).take (k.length - 5) = data) := by
      intro v data
      rw [parts_iff]
      have one : ∀ {k'}, Base58 k' s → k' = k := fun h => Except.ok.inj ((base58_decode h).symm.trans hd)
      constructor
      · rintro (h | ⟨⟨a, b, c, h, h'⟩, rfl⟩)
        · exact .inl (one h).symm
        · have := one h
          subst this
          exact .inr ⟨h', rfl, rfl⟩
      · rintro (rfl | ⟨h1, h2, rfl⟩)
        · exact .inl hb
        · refine .inr ⟨?_, rfl⟩
          have hk : k.length = 4 := by
            rw [← h1]
            exact check_length (H := H) [v]
          rcases k with _ | ⟨v', _ | ⟨a, _ | ⟨b, _ | ⟨c, _ | ⟨d, k⟩⟩⟩⟩⟩ <;> simp at hk
          have : v' = v := by simpa using h2
          subst this
          exact ⟨a, b, c, hb, h1⟩
    simp only [Except.bind_ok]
    by_cases hc : k.drop (k.length - 4) = (H.hash256 (k.take 1 ++ (k.drop 1).take (k.length - 5))).take 4
    · left
      rw [if_neg (by simpa using hc)]
      rcases hk : k.take 1 with _ | ⟨v, r⟩
      · have : k = [] := by
          rcases k with _ | ⟨x, k⟩
          · rfl
          · simp at hk
        subst this
        have := congrArg List.length hc
        rw [check_length] at this
        simp at this
      · have hr : r = [] := by
          have := congrArg List.length hk
          rw [List.length_take, List.length_cons] at this
          exact List.length_eq_zero_iff.mp (by omega)
        subst hr
        exact ⟨v, _, (hparts _ _).mpr ⟨hc, hk, rfl⟩, rfl⟩
    · right
      rw [if_pos (by simpa using hc)]
      refine ⟨?_, rfl⟩
      rintro ⟨v, data, h⟩
      exact hc ((hparts _ _).mp h).1

theorem parts_unique {s : Str} {v v' : Byte} {data data' : Bytes} (h : Parts H s v data) (h' : Parts H s v' data') : v = v' ∧ data = data' := by
  obtain ⟨k, hk⟩ : ∃ k, b58decode s = .ok k := by
    rcases h with h | ⟨⟨_, _, _, h, _⟩, _⟩ <;> exact ⟨_, base58_decode h⟩
  have one : ∀ {k'}, Base58 k' s → k = k' := fun h => Except.ok.inj (hk.symm.trans (base58_decode h))
  have g : ∀ {v data}, Parts H s v data → k.take 1 = [v] ∧ (k.drop 1).take (k.length - 5) = data := by
    rintro v data (h | ⟨⟨a, b, c, h, h'⟩, rfl⟩)
    · exact ((parts_iff v data).mpr (.inl (one h))).2
    · rw [one h]
      exact ⟨rfl, rfl⟩
  obtain ⟨a1, a2⟩ := g h
  obtain ⟨b1, b2⟩ := g h'
  exact ⟨by simpa using a1.symm.trans b1, a2.symm.trans b2⟩

/-- Exactly which texts `CBase58Data(s)` accepts, and the error otherwise. -/
theorem C99_exact_partial (s : Str) :
    (∀ x, newB58 H p .data s = .ok x ↔ ∃ (v : Byte) (data : Bytes), x = ⟨.data, data, v.toNat⟩ ∧ (Base58 (checked H v data) s ∨ Overlapping H s v ∧ data = [])) ∧
    ((¬ ∃ x, newB58 H p .data s = .ok x) → newB58 H p .data s = .error .base58) := by
  rcases newB58_eq (H := H) (p := p) .data s with ⟨v, data, h1, h2⟩ | ⟨h1, h2⟩
  · have h3 : newB58 H p .data s = .ok ⟨.data, data, (v.toNat : Int)⟩ := by
      rw [h2]
      unfold fromBytes baseFromBytes
      simp only
      have := v.isLt
      rw [if_neg (by omega)]
    refine ⟨fun x => ?_, fun h => absurd ⟨_, h3⟩ h⟩
    rw [h3]
    constructor
    · intro h
      cases h
      exact ⟨v, data, rfl, h1⟩
    · rintro ⟨v', data', rfl, h⟩
      obtain ⟨rfl, rfl⟩ := parts_unique h1 h
      rfl
  · refine ⟨fun x => ?_, fun _ => h2⟩
    rw [h2]
    constructor
    · intro h
      cases h
    · rintro ⟨v, data, _, h⟩
      exact absurd ⟨v, data, h⟩ h1

/-- `str` of a version and data is the text of them with their checksum, which is accepted and gives them back. -/
theorem C99_round_trip_partial {data : Bytes} {n : Int} :
    (∀ x, fromBytes p .data data n = .ok x → ∃ s, strB58 H x = .ok s ∧ newB58 H p .data s = .ok x ∧ ∃ v : Byte, n = v.toNat ∧ Base58 (checked H v data) s) ∧
    ((¬ ∃ x, fromBytes p .data data n = .ok x) → ¬ (0 ≤ n ∧ n ≤ 255)) := by
  unfold fromBytes baseFromBytes
  simp only
  by_cases h : ¬ (0 ≤ n ∧ n ≤ 255)
  · rw [if_pos h]
    exact ⟨(fun x hx => by cases hx), fun _ => h⟩
  · rw [if_neg h]
    have h := Classical.not_not.mp h
    refine ⟨fun x hx => ?_, fun hx => absurd ⟨_, rfl⟩ hx⟩
    cases hx
    have hv : n = (BitVec.ofNat 8 n.toNat).toNat := by
      rw [BitVec.toNat_ofNat, Nat.mod_eq_of_lt (by omega)]
      omega
    have hs : Base58 (checked H (BitVec.ofNat 8 n.toNat) data) (b58encode (checked H (BitVec.ofNat 8 n.toNat) data)) := base58_encode _
    refine ⟨_, ?_, ((C99_exact_partial (H := H) (p := p) _).1 _).mpr ⟨BitVec.ofNat 8 n.toNat, data, by rw [← hv], .inl hs⟩, _, hv, hs⟩
    unfold strB58
    rw [if_pos h]
    rfl

/-- Two texts for the same are the same text, unless one of them has four bytes. -/
theorem C99_one_text_partial {s s' : Str} {x : B58Data} (h : newB58 H p .data s = .ok x) (h' : newB58 H p .data s' = .ok x) (hs : ∀ v, ¬ Overlapping H s v) (hs' : ∀ v, ¬ Overlapping H s' v) : s = s' := by
  obtain ⟨v, d, rfl, h1⟩ := ((C99_exact_partial s).1 x).mp h
  obtain ⟨v', d', e, h2⟩ := ((C99_exact_partial s').1 _).mp h'
  simp only [B58Data.mk.injEq, true_and] at e
  obtain ⟨rfl, e⟩ := e
  have : v = v' := BitVec.eq_of_toNat_eq (by omega)
  subst this
  rcases h1 with h1 | ⟨h1, _⟩
  · rcases h2 with h2 | ⟨h2, _⟩
    · exact base58_text h1 h2
    · exact absurd h2 (hs' v)
  · exact absurd h1 (hs v)

/-! ## C100: addresses -/

/-- The prefixes of the chains. -/
structure Prefixes.Ok (p : Prefixes) : Prop where
  pubkey : 0 ≤ p.pubkey ∧ p.pubkey ≤ 255
  script : 0 ≤ p.script ∧ p.script ≤ 255
  secret : 0 ≤ p.secret ∧ p.secret ≤ 255
  different : p.script ≠ p.pubkey

theorem mainPrefixes_ok : mainPrefixes.Ok := ⟨by decide, by decide, by decide, by decide⟩
theorem testPrefixes_ok : testPrefixes.Ok := ⟨by decide, by decide, by decide, by decide⟩

/-- The addresses accepted are those of 20 bytes, with one of the two versions of the chain. -/
def C100_statement : Prop := ∀ (H : HashFns) (p : Prefixes), p.Ok → ∀ (s : Str) (x : B58Data), newB58 H p .address s = .ok x →
  x.bytes.length = 20 ∧ strB58 H x = .ok s

theorem addrFromBytes_eq (hp : p.Ok) (cls : B58Cls) (data : Bytes) {v : Byte} : addrFromBytes p cls data v.toNat =
    if (v.toNat : Int) = p.script then .ok ⟨.p2sh, data, v.toNat⟩ else if (v.toNat : Int) = p.pubkey then .ok ⟨.p2pkh, data, v.toNat⟩ else .error .base58 := by
  unfold addrFromBytes baseFromBytes
  have := v.isLt
  rw [if_neg (by omega), Except.bind_ok]
  rfl

/-- Which texts `CBitcoinAddress(s)` accepts, and the error otherwise: `data` of any length. -/
theorem C100_exact_partial (hp : p.Ok) (s : Str) :
    (∀ x, newB58 H p .address s = .ok x ↔ ∃ (v : Byte) (data : Bytes), (Base58 (checked H v data) s ∨ Overlapping H s v ∧ data = []) ∧
      ((v.toNat : Int) = p.script ∧ x = ⟨.p2sh, data, p.script⟩ ∨ (v.toNat : Int) = p.pubkey ∧ x = ⟨.p2pkh, data, p.pubkey⟩)) ∧
    ((¬ ∃ x, newB58 H p .address s = .ok x) → newB58 H p .address s = .error .base58) := by
  rcases newB58_eq (H := H) (p := p) .address s with ⟨v, data, h1, h2⟩ | ⟨h1, h2⟩
  · have h2 : newB58 H p .address s = addrFromBytes p .address data v.toNat := h2
    rw [h2, addrFromBytes_eq hp]
    have one : ∀ {v' data'}, Parts H s v' data' → v = v' ∧ data = data' := fun h => parts_unique h1 h
    by_cases hv : (v.toNat : Int) = p.script
    · rw [if_pos hv]
      refine ⟨fun x => ⟨fun h => ?_, ?_⟩, fun h => absurd ⟨_, rfl⟩ h⟩
      · cases h
        exact ⟨v, data, h1, .inl ⟨hv, by rw [hv]⟩⟩
      · rintro ⟨v', data', g, g'⟩
        obtain ⟨rfl, rfl⟩ := one g
        rcases g' with ⟨_, rfl⟩ | ⟨g', _⟩
        · rw [hv]
        · exact absurd (hv.symm.trans g') hp.different
    · rw [if_neg hv]
      by_cases hv' : (v.toNat : Int) = p.pubkey
      · rw [if_pos hv']
        refine ⟨fun x => ⟨fun h => ?_, ?_⟩, fun h => absurd ⟨_, rfl⟩ h⟩
        · cases h
          exact ⟨v, data, h1, .inr ⟨hv', by rw [hv']⟩⟩
        · rintro ⟨v', data', g, g'⟩
          obtain ⟨rfl, rfl⟩ := one g
          rcases g' with ⟨g', _⟩ | ⟨_, rfl⟩
          · exact absurd g' hv
          · rw [hv']
      · rw [if_neg hv']
        refine ⟨fun x => ⟨(fun h => by cases h), ?_⟩, fun _ => rfl⟩
        rintro ⟨v', data', g, g'⟩
        obtain ⟨rfl, rfl⟩ := one g
        rcases g' with ⟨g', _⟩ | ⟨g', _⟩
        · exact absurd g' hv
        · exact absurd g' hv'
  · rw [h2]
    refine ⟨fun x => ⟨(fun h => by cases h), ?_⟩, fun _ => rfl⟩
    rintro ⟨v, data, h, _⟩
    exact absurd ⟨v, data, h⟩ h1

/-- An address of one of the two networks is no address of the other. -/
theorem C100_networks_partial {s : Str} {x : B58Data} (h : newB58 H mainPrefixes .address s = .ok x) : newB58 H testPrefixes .address s = .error .base58 := by
  obtain ⟨v, d, h1, h2⟩ := ((C100_exact_partial mainPrefixes_ok s).1 x).mp h
  refine (C100_exact_partial testPrefixes_ok s).2 ?_
  rintro ⟨y, hy⟩
  obtain ⟨v', d', g1, g2⟩ := ((C100_exact_partial testPrefixes_ok s).1 y).mp hy
  obtain ⟨rfl, rfl⟩ := parts_unique h1 g1
  have a : (v.toNat : Int) = 5 ∨ (v.toNat : Int) = 0 := h2.elim (fun h => .inl h.1) (fun h => .inr h.1)
  have b : (v.toNat : Int) = 196 ∨ (v.toNat : Int) = 111 := g2.elim (fun h => .inl h.1) (fun h => .inr h.1)
  omega

/-- C100: the classes of one kind of address read exactly the addresses of this kind. -/
theorem C100_classes_partial (hp : p.Ok) (s : Str) :
    (∀ x, newB58 H p .p2sh s = .ok x ↔ newB58 H p .address s = .ok x ∧ x.cls = .p2sh) ∧
    (∀ x, newB58 H p .p2pkh s = .ok x ↔ newB58 H p .address s = .ok x ∧ x.cls = .p2pkh) ∧
    (∀ x, newB58 H p .address s = .ok x → newB58 H p (if x.cls = .p2sh then .p2pkh else .p2sh) s = .error .valueError) := by
  have ne : p.script ≠ p.pubkey := hp.different
  rcases newB58_eq (H := H) (p := p) .address s with ⟨v, data, h1, h2⟩ | ⟨h1, h2⟩
  · have h3 : newB58 H p .p2sh s = if (v.toNat : Int) ≠ p.script then .error .valueError else addrFromBytes p .p2sh data v.toNat := by
      rcases newB58_eq (H := H) (p := p) .p2sh s with ⟨v', data', g1, g2⟩ | ⟨g1, _⟩
      · obtain ⟨rfl, rfl⟩ := parts_unique h1 g1
        exact g2
      · exact absurd ⟨v, data, h1⟩ g1
    have h4 : newB58 H p .p2pkh s = if (v.toNat : Int) ≠ p.pubkey then .error .valueError else addrFromBytes p .p2pkh data v.toNat := by
      rcases newB58_eq (H := H) (p := p) .p2pkh s with ⟨v', data', g1, g2⟩ | ⟨g1, _⟩
      · obtain ⟨rfl, rfl⟩ := parts_unique h1 g1
        exact g2
      · exact absurd ⟨v, data, h1⟩ g1
    have h2 : newB58 H p .address s = addrFromBytes p .address data v.toNat := h2
    rw [addrFromBytes_eq hp] at h2 h3 h4
    by_cases hv : (v.toNat : Int) = p.script
    · have hv' : ¬ (v.toNat : Int) = p.pubkey := fun h => ne (hv.symm.trans h)
      rw [if_pos hv] at h2
      rw [if_neg (not_not.mpr hv), if_pos hv] at h3
      rw [if_pos hv'] at h4
      rw [h2, h3, h4]
      refine ⟨fun x => ⟨fun h => ⟨h, by cases h; rfl⟩, And.left⟩, fun x => ⟨nofun, fun h => by obtain ⟨h, g⟩ := h; cases h; cases g⟩, ?_⟩
      rintro x ⟨⟩
      rw [if_pos rfl, h4]
    · rw [if_neg hv] at h2
      rw [if_pos hv] at h3
      rw [if_neg hv] at h4
      by_cases hv' : (v.toNat : Int) = p.pubkey
      · rw [if_pos hv'] at h2
        rw [if_neg (not_not.mpr hv'), if_pos hv'] at h4
        rw [h2, h3, h4]
        refine ⟨fun x => ⟨nofun, fun h => by obtain ⟨h, g⟩ := h; cases h; cases g⟩, fun x => ⟨fun h => ⟨h, by cases h; rfl⟩, And.left⟩, ?_⟩
        rintro x ⟨⟩
        rw [if_neg (by simp), h3]
      · rw [if_neg hv'] at h2
        rw [if_pos hv'] at h4
        rw [h2, h3, h4]
        exact ⟨fun x => ⟨nofun, fun h => nomatch h.1⟩, fun x => ⟨nofun, fun h => nomatch h.1⟩, nofun⟩
  · have no : ∀ c, newB58 H p c s = .error .base58 := by
      intro c
      rcases newB58_eq (H := H) (p := p) c s with ⟨v', data', g1, _⟩ | ⟨_, g⟩
      · exact absurd ⟨_, _, g1⟩ h1
      · exact g
    simp only [no]
    exact ⟨fun x => ⟨nofun, fun h => nomatch h.1⟩, fun x => ⟨nofun, fun h => nomatch h.1⟩, nofun⟩

/-- The version in a byte. -/
theorem version_byte {n : Int} (h : 0 ≤ n ∧ n ≤ 255) : ∃ v : Byte, (v.toNat : Int) = n :=
  ⟨BitVec.ofNat 8 n.toNat, by rw [BitVec.toNat_ofNat, Nat.mod_eq_of_lt (by omega)]; omega⟩

theorem fromBytes_p2sh (hp : p.Ok) (data : Bytes) : fromBytes p .p2sh data p.script = .ok ⟨.p2sh, data, p.script⟩ := by
  obtain ⟨v, hv⟩ := version_byte hp.script
  unfold fromBytes
  simp only [ne_eq, not_true_eq_false, if_false]
  rw [← hv, addrFromBytes_eq hp, if_pos hv]

theorem fromBytes_p2pkh (hp : p.Ok) (data : Bytes) : fromBytes p .p2pkh data p.pubkey = .ok ⟨.p2pkh, data, p.pubkey⟩ := by
  obtain ⟨v, hv⟩ := version_byte hp.pubkey
  unfold fromBytes
  simp only [ne_eq, not_true_eq_false, if_false]
  rw [← hv, addrFromBytes_eq hp, if_neg (by rw [hv]; exact hp.different.symm), if_pos hv]

theorem encode20 {h : Bytes} (hl : h.length = 20) : encodePushdata h = .ok (0x14#8 :: h) := by
  unfold encodePushdata
  rw [hl]
  rfl

theorem keyHash_bytes {h : Bytes} (hl : h.length = 20) : scriptOf (keyHashToks h) = [0x76#8, 0xa9#8, 0x14#8] ++ h ++ [0x88#8, 0xac#8] := by
  simp [scriptOf, keyHashToks, Tok.bytes, little, hl]

theorem mkScript_p2sh {h : Bytes} (hl : h.length = 20) : mkScript [.op 0xa9#8, .data h, .op 0x87#8] = .ok (scriptOf (scriptHashToks h)) := by
  rw [scriptHash_bytes hl]
  simp only [mkScript, coerceItem, encode20 hl, Except.bind_ok]
  rfl

theorem mkScript_p2pkh {h : Bytes} (hl : h.length = 20) : mkScript [.op 0x76#8, .op 0xa9#8, .data h, .op 0x88#8, .op 0xac#8] = .ok (scriptOf (keyHashToks h)) := by
  rw [keyHash_bytes hl]
  simp only [mkScript, coerceItem, encode20 hl, Except.bind_ok]
  rfl

/-! ## C101: addresses of outputs -/

theorem tail_one {r : Bytes} {n : Nat} {a : Byte} (hl : r.length = n + 1) (h : r[n]? = some a) : r = r.take n ++ [a] := by
  have h1 : r.drop n = [a] := by
    have hn : n < r.length := by omega
    rw [List.drop_eq_getElem_cons hn, List.drop_eq_nil_of_le (by omega)]
    rw [List.getElem?_eq_getElem hn] at h
    rw [Option.some.inj h]
  rw [← h1, List.take_append_drop]

theorem pattern25 {s : Bytes} : (s.length = 25 ∧ s[0]? = some 0x76#8 ∧ s[1]? = some 0xa9#8 ∧ s[2]? = some 0x14#8 ∧ s[23]? = some 0x88#8 ∧ s[24]? = some 0xac#8) ↔
    ∃ h : Bytes, h.length = 20 ∧ s = scriptOf (keyHashToks h) := by
  constructor
  · rintro ⟨h, h0, h1, h2, h3, h4⟩
    rcases s with _ | ⟨a, _ | ⟨b, _ | ⟨c, r⟩⟩⟩ <;> simp only [List.length_nil, List.length_cons] at h <;> try omega
    simp only [List.getElem?_cons_zero, List.getElem?_cons_succ, Option.some.injEq] at h0 h1 h2 h3 h4
    subst h0 h1 h2
    have hr := tail_one (n := 21) (by omega) h4
    have hl : (r.take 21).length = 21 := by rw [List.length_take]; omega
    have h3' : (r.take 21)[20]? = some 0x88#8 := by rw [List.getElem?_take_of_lt (by omega)]; exact h3
    have hr' := tail_one (n := 20) hl h3'
    have hl' : ((r.take 21).take 20).length = 20 := by rw [List.length_take]; omega
    refine ⟨(r.take 21).take 20, hl', ?_⟩
    rw [keyHash_bytes hl']
    simp only [List.cons_append, List.nil_append, List.cons.injEq, true_and]
    have e : r = (r.take 21).take 20 ++ [0x88#8] ++ [0xac#8] := by rw [← hr']; exact hr
    rw [List.append_assoc] at e
    exact e
  · rintro ⟨h, hl, rfl⟩
    rw [keyHash_bytes hl]
    refine ⟨by simp [hl], rfl, rfl, rfl, ?_, ?_⟩
    · rw [List.getElem?_append_right (by simp [hl])]
      simp [hl]
    · rw [List.getElem?_append_right (by simp [hl])]
      simp [hl]

theorem pattern25_data {h : Bytes} (hl : h.length = 20) : ((scriptOf (keyHashToks h)).drop 3).take 20 = h := by
  rw [keyHash_bytes hl]
  have : (([0x76#8, 0xa9#8, 0x14#8] ++ h ++ [0x88#8, 0xac#8] : Bytes).drop 3) = h ++ [0x88#8, 0xac#8] := rfl
  rw [this, ← hl, List.take_left]

/-- An output for a key itself. -/
def keyToks (k : Bytes) : List Tok := [.push .direct k, .op 0xac#8]

theorem key_bytes {k : Bytes} : scriptOf (keyToks k) = BitVec.ofNat 8 k.length :: (k ++ [0xac#8]) := by
  simp [scriptOf, keyToks, Tok.bytes, little]

theorem patternKey {n : Nat} {s : Bytes} : (s.length = n + 2 ∧ s[0]? = some (BitVec.ofNat 8 n) ∧ s[n + 1]? = some 0xac#8) ↔
    ∃ k : Bytes, k.length = n ∧ s = scriptOf (keyToks k) := by
  constructor
  · rintro ⟨h, h0, h1⟩
    rcases s with _ | ⟨a, r⟩ <;> simp only [List.length_nil, List.length_cons] at h <;> try omega
    simp only [List.getElem?_cons_zero, List.getElem?_cons_succ, Option.some.injEq] at h0 h1
    subst h0
    have hl : (r.take n).length = n := by rw [List.length_take]; omega
    refine ⟨r.take n, hl, ?_⟩
    rw [key_bytes, hl, ← tail_one (n := n) (by omega) h1]
  · rintro ⟨k, rfl, rfl⟩
    rw [key_bytes]
    refine ⟨by simp, rfl, ?_⟩
    rw [List.getElem?_cons_succ, List.getElem?_append_right (by omega)]
    simp

theorem key_data {k : Bytes} (n : Nat) (hn : n ≤ k.length) : ((scriptOf (keyToks k)).drop 1).take n = k.take n := by
  rw [key_bytes, List.drop_succ_cons, List.drop_zero, List.take_append_of_le_length hn]

/-- What is done with the bytes of a script. -/
def fromRaw (H : HashFns) (p : Prefixes) (vk : Bytes → Bool) (s : Bytes) (bare : Bool) : Py B58Data := p2pkhFromScript H p vk s false bare

theorem fromRaw_keyHash (hp : p.Ok) (vk : Bytes → Bool) (bare : Bool) {h : Bytes} (hl : h.length = 20) : fromRaw H p vk (scriptOf (keyHashToks h)) bare = .ok ⟨.p2pkh, h, p.pubkey⟩ := by
  unfold fromRaw p2pkhFromScript
  simp only [Bool.false_eq_true, if_false, Except.bind_ok]
  rw [if_pos (pattern25.mpr ⟨h, hl, rfl⟩), pattern25_data hl, fromBytes_p2pkh hp]

theorem key_length {k : Bytes} : (scriptOf (keyToks k)).length = k.length + 2 := by
  rw [key_bytes]
  simp

theorem fromRaw_key (hp : p.Ok) (vk : Bytes → Bool) (bare : Bool) {k : Bytes} (hl : k.length = 33 ∨ k.length = 65) : fromRaw H p vk (scriptOf (keyToks k)) bare =
    if bare then .ok ⟨.p2pkh, H.ripemd160 (H.sha256 (k.take 64)), p.pubkey⟩ else .error .base58 := by
  unfold fromRaw p2pkhFromScript
  simp only [Bool.false_eq_true, if_false, Except.bind_ok]
  rw [if_neg (by rw [key_length]; omega)]
  cases bare
  · rfl
  · simp only [if_true]
    rcases hl with hl | hl
    · rw [if_pos (patternKey (n := 33) |>.mpr ⟨k, hl, rfl⟩), key_data 33 (by omega)]
      have e : k.take 64 = k.take 33 := by rw [List.take_of_length_le (by omega), List.take_of_length_le (by omega)]
      rw [e]
      unfold p2pkhFromPubkey
      rw [if_neg (by simp)]
      exact fromBytes_p2pkh hp _
    · rw [if_neg (by rw [key_length]; omega), if_pos (patternKey (n := 65) |>.mpr ⟨k, hl, rfl⟩), key_data 64 (by omega)]
      unfold p2pkhFromPubkey
      rw [if_neg (by simp)]
      exact fromBytes_p2pkh hp _

theorem fromRaw_other (vk : Bytes → Bool) (bare : Bool) {s : Bytes} (h1 : ¬ ∃ h : Bytes, h.length = 20 ∧ s = scriptOf (keyHashToks h))
    (h2 : ¬ ∃ k : Bytes, (k.length = 33 ∨ k.length = 65) ∧ s = scriptOf (keyToks k)) : fromRaw H p vk s bare = .error .base58 := by
  unfold fromRaw p2pkhFromScript
  simp only [Bool.false_eq_true, if_false, Except.bind_ok]
  rw [if_neg (fun h => h1 (pattern25.mp h))]
  cases bare
  · rfl
  · simp only [if_true]
    rw [if_neg (fun h => h2 ((patternKey (n := 33)).mp h |>.imp fun _ h => ⟨.inl h.1, h.2⟩)), if_neg (fun h => h2 ((patternKey (n := 65)).mp h |>.imp fun _ h => ⟨.inr h.1, h.2⟩))]

theorem fromScript_true (vk : Bytes → Bool) (s : Bytes) (bare : Bool) : p2pkhFromScript H p vk s true bare = (canonScript s >>= fun s => fromRaw H p vk s bare) := by
  unfold fromRaw p2pkhFromScript
  simp only [if_true, Bool.false_eq_true, if_false, Except.bind_ok]

/-- An output pays to a key or the hash of a key, the length of the push being written in any way; `pays` is the hash. -/
inductive Pays (H : HashFns) (bare : Bool) : List Tok → Bytes → Prop where
  | hash (e : PushEnc) (h : Bytes) : h.length = 20 → Pays H bare [.op 0x76#8, .op 0xa9#8, .push e h, .op 0x88#8, .op 0xac#8] h
  | key (e : PushEnc) (k : Bytes) : bare = true → k.length = 33 ∨ k.length = 65 → Pays H bare [.push e k, .op 0xac#8] (H.ripemd160 (H.sha256 k))

/-- The same with the first 64 of 65 bytes. -/
inductive PaysHere (H : HashFns) (bare : Bool) : List Tok → Bytes → Prop where
  | hash (e : PushEnc) (h : Bytes) : h.length = 20 → PaysHere H bare [.op 0x76#8, .op 0xa9#8, .push e h, .op 0x88#8, .op 0xac#8] h
  | key (e : PushEnc) (k : Bytes) : bare = true → k.length = 33 ∨ k.length = 65 → PaysHere H bare [.push e k, .op 0xac#8] (H.ripemd160 (H.sha256 (k.take 64)))

/-- The address of an output is the hash of the key that can spend it. -/
def C101_statement : Prop := ∀ (H : HashFns) (p : Prefixes), p.Ok → ∀ (vk : Bytes → Bool) (s : Bytes) (nonCanonical bare : Bool) (x : B58Data),
  p2pkhFromScript H p vk s nonCanonical bare = .ok x ↔
    ∃ ts h, WFToks ts ∧ s = scriptOf ts ∧ (nonCanonical = false → ∀ e d, Tok.push e d ∈ ts → e = shortest d) ∧ Pays H bare ts h ∧ x = ⟨.p2pkh, h, p.pubkey⟩

theorem short_direct {d : Bytes} (h : d.length < 0x4c) : shortest d = .direct := by
  unfold shortest
  rw [if_pos h]

theorem key_wf {k : Bytes} (hl : k.length = 33 ∨ k.length = 65) : WFToks (keyToks k) := by
  intro t ht
  simp only [keyToks, List.mem_cons, List.not_mem_nil, or_false] at ht
  rcases ht with rfl | rfl
  · show k.length < 0x4c
    omega
  · decide

/-- Tokens of which the shortest form is this. -/
theorem canon_keyHash {ts : List Tok} {h : Bytes} : ts.map Tok.canon = keyHashToks h → ∃ e, ts = [.op 0x76#8, .op 0xa9#8, .push e h, .op 0x88#8, .op 0xac#8] := by
  intro e
  have op : ∀ {t : Tok} {o}, t.canon = .op o → t = .op o := by rintro (o | ⟨e, d⟩) o' h <;> simp only [Tok.canon] at h <;> cases h; rfl
  have push : ∀ {t : Tok} {e d}, t.canon = .push e d → ∃ e', t = .push e' d := by rintro (o | ⟨e, d⟩) e' d' h <;> simp only [Tok.canon] at h <;> cases h; exact ⟨_, rfl⟩
  unfold keyHashToks at e
  rcases ts with _ | ⟨a, _ | ⟨b, _ | ⟨c, _ | ⟨d, _ | ⟨f, _ | ⟨g, r⟩⟩⟩⟩⟩⟩ <;> simp only [List.map_nil, List.map_cons, List.cons.injEq, reduceCtorEq, and_false, false_and] at e
  obtain ⟨e1, e2, e3, e4, e5, _⟩ := e
  obtain ⟨e', rfl⟩ := push e3
  rw [op e1, op e2, op e4, op e5]
  exact ⟨e', rfl⟩

theorem canon_key {ts : List Tok} {k : Bytes} : ts.map Tok.canon = keyToks k → ∃ e, ts = [.push e k, .op 0xac#8] := by
  intro e
  have op : ∀ {t : Tok} {o}, t.canon = .op o → t = .op o := by rintro (o | ⟨e, d⟩) o' h <;> simp only [Tok.canon] at h <;> cases h; rfl
  have push : ∀ {t : Tok} {e d}, t.canon = .push e d → ∃ e', t = .push e' d := by rintro (o | ⟨e, d⟩) e' d' h <;> simp only [Tok.canon] at h <;> cases h; exact ⟨_, rfl⟩
  unfold keyToks at e
  rcases ts with _ | ⟨a, _ | ⟨b, _ | ⟨c, r⟩⟩⟩ <;> simp only [List.map_nil, List.map_cons, List.cons.injEq, reduceCtorEq, and_false, false_and] at e
  obtain ⟨e1, e2, _⟩ := e
  obtain ⟨e', rfl⟩ := push e1
  rw [op e2]
  exact ⟨e', rfl⟩

/-- What is done with the bytes, by operations. -/
theorem fromRaw_toks (hp : p.Ok) (vk : Bytes → Bool) (bare : Bool) {ts : List Tok} (hw : WFToks ts) (hc : ts.map Tok.canon = ts) :
    (∀ x, fromRaw H p vk (scriptOf ts) bare = .ok x ↔ ∃ h, PaysHere H bare ts h ∧ x = ⟨.p2pkh, h, p.pubkey⟩) ∧
    ((¬ ∃ h, PaysHere H bare ts h) → fromRaw H p vk (scriptOf ts) bare = .error .base58) := by
  have pays1 : ∀ {h h' : Bytes}, h.length = 20 → PaysHere H bare (keyHashToks h) h' → h' = h := by
    intro h h' _ hh
    unfold keyHashToks at hh
    cases hh
    rfl
  have pays2 : ∀ {k h' : Bytes}, PaysHere H bare (keyToks k) h' → bare = true ∧ h' = H.ripemd160 (H.sha256 (k.take 64)) := by
    intro k h' hh
    unfold keyToks at hh
    cases hh
    exact ⟨‹_›, rfl⟩
  by_cases h1 : ∃ h : Bytes, h.length = 20 ∧ scriptOf ts = scriptOf (keyHashToks h)
  · obtain ⟨h, hl, e⟩ := h1
    have := scriptOf_inj hw (keyHash_wf hl) e
    subst this
    rw [fromRaw_keyHash hp vk bare hl]
    have hh : PaysHere H bare (keyHashToks h) h := .hash .direct h hl
    refine ⟨fun x => ⟨fun g => ?_, ?_⟩, fun g => absurd ⟨_, hh⟩ g⟩
    · cases g
      exact ⟨h, hh, rfl⟩
    · rintro ⟨h', g, rfl⟩
      rw [pays1 hl g]
  · by_cases h2 : ∃ k : Bytes, (k.length = 33 ∨ k.length = 65) ∧ scriptOf ts = scriptOf (keyToks k)
    · obtain ⟨k, hl, e⟩ := h2
      have := scriptOf_inj hw (key_wf hl) e
      subst this
      rw [fromRaw_key hp vk bare hl]
      cases bare
      · simp only [Bool.false_eq_true, if_false]
        refine ⟨fun x => ⟨(fun g => by cases g), ?_⟩, fun _ => trivial⟩
        rintro ⟨h', g, rfl⟩
        cases (pays2 g).1
      · simp only [if_true]
        have hh : PaysHere H true (keyToks k) _ := .key .direct k rfl hl
        refine ⟨fun x => ⟨fun g => ?_, ?_⟩, fun g => absurd ⟨_, hh⟩ g⟩
        · cases g
          exact ⟨_, hh, rfl⟩
        · rintro ⟨h', g, rfl⟩
          rw [(pays2 g).2]
    · rw [fromRaw_other vk bare h1 h2]
      have no : ¬ ∃ h, PaysHere H bare ts h := by
        rintro ⟨h, hh⟩
        cases hh with
        | hash e h hl =>
          have : e = .direct := by
            have := (canon_eq.mp hc) e h (by simp)
            rw [this, short_direct (by omega)]
          subst this
          exact h1 ⟨h, hl, rfl⟩
        | key e k hb hl =>
          have : e = .direct := by
            have := (canon_eq.mp hc) e k (by simp)
            rw [this, short_direct (by omega)]
          subst this
          exact h2 ⟨k, hl, rfl⟩
      exact ⟨fun x => ⟨(fun g => by cases g), (fun ⟨h, hh, _⟩ => absurd ⟨h, hh⟩ no)⟩, fun _ => rfl⟩

theorem paysHere_canon {bare : Bool} {ts : List Tok} {h : Bytes} : PaysHere H bare (ts.map Tok.canon) h ↔ PaysHere H bare ts h := by
  constructor
  · intro hh
    generalize e : ts.map Tok.canon = us at hh
    cases hh with
    | hash e' h hl =>
      have hd : e' = .direct := by
        have hm : Tok.push e' h ∈ ts.map Tok.canon := by rw [e]; simp
        obtain ⟨t, _, ht⟩ := List.mem_map.mp hm
        rcases t with o | ⟨e'', d⟩ <;> simp only [Tok.canon] at ht <;> cases ht
        exact short_direct (by omega)
      subst hd
      obtain ⟨e'', rfl⟩ := canon_keyHash (h := h) e
      exact .hash _ _ hl
    | key e' k hb hl =>
      have hd : e' = .direct := by
        have hm : Tok.push e' k ∈ ts.map Tok.canon := by rw [e]; simp
        obtain ⟨t, _, ht⟩ := List.mem_map.mp hm
        rcases t with o | ⟨e'', d⟩ <;> simp only [Tok.canon] at ht <;> cases ht
        exact short_direct (by omega)
      subst hd
      obtain ⟨e'', rfl⟩ := canon_key (k := k) e
      exact .key _ _ hb hl
  · intro hh
    cases hh with
    | hash e h hl => exact .hash _ _ hl
    | key e k hb hl => exact .key _ _ hb hl

theorem canon_canon (ts : List Tok) : (ts.map Tok.canon).map Tok.canon = ts.map Tok.canon := by
  rw [List.map_map]
  refine List.map_congr_left fun t _ => ?_
  rcases t with o | ⟨e, d⟩ <;> rfl

theorem canonScript_eq (s : Bytes) : (∃ ts, WFToks ts ∧ s = scriptOf ts ∧ canonScript s = .ok (scriptOf (ts.map Tok.canon)) ∧ WFToks (ts.map Tok.canon)) ∨
    (¬ ∃ ts, WFToks ts ∧ s = scriptOf ts) ∧ canonScript s = .error .base58 := by
  obtain ⟨ts, bad, h1, h2, h3, h4⟩ := scriptItems_any s
  by_cases hb : bad = []
  · subst hb
    rw [if_pos rfl] at h4
    left
    obtain ⟨g1, g2⟩ := mkScript_items h1
    refine ⟨ts, h1, by simpa using h2, ?_, g2⟩
    unfold canonScript
    rw [h4]
    simp only
    rw [g1]
  · rw [if_neg hb] at h4
    right
    refine ⟨?_, by unfold canonScript; rw [h4]⟩
    rintro ⟨us, g1, g2⟩
    have e1 := rawIter_scriptOf g1
    have : scriptItems s = .ok (us.map Tok.item) := by
      rw [g2]
      simp only [scriptItems, e1, mapM_cook 0 g1, Except.bind_ok]
      rfl
    rw [h4] at this
    cases this

/-- Exactly which outputs `P2PKHBitcoinAddress.from_scriptPubKey` recognizes, with which address, and the error otherwise. -/
theorem C101_exact_partial (hp : p.Ok) (vk : Bytes → Bool) (s : Bytes) (nonCanonical bare : Bool) :
    (∀ x, p2pkhFromScript H p vk s nonCanonical bare = .ok x ↔
      ∃ ts h, WFToks ts ∧ s = scriptOf ts ∧ (nonCanonical = false → ∀ e d, Tok.push e d ∈ ts → e = shortest d) ∧ PaysHere H bare ts h ∧ x = ⟨.p2pkh, h, p.pubkey⟩) ∧
    ((¬ ∃ x, p2pkhFromScript H p vk s nonCanonical bare = .ok x) → p2pkhFromScript H p vk s nonCanonical bare = .error .base58) := by
  cases nonCanonical
  · have e : p2pkhFromScript H p vk s false bare = fromRaw H p vk s bare := rfl
    rw [e]
    by_cases h : ∃ ts, WFToks ts ∧ s = scriptOf ts ∧ ts.map Tok.canon = ts
    · obtain ⟨ts, h1, rfl, h2⟩ := h
      obtain ⟨g1, g2⟩ := fromRaw_toks (H := H) hp vk bare h1 h2
      constructor
      · intro x
        rw [g1]
        constructor
        · rintro ⟨h, hh, rfl⟩
          exact ⟨ts, h, h1, rfl, fun _ => canon_eq.mp h2, hh, rfl⟩
        · rintro ⟨us, h, k1, k2, k3, k4, rfl⟩
          have := scriptOf_inj h1 k1 k2
          subst this
          exact ⟨h, k4, rfl⟩
      · intro hx
        refine g2 ?_
        rintro ⟨h, hh⟩
        exact hx ⟨_, (g1 _).mpr ⟨h, hh, rfl⟩⟩
    · have o : fromRaw H p vk s bare = .error .base58 := by
        refine fromRaw_other vk bare ?_ ?_
        · rintro ⟨x, hl, rfl⟩
          exact h ⟨_, keyHash_wf hl, rfl, by rw [keyHashToks]; simp only [List.map_cons, List.map_nil, Tok.canon, short_direct (show x.length < 0x4c by omega)]⟩
        · rintro ⟨x, hl, rfl⟩
          exact h ⟨_, key_wf hl, rfl, by rw [keyToks]; simp only [List.map_cons, List.map_nil, Tok.canon, short_direct (show x.length < 0x4c by omega)]⟩
      rw [o]
      refine ⟨fun x => ⟨(fun g => by cases g), ?_⟩, fun _ => rfl⟩
      rintro ⟨ts, _, k1, k2, k3, _, _⟩
      exact absurd ⟨ts, k1, k2, canon_eq.mpr (k3 rfl)⟩ h
  · rw [fromScript_true]
    rcases canonScript_eq s with ⟨ts, h1, rfl, h2, h3⟩ | ⟨h1, h2⟩
    · rw [h2, Except.bind_ok]
      obtain ⟨g1, g2⟩ := fromRaw_toks (H := H) hp vk bare h3 (canon_canon ts)
      constructor
      · intro x
        rw [g1]
        constructor
        · rintro ⟨h, hh, rfl⟩
          exact ⟨ts, h, h1, rfl, (fun h => by cases h), paysHere_canon.mp hh, rfl⟩
        · rintro ⟨us, h, k1, k2, _, k4, rfl⟩
          have := scriptOf_inj h1 k1 k2
          subst this
          exact ⟨h, paysHere_canon.mpr k4, rfl⟩
      · intro hx
        refine g2 ?_
        rintro ⟨h, hh⟩
        exact hx ⟨_, (g1 _).mpr ⟨h, hh, rfl⟩⟩
    · rw [h2]
      refine ⟨fun x => ⟨(fun g => by cases g), ?_⟩, fun _ => rfl⟩
      rintro ⟨ts, _, k1, k2, _⟩
      exact absurd ⟨ts, k1, k2⟩ h1

theorem pattern23 {s : Bytes} : isP2sh s = true ↔ ∃ h : Bytes, h.length = 20 ∧ s = scriptOf (scriptHashToks h) := by
  simp only [isP2sh, Bool.and_eq_true, beq_iff_eq]
  constructor
  · rintro ⟨⟨⟨h, h0⟩, h1⟩, h2⟩
    rcases s with _ | ⟨a, _ | ⟨b, r⟩⟩ <;> simp only [List.length_nil, List.length_cons] at h <;> try omega
    simp only [List.getElem?_cons_zero, List.getElem?_cons_succ, Option.some.injEq] at h0 h1 h2
    subst h0 h1
    have hl : (r.take 20).length = 20 := by rw [List.length_take]; omega
    refine ⟨r.take 20, hl, ?_⟩
    rw [scriptHash_bytes hl]
    have := tail_one (n := 20) (by omega) h2
    simp only [List.cons_append, List.nil_append]
    exact congrArg (fun r => OP_HASH160 :: 0x14#8 :: r) this
  · rintro ⟨h, hl, rfl⟩
    rw [scriptHash_bytes hl]
    refine ⟨⟨⟨by simp [hl], rfl⟩, rfl⟩, ?_⟩
    rw [List.getElem?_append_right (by simp [hl])]
    simp [hl]

theorem p2shFromScript_ok (hp : p.Ok) {h : Bytes} (hl : h.length = 20) : p2shFromScript p (scriptOf (scriptHashToks h)) = .ok ⟨.p2sh, h, p.script⟩ := by
  unfold p2shFromScript
  rw [if_pos (pattern23.mpr ⟨h, hl, rfl⟩)]
  have : ((scriptOf (scriptHashToks h)).drop 2).take 20 = h := by
    rw [scriptHash_bytes hl]
    have : (([0xa9#8, 0x14#8] ++ h ++ [0x87#8] : Bytes).drop 2) = h ++ [0x87#8] := rfl
    rw [this, ← hl, List.take_left]
  rw [this, fromBytes_p2sh hp]

/-- Exactly which outputs `CBitcoinAddress.from_scriptPubKey` recognizes, with which address, and the error otherwise. -/
theorem C101_any_partial (hp : p.Ok) (vk : Bytes → Bool) (s : Bytes) :
    (∀ x, addrFromScript H p vk s = .ok x ↔ (∃ h : Bytes, h.length = 20 ∧ s = scriptOf (scriptHashToks h) ∧ x = ⟨.p2sh, h, p.script⟩) ∨
      ∃ ts h, WFToks ts ∧ s = scriptOf ts ∧ PaysHere H true ts h ∧ x = ⟨.p2pkh, h, p.pubkey⟩) ∧
    ((¬ ∃ x, addrFromScript H p vk s = .ok x) → addrFromScript H p vk s = .error .base58) := by
  unfold addrFromScript
  by_cases hs : isP2sh s = true
  · obtain ⟨h, hl, rfl⟩ := pattern23.mp hs
    rw [p2shFromScript_ok hp hl]
    simp only
    refine ⟨fun x => ⟨fun g => ?_, ?_⟩, fun g => absurd ⟨_, rfl⟩ g⟩
    · cases g
      exact .inl ⟨h, hl, rfl, rfl⟩
    · have hw : WFToks (scriptHashToks h) := by
        intro t ht
        simp only [scriptHashToks, List.mem_cons, List.not_mem_nil, or_false] at ht
        rcases ht with rfl | rfl | rfl
        · decide
        · show h.length < 0x4c
          omega
        · decide
      rintro (⟨h', hl', e, rfl⟩ | ⟨ts, h', k1, k2, k3, rfl⟩)
      · rw [scriptHash_bytes hl, scriptHash_bytes hl'] at e
        have := List.append_cancel_right e
        rw [List.append_cancel_left this]
      · have := scriptOf_inj hw k1 k2
        rw [← this] at k3
        cases k3
  · have e : p2shFromScript p s = .error .base58 := by
      unfold p2shFromScript
      rw [if_neg hs]
    rw [e]
    simp only
    obtain ⟨g1, g2⟩ := C101_exact_partial (H := H) hp vk s true true
    rcases hr : p2pkhFromScript H p vk s true true with er | y
    · have her : er = .base58 := by
        have := g2 (by rw [hr]; rintro ⟨x, h⟩; cases h)
        rw [hr] at this
        exact Except.error.inj this
      subst her
      simp only
      refine ⟨fun x => ⟨(fun g => by cases g), ?_⟩, fun _ => trivial⟩
      rintro (⟨h, hl, hh, _⟩ | ⟨ts, h, k1, k2, k3, rfl⟩)
      · exact absurd (pattern23.mpr ⟨h, hl, hh⟩) hs
      · have := (g1 _).mpr ⟨ts, h, k1, k2, (fun h => by cases h), k3, rfl⟩
        rw [hr] at this
        cases this
    · simp only
      refine ⟨fun x => ⟨fun g => ?_, ?_⟩, fun g => absurd ⟨_, rfl⟩ g⟩
      · cases g
        obtain ⟨ts, h, k1, k2, _, k3, k4⟩ := (g1 y).mp hr
        exact .inr ⟨ts, h, k1, k2, k3, k4⟩
      · rintro (⟨h, hl, hh, _⟩ | ⟨ts, h, k1, k2, k3, rfl⟩)
        · exact absurd (pattern23.mpr ⟨h, hl, hh⟩) hs
        · have := (g1 _).mpr ⟨ts, h, k1, k2, (fun h => by cases h), k3, rfl⟩
          rwa [hr] at this

/-- An address of 20 bytes becomes the output for it, and that output the address. -/
theorem C100_scripts_partial (hp : p.Ok) (vk : Bytes → Bool) {h : Bytes} (hl : h.length = 20) :
    (toScriptPubKey p ⟨.p2sh, h, p.script⟩ = .ok (scriptOf (scriptHashToks h)) ∧ addrFromScript H p vk (scriptOf (scriptHashToks h)) = .ok ⟨.p2sh, h, p.script⟩) ∧
    (toScriptPubKey p ⟨.p2pkh, h, p.pubkey⟩ = .ok (scriptOf (keyHashToks h)) ∧ addrFromScript H p vk (scriptOf (keyHashToks h)) = .ok ⟨.p2pkh, h, p.pubkey⟩) := by
  refine ⟨⟨?_, ((C101_any_partial hp vk _).1 _).mpr (.inl ⟨h, hl, rfl, rfl⟩)⟩, ?_, ((C101_any_partial hp vk _).1 _).mpr (.inr ⟨keyHashToks h, h, keyHash_wf hl, rfl, .hash .direct h hl, rfl⟩)⟩
  · unfold toScriptPubKey
    simp only [decide_true]
    show (Except.ok () >>= fun _ => mkScript _) = _
    rw [Except.bind_ok]
    exact mkScript_p2sh hl
  · unfold toScriptPubKey
    simp only [decide_true]
    show (Except.ok () >>= fun _ => mkScript _) = _
    rw [Except.bind_ok]
    exact mkScript_p2pkh hl

/-- Who pays to the address of a key pays the owner of the key: an output for the address is spent with the key and a signature by it. -/
theorem C100_pay_to_key_partial {C : Crypto} (hp : p.Ok) (vk : Bytes → Bool) {key : Bytes} (hk : key.length ≤ 520) :
    ∃ x o, p2pkhFromPubkey C.H p vk key true = .ok x ∧ toScriptPubKey p x = .ok o ∧
      ∀ {t : CTransaction}, TxFits t → ∀ (i : Nat) {sig : Bytes}, sig.length ≤ 520 → ∀ flags,
        (verifyScript C (scriptOf [.push (shortest sig) sig, .push (shortest key) key]) o t i flags = .ok () ↔
          goodSig C t i (without [sig] (keyHashToks (C.H.ripemd160 (C.H.sha256 key)))) sig key = true) := by
  have hl : (C.H.ripemd160 (C.H.sha256 key)).length = 20 := C.H.ripemd160_len _
  refine ⟨⟨.p2pkh, C.H.ripemd160 (C.H.sha256 key), p.pubkey⟩, scriptOf (keyHashToks (C.H.ripemd160 (C.H.sha256 key))), ?_, (C100_scripts_partial (H := C.H) hp vk hl).2.1, ?_⟩
  · unfold p2pkhFromPubkey
    rw [if_neg (by simp)]
    exact fromBytes_p2pkh hp _
  · intro t ht i sig hs flags
    rw [C94_pushes ht i hl hs hk flags]
    exact ⟨fun h => h.2, fun h => ⟨rfl, h⟩⟩

/-- The address of a script of at most 520 bytes is its hash; a longer one, which could not be spent, is refused. -/
theorem C100_redeem_partial (hp : p.Ok) (vk : Bytes → Bool) (s : Bytes) :
    (s.length ≤ 520 → p2shFromRedeem H p s = .ok ⟨.p2sh, H.ripemd160 (H.sha256 s), p.script⟩) ∧ (520 < s.length → p2shFromRedeem H p s = .error .valueError) := by
  have hl : (H.ripemd160 (H.sha256 s)).length = 20 := H.ripemd160_len _
  unfold p2shFromRedeem toP2sh MAX_SCRIPT_ELEMENT_SIZE
  constructor
  · intro h
    rw [if_neg (by omega)]
    have : mkScript [.op OP_HASH160, .data (H.hash160 s), .op OP_EQUAL] = .ok (scriptOf (scriptHashToks (H.ripemd160 (H.sha256 s)))) := mkScript_p2sh hl
    rw [this, Except.bind_ok, p2shFromScript_ok hp hl]
  · intro h
    rw [if_pos ⟨rfl, h⟩]
    rfl

/-! ## C102: secret keys -/

/-- What `CBitcoinSecret(s)` accepts is a key of 32 bytes, followed by a byte 1 if the public key is to be compressed. -/
def C102_statement : Prop := ∀ (H : HashFns) (p : Prefixes), p.Ok → ∀ (s : Str) (x : B58Data) (k : CKeyArgs), newSecret H p s = .ok (x, k) →
  k.secret.length = 32 ∧ x.bytes = k.secret ++ if k.compressed then [0x01#8] else []

/-- Exactly which texts `CBitcoinSecret(s)` accepts, with which key: at most the first 32 bytes are the key, anything may follow; a 1 as the next byte means compressed. -/
theorem C102_exact_partial (s : Str) :
    (∀ x k, newSecret H p s = .ok (x, k) ↔ ∃ (v : Byte) (data : Bytes), (Base58 (checked H v data) s ∨ Overlapping H s v ∧ data = []) ∧
      (v.toNat : Int) = p.secret ∧ x = ⟨.secret, data, p.secret⟩ ∧ k.secret = data.take 32 ∧ (k.compressed = true ↔ (data.drop 32).head? = some 0x01#8)) ∧
    ((¬ ∃ r, newSecret H p s = .ok r) → newSecret H p s = .error .base58) := by
  have hd : ∀ data : Bytes, ((decide (data.length > 32) && data[32]? == some 0x01#8) = true ↔ (data.drop 32).head? = some 0x01#8) := by
    intro data
    rw [List.head?_drop, Bool.and_eq_true, beq_iff_eq, decide_eq_true_iff]
    refine ⟨fun h => h.2, fun h => ⟨?_, h⟩⟩
    obtain ⟨h, _⟩ := List.getElem?_eq_some_iff.mp h
    exact h
  unfold newSecret
  rcases newB58_eq (H := H) (p := p) .secret s with ⟨v, data, h1, h2⟩ | ⟨h1, h2⟩
  · have h3 : newB58 H p .secret s = .ok ⟨.secret, data, (v.toNat : Int)⟩ := by
      rw [h2]
      unfold fromBytes baseFromBytes
      simp only
      have := v.isLt
      rw [if_neg (by omega)]
    rw [h3, Except.bind_ok]
    unfold secretInit
    simp only
    by_cases hv : (v.toNat : Int) = p.secret
    · rw [if_neg (by simpa using hv), Except.bind_ok]
      refine ⟨fun x k => ⟨fun g => ?_, ?_⟩, fun g => absurd ⟨_, rfl⟩ g⟩
      · cases g
        exact ⟨v, data, h1, hv, by rw [hv], rfl, hd data⟩
      · rintro ⟨v', data', g1, g2, rfl, g3, g4⟩
        obtain ⟨rfl, rfl⟩ := parts_unique h1 g1
        rw [← hd data, ← Bool.eq_iff_iff] at g4
        obtain ⟨ks, kc⟩ := k
        simp only at g3 g4
        subst g3 g4
        rw [hv]
        rfl
    · rw [if_pos (by simpa using hv)]
      refine ⟨fun x k => ⟨(fun g => by cases g), ?_⟩, fun _ => rfl⟩
      rintro ⟨v', data', g1, g2, _⟩
      obtain ⟨rfl, rfl⟩ := parts_unique h1 g1
      exact absurd g2 hv
  · rw [h2]
    refine ⟨fun x k => ⟨(fun g => by cases g), ?_⟩, fun _ => rfl⟩
    rintro ⟨v, data, h, _⟩
    exact absurd ⟨v, data, h⟩ h1

/-- A secret key of 32 bytes, and whether the public key is compressed, come back from the text of them. -/
theorem C102_round_trip_partial (hp : p.Ok) {secret : Bytes} (hl : secret.length = 32) (compressed : Bool) :
    ∃ x s, fromSecretBytes p secret compressed = .ok (x, ⟨secret, compressed⟩) ∧ strB58 H x = .ok s ∧ newSecret H p s = .ok (x, ⟨secret, compressed⟩) := by
  obtain ⟨v, hv⟩ := version_byte hp.secret
  have e1 : (secret ++ (if compressed then [0x01#8] else [])).take 32 = secret := by rw [← hl, List.take_left]
  have e2 : (secret ++ (if compressed then [0x01#8] else [])).drop 32 = if compressed then [0x01#8] else [] := by rw [← hl, List.drop_left]
  have hs : Base58 (checked H v (secret ++ (if compressed then [0x01#8] else []))) (b58encode (checked H v (secret ++ (if compressed then [0x01#8] else [])))) := base58_encode _
  refine ⟨⟨.secret, secret ++ (if compressed then [0x01#8] else []), p.secret⟩, _, ?_, ?_, ((C102_exact_partial _).1 _ _).mpr ⟨v, _, .inl hs, hv, rfl, e1.symm, ?_⟩⟩
  · unfold fromSecretBytes fromBytes baseFromBytes secretInit
    simp only
    rw [if_neg (by have := hp.secret; omega), Except.bind_ok]
    simp only
    rw [if_neg (by simp), Except.bind_ok, e1]
    congr 3
    cases compressed
    · simp [hl]
    · simp [hl]
  · unfold strB58
    simp only
    rw [if_pos hp.secret, ← hv]
    have : BitVec.ofNat 8 ((v.toNat : Int).toNat) = v := by simp
    rw [this]
    rfl
  · rw [e2]
    cases compressed <;> simp

/-- A secret key of one of the two networks is none of the other. -/
theorem C102_networks_partial {s : Str} {r : B58Data × CKeyArgs} (h : newSecret H mainPrefixes s = .ok r) : newSecret H testPrefixes s = .error .base58 := by
  obtain ⟨v, d, h1, h2, _⟩ := ((C102_exact_partial s).1 r.1 r.2).mp h
  refine (C102_exact_partial s).2 ?_
  rintro ⟨y, hy⟩
  obtain ⟨v', d', g1, g2, _⟩ := ((C102_exact_partial s).1 y.1 y.2).mp hy
  obtain ⟨rfl, rfl⟩ := parts_unique h1 g1
  have a : (v.toNat : Int) = 128 := h2
  have b : (v.toNat : Int) = 239 := g2
  omega

/-! ## C103: comparing addresses -/

/-- Two addresses compare equal exactly if they have the same text. -/
def C103_statement : Prop := ∀ (H : HashFns) (p : Prefixes), p.Ok → ∀ (s s' : Str) (x y : B58Data), newB58 H p .address s = .ok x → newB58 H p .address s' = .ok y →
  x.bytes.length = 20 → y.bytes.length = 20 → (eqB58 x y = true ↔ s = s')

/-- Addresses of the same class do. -/
theorem C103_same_class_partial (hp : p.Ok) {s s' : Str} {x y : B58Data} (hx : newB58 H p .address s = .ok x) (hy : newB58 H p .address s' = .ok y)
    (hl : x.bytes ≠ []) (hl' : y.bytes ≠ []) : eqB58 x y = true ∧ x.cls = y.cls ↔ s = s' := by
  constructor
  · rintro ⟨h1, h2⟩
    obtain ⟨v, d, a1, a2⟩ := ((C100_exact_partial hp s).1 x).mp hx
    obtain ⟨v', d', b1, b2⟩ := ((C100_exact_partial hp s').1 y).mp hy
    have ed : x.bytes = d := by rcases a2 with ⟨_, rfl⟩ | ⟨_, rfl⟩ <;> rfl
    have ed' : y.bytes = d' := by rcases b2 with ⟨_, rfl⟩ | ⟨_, rfl⟩ <;> rfl
    have hd : d = d' := by rw [← ed, ← ed']; exact eq_of_beq h1
    have hv : v = v' := by
      apply BitVec.eq_of_toNat_eq
      rcases a2 with ⟨a2, rfl⟩ | ⟨a2, rfl⟩ <;> rcases b2 with ⟨b2, rfl⟩ | ⟨b2, rfl⟩ <;> first | omega | cases h2
    subst hd hv
    rcases a1 with a1 | ⟨_, a1⟩
    · rcases b1 with b1 | ⟨_, b1⟩
      · exact base58_text a1 b1
      · exact absurd (ed'.trans b1) hl'
    · exact absurd (ed.trans a1) hl
  · rintro rfl
    rw [hx] at hy
    cases hy
    exact ⟨beq_self_eq_true _, rfl⟩

end

/-! ## Counterexamples and examples -/

theorem Ex.four : newB58 realHash mainPrefixes .data (b58encode [0x74#8, 0x15#8, 0xe1#8, 0x00#8]) = .ok ⟨.data, [], 116⟩ := by decide +kernel

/-- The four bytes 74 15 e1 00 are the start of the hash of the byte 74. -/
theorem C99_refuted : ¬ C99_statement := by
  intro h
  obtain ⟨v, data, h1, _⟩ := (h realHash mainPrefixes _ _).mp Ex.four
  have h2 := base58_decode h1
  rw [base58_decode (base58_encode _)] at h2
  have h3 := congrArg List.length (Except.ok.inj h2)
  have hl : ((realHash.sha256 (realHash.sha256 (v :: data))).take 4).length = 4 := check_length (H := realHash) (v :: data)
  unfold checked at h3
  rw [List.length_append, hl, List.length_cons] at h3
  simp at h3

/-- The text of no bytes at all is an address. -/
theorem C100_refuted : ¬ C100_statement := by
  intro h
  have h1 : newB58 realHash mainPrefixes .address (b58encode (checked realHash 0x00#8 [])) = .ok ⟨.p2pkh, [], 0⟩ :=
    ((C100_exact_partial mainPrefixes_ok _).1 _).mpr ⟨0x00#8, [], .inl (base58_encode _), .inr ⟨by decide, rfl⟩⟩
  exact absurd (h realHash mainPrefixes mainPrefixes_ok _ _ h1).1 (by decide)

/-- The text of no bytes at all is a secret key. -/
theorem C102_refuted : ¬ C102_statement := by
  intro h
  have h1 : newSecret realHash mainPrefixes (b58encode (checked realHash 0x80#8 [])) = .ok (⟨.secret, [], 128⟩, ⟨[], false⟩) :=
    ((C102_exact_partial _).1 _ _).mpr ⟨0x80#8, [], .inl (base58_encode _), by decide, rfl, rfl, by decide⟩
  exact absurd (h realHash mainPrefixes mainPrefixes_ok _ _ _ h1).1 (by decide)

/-- The two addresses with the same bytes are equal. -/
theorem C103_refuted : ¬ C103_statement := by
  intro h
  have h1 : newB58 realHash mainPrefixes .address (b58encode (checked realHash 0x00#8 (List.replicate 20 0#8))) = .ok ⟨.p2pkh, List.replicate 20 0#8, 0⟩ :=
    ((C100_exact_partial mainPrefixes_ok _).1 _).mpr ⟨0x00#8, _, .inl (base58_encode _), .inr ⟨by decide, rfl⟩⟩
  have h2 : newB58 realHash mainPrefixes .address (b58encode (checked realHash 0x05#8 (List.replicate 20 0#8))) = .ok ⟨.p2sh, List.replicate 20 0#8, 5⟩ :=
    ((C100_exact_partial mainPrefixes_ok _).1 _).mpr ⟨0x05#8, _, .inl (base58_encode _), .inl ⟨by decide, rfl⟩⟩
  have h3 := (h realHash mainPrefixes mainPrefixes_ok _ _ _ _ h1 h2 rfl rfl).mp rfl
  rw [h3] at h1
  rw [h1] at h2
  cases h2

namespace Ex

/-- An uncompressed key. -/
def key65 : Bytes := 0x04#8 :: List.replicate 64 0x07#8

end Ex

/-- The address of an output for an uncompressed key is not the hash of the key. -/
theorem C101_refuted : ¬ C101_statement := by
  intro h
  have h0 : p2pkhFromScript realHash mainPrefixes (fun _ => true) (scriptOf (keyToks Ex.key65)) true true = .ok ⟨.p2pkh, realHash.ripemd160 (realHash.sha256 (Ex.key65.take 64)), 0⟩ :=
    ((C101_exact_partial mainPrefixes_ok _ _ _ _).1 _).mpr ⟨keyToks Ex.key65, _, key_wf (.inr rfl), rfl, (fun h => by cases h), .key .direct _ rfl (.inr rfl), rfl⟩
  obtain ⟨ts, x, h1, h2, _, h3, h4⟩ := (h realHash mainPrefixes mainPrefixes_ok (fun _ => true) (scriptOf (keyToks Ex.key65)) true true _).mp h0
  have h5 := scriptOf_inj (key_wf (.inr rfl)) h1 h2
  rw [← h5] at h3
  have h6 : x = realHash.ripemd160 (realHash.sha256 Ex.key65) := by
    unfold keyToks at h3
    cases h3
    rfl
  have h7 : realHash.ripemd160 (realHash.sha256 (Ex.key65.take 64)) = x := by
    generalize realHash.ripemd160 (realHash.sha256 (Ex.key65.take 64)) = y at h4
    cases h4
    rfl
  rw [h6] at h7
  exact absurd h7 (by decide +kernel)

-- C98: texts of the examples of Bitcoin's tests, and a text with a character that is none
example : b58encode [] = [] := rfl
example : b58encode [0x61#8] = "2g".toList := by decide +kernel
example : b58encode [0x62#8, 0x62#8, 0x62#8] = "a3gV".toList := by decide +kernel
example : b58encode [0#8, 0#8, 0x61#8] = "112g".toList := by decide +kernel
example : b58decode "112g".toList = .ok [0#8, 0#8, 0x61#8] := by decide +kernel
example : b58decode "11".toList = .ok [0#8, 0#8] := by decide +kernel
example : b58decode "10".toList = .error .base58 := by decide +kernel
-- C99, C100: an address, the same with one character changed, and the script for it
example : newB58 realHash mainPrefixes .address "1C7zdTfnkzmr13HfA2vNm5SJYRK6nEKyq8".toList =
    .ok ⟨.p2pkh, hex "79fbfc3f34e7745860d76137da68f362380c606c", 0⟩ := by decide +kernel
example : newB58 realHash mainPrefixes .address "1C7zdTfnkzmr13HfA2vNm5SJYRK6nEKyq9".toList = .error .base58 := by decide +kernel
example : newB58 realHash mainPrefixes .p2sh "1C7zdTfnkzmr13HfA2vNm5SJYRK6nEKyq8".toList = .error .valueError := by decide +kernel
example : newB58 realHash testPrefixes .address "1C7zdTfnkzmr13HfA2vNm5SJYRK6nEKyq8".toList = .error .base58 := by decide +kernel
-- C101: a push in a longer encoding
example : p2pkhFromScript realHash mainPrefixes (fun _ => true) (scriptOf [.op 0x76#8, .op 0xa9#8, .push .two (List.replicate 20 7#8), .op 0x88#8, .op 0xac#8]) true true =
    .ok ⟨.p2pkh, List.replicate 20 7#8, 0⟩ := by decide +kernel
example : p2pkhFromScript realHash mainPrefixes (fun _ => true) (scriptOf [.op 0x76#8, .op 0xa9#8, .push .two (List.replicate 20 7#8), .op 0x88#8, .op 0xac#8]) false true =
    .error .base58 := by decide +kernel
-- C102: a key of the wiki
example : newSecret realHash mainPrefixes "5KJvsngHeMpm884wtkJNzQGaCErckhHJBGFsvd3VyK5qMZXj3hS".toList =
    .ok (⟨.secret, hex "c4bbcb1fbec99d65bf59d85c8cb62ee2db963f0fe106f483d9afa73bd4e39a8a", 128⟩,
      ⟨hex "c4bbcb1fbec99d65bf59d85c8cb62ee2db963f0fe106f483d9afa73bd4e39a8a", false⟩) := by decide +kernel

end Verif.Btc
