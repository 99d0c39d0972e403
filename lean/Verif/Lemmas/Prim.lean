import Verif.Model.Prim
import Verif.Lemmas.Bits2
import Verif.Lemmas.BtcInj
/-! Round trips and prefix-freeness of the primitive serializers. -/
namespace Verif
open Btc

/-- `τ` reads back `v`. Bits round-trip only sometimes (C18); transactions need scripts within MAX_SIZE. -/
def PrimTy.RoundTrips : PrimTy → PVal → Prop
  | .bits, .bits xs => xs ≠ [] ∧ (xs.length % 8 = 0 → xs.drop (xs.length - 8) = List.replicate 8 false)
  | .tx, .tx t => t.ScriptsFit
  | _, _ => True

theorem RT.bool (b : Bool) : RT .truncation readBool (writeBool b) b where
  reads _ := readBool_write _ _
  trunc pre suf he hs _ := by
    have : pre = [] := by
      have := congrArg List.length he
      rw [List.length_append] at this
      have h0 : 0 < suf.length := List.length_pos_iff.mpr hs
      have h1 : (writeBool b).length = 1 := by cases b <;> rfl
      exact List.eq_nil_of_length_eq_zero (by omega)
    subst this
    rfl

theorem RT.map {α β} {tr} {p : P α} {e} {a : α} (f : α → β) (h : RT tr p e a) :
    RT tr (do let x ← p; return f x) e (f a) := by
  have := h.bind (f := fun x => (Pure.pure (f x) : P β)) (RT.pure (f a))
  rwa [List.append_nil] at this

theorem writeVaruintInt_nonneg {i : Int} (h : 0 ≤ i) : writeVaruintInt i = writeVaruint i.toNat := by
  unfold writeVaruintInt
  rw [if_neg (by omega)]

/-- A length followed by that many (or a number of bytes depending on it): cut anywhere, it is truncated. -/
theorem lenRead_trunc {α} {l : Nat} {b : Bytes} {n : Nat → Nat} {g : Nat → Bytes → P α} (hb : b.length = n l)
    {pre suf : Bytes} (he : writeVaruint l ++ b = pre ++ suf) (hs : suf ≠ []) (hf : (writeVaruint l ++ b).length < 2 ^ 63) :
    (do let x ← readVaruint
        let y ← readBytes (n x)
        g x y : P α) pre = .error .truncation := by
  rw [List.length_append] at hf
  rcases List.append_eq_append_iff.mp he with ⟨as, ha, hb'⟩ | ⟨as, ha, hb'⟩
  · rw [ha, P.bind_ok (readVaruint_write _ _)]
    apply P.bind_error
    exact (RT.fdRead hb).trunc as suf hb' hs (fun _ => by omega)
  · by_cases has : as = []
    · subst has
      rw [List.append_nil] at ha
      rw [List.nil_append] at hb'
      have := readVaruint_write l []
      rw [List.append_nil] at this
      rw [← ha, P.bind_ok this]
      apply P.bind_error
      exact (RT.fdRead hb).trunc [] suf (by simp [hb']) hs (fun _ => by omega)
    · exact P.bind_error ((RT.readVaruint _).trunc pre as ha has (fun _ => by omega))

namespace Bits

theorem serialize_ofIter (xs : List Bool) : (ofIter xs).serialize = .ok (ofIter xs).serV := serialize_eq (ofIter_spec xs).1

theorem roundtrip_ok {b : Bits}
    (h : b.bits ≠ [] ∧ (b.bits.length % 8 = 0 → b.bits.drop (b.bits.length - 8) = List.replicate 8 false)) :
    b.length ≠ 0 ∧ ¬ (b.length % 8 = 0 ∧ byteD b.buf (b.length / 8 - 1) ≠ 0#8) := by
  obtain ⟨hne, hd⟩ := h
  have h0 : b.length ≠ 0 := fun h => hne (List.eq_nil_of_length_eq_zero (by simp [h]))
  refine ⟨h0, fun ⟨h8, hz⟩ => hz ?_⟩
  have hd := hd (by simpa using h8)
  apply byte_ext
  intro k hk
  have := congrArg (fun l => l[k]?) hd
  simp only [List.getElem?_drop, bits_length] at this
  rw [bits_getElem? (by omega), List.getElem?_replicate, if_pos hk,
    show b.length - 8 + k = 8 * (b.length / 8 - 1) + k by omega, bit_mk hk] at this
  rw [Option.some.inj this]
  simp [BitVec.getMsbD]

theorem body_wf {b : Bits} (hb : b.WF) : (⟨b.length, b.body⟩ : Bits).WF := by
  unfold WF; simp only; rw [body_length hb]; split <;> omega

theorem body_bits {b : Bits} (hb : b.WF) : bits ⟨b.length, b.body⟩ = b.bits := by
  rw [bits_eq_iff]
  exact ⟨rfl, fun i hi => body_bit hb hi⟩

theorem RT_deserialize {b : Bits} (hb : b.WF)
    (h : b.bits ≠ [] ∧ (b.bits.length % 8 = 0 → b.bits.drop (b.bits.length - 8) = List.replicate 8 false)) :
    RT .truncation deserialize b.serV ⟨b.length, b.body⟩ where
  reads rest := by
    obtain ⟨h1, h2⟩ := roundtrip_ok h
    rw [deserialize_serialize hb, if_neg h1, if_neg h2]
  trunc pre suf he hs hf := by
    have hser : b.serV = writeVaruint b.length ++ b.body := by simp [serV, body]
    rw [hser] at he hf
    exact lenRead_trunc (n := fun l => l / 8 + if l % 8 ≠ 0 then 1 else 0) (body_length hb) he hs (hf rfl)

end Bits

theorem RT.prim {τ : PrimTy} {v : PVal} {e : Bytes} (hc : τ.check v = .ok ()) (hs : τ.ser v = .ok e)
    (hr : τ.RoundTrips v) : RT .truncation τ.deser e v := by
  cases τ with
  | bool =>
    cases v <;> simp [PrimTy.check] at hc
    simp only [PrimTy.ser, Except.ok.injEq] at hs
    subst hs
    exact (RT.bool _).map PVal.bool
  | fixed n =>
    cases v <;> simp [PrimTy.check] at hc
    simp only [PrimTy.ser, Except.ok.injEq] at hs
    subst hs
    exact (RT.fdRead hc).map PVal.bytes
  | varBytes mn mx =>
    cases v <;> simp [PrimTy.check] at hc
    simp only [PrimTy.ser, Except.ok.injEq] at hs
    subst hs
    apply RT.bind (RT.readVaruint _)
    rw [if_neg (by simpa using hc)]
    exact (RT.fdRead rfl).map PVal.bytes
  | uint mx =>
    cases v with
    | int i =>
      simp [PrimTy.check] at hc
      simp only [PrimTy.ser, Except.ok.injEq] at hs
      subst hs
      rw [writeVaruintInt_nonneg hc.1]
      refine RT.congr (e := writeVaruint i.toNat ++ []) (a := .int i) ?_ (by simp) rfl
      apply RT.bind (RT.readVaruint _)
      rw [if_neg (by omega)]
      have := RT.pure (tr := .truncation) (PVal.int (i.toNat : Int))
      rwa [Int.toNat_of_nonneg hc.1] at this ⊢
    | _ => simp [PrimTy.check] at hc
  | bits =>
    cases v with
    | bits xs =>
      simp only [PrimTy.ser] at hs
      rw [Bits.serialize_ofIter] at hs
      cases hs
      obtain ⟨h1, h2⟩ := Bits.ofIter_spec xs
      have hr' : (Bits.ofIter xs).bits ≠ [] ∧ ((Bits.ofIter xs).bits.length % 8 = 0 →
          (Bits.ofIter xs).bits.drop ((Bits.ofIter xs).bits.length - 8) = List.replicate 8 false) := by
        rw [h2]; exact hr
      refine RT.congr (e := (Bits.ofIter xs).serV ++ []) (a := .bits xs) ?_ (by simp) rfl
      apply RT.bind (Bits.RT_deserialize h1 hr')
      refine RT.congr (e := [] ++ []) (a := .bits xs) ?_ rfl rfl
      have hi : Bits.iter ⟨(Bits.ofIter xs).length, (Bits.ofIter xs).body⟩ = .ok xs := by
        rw [Bits.iter_eq (Bits.body_wf h1), Bits.body_bits h1, h2]
      exact RT.bind (RT.lift (a := xs) hi) (RT.pure _)
    | _ => simp [PrimTy.ser] at hs
  | tx =>
    cases v with
    | tx t =>
      simp only [PrimTy.ser] at hs
      obtain ⟨b, hb, hs⟩ := Except.bind_eq_ok hs
      cases hs
      apply RT.bind (RT.readVaruint _)
      refine RT.congr (e := b ++ []) (a := .tx t) ?_ (by simp) rfl
      apply RT.bind (RT.fdRead rfl)
      refine RT.congr (e := [] ++ []) (a := .tx t) ?_ rfl rfl
      exact RT.bind (RT.lift (a := t) (deserializeAll_of_RT (Btc.RT.tx hb hr))) (RT.pure _)
    | _ => simp [PrimTy.check] at hc
  | outpoint =>
    cases v with
    | outpoint o =>
      simp only [PrimTy.ser] at hs
      obtain ⟨b, hb, hs⟩ := Except.bind_eq_ok hs
      cases hs
      apply RT.bind (RT.readVaruint _)
      refine RT.congr (e := b ++ []) (a := .outpoint o) ?_ (by simp) rfl
      apply RT.bind (RT.fdRead rfl)
      refine RT.congr (e := [] ++ []) (a := .outpoint o) ?_ rfl rfl
      exact RT.bind (RT.lift (a := o) (deserializeAll_of_RT (Btc.RT.outpoint hb))) (RT.pure _)
    | _ => simp [PrimTy.check] at hc

/-- Any proper prefix of a serialization is reported as truncated, whether or not the whole would read back. -/
theorem PrimTy.trunc {τ : PrimTy} {v : PVal} {e : Bytes} (hc : τ.check v = .ok ()) (hs : τ.ser v = .ok e)
    {pre suf : Bytes} (he : e = pre ++ suf) (hsuf : suf ≠ []) (hf : e.length < 2 ^ 63) : τ.deser pre = .error .truncation := by
  cases τ with
  | bool => exact (RT.prim hc hs trivial).trunc pre suf he hsuf (fun _ => hf)
  | fixed => exact (RT.prim hc hs trivial).trunc pre suf he hsuf (fun _ => hf)
  | varBytes => exact (RT.prim hc hs trivial).trunc pre suf he hsuf (fun _ => hf)
  | uint => exact (RT.prim hc hs trivial).trunc pre suf he hsuf (fun _ => hf)
  | bits =>
    cases v <;> simp [PrimTy.ser] at hs
    rename_i xs
    rw [Bits.serialize_ofIter] at hs
    cases hs
    have hb := (Bits.ofIter_spec xs).1
    have hser : (Bits.ofIter xs).serV = writeVaruint (Bits.ofIter xs).length ++ (Bits.ofIter xs).body := by
      simp [Bits.serV, Bits.body]
    rw [hser] at he hf
    exact P.bind_error (lenRead_trunc (n := fun l => l / 8 + if l % 8 ≠ 0 then 1 else 0) (Bits.body_length hb) he hsuf hf)
  | tx =>
    cases v <;> simp [PrimTy.check] at hc
    simp only [PrimTy.ser] at hs
    obtain ⟨b, hb, hs⟩ := Except.bind_eq_ok hs
    cases hs
    exact lenRead_trunc (n := id) rfl he hsuf hf
  | outpoint =>
    cases v <;> simp [PrimTy.check] at hc
    simp only [PrimTy.ser] at hs
    obtain ⟨b, hb, hs⟩ := Except.bind_eq_ok hs
    cases hs
    exact lenRead_trunc (n := id) rfl he hsuf hf

theorem lenPrefixed_inj {x y r r' : Bytes} (h : PrimTy.lenPrefixed x ++ r = PrimTy.lenPrefixed y ++ r') : x = y ∧ r = r' := by
  unfold PrimTy.lenPrefixed at h
  rw [List.append_assoc, List.append_assoc] at h
  obtain ⟨h1, h2⟩ := Bits.writeVaruint_prefix_inj h
  exact List.append_inj h2 h1

/-- Every primitive serializer is prefix-free on the values it accepts. -/
theorem PrimTy.pf {τ : PrimTy} {v w : PVal} {e e' r r' : Bytes} (hc : τ.check v = .ok ()) (hc' : τ.check w = .ok ())
    (hs : τ.ser v = .ok e) (hs' : τ.ser w = .ok e') (he : e ++ r = e' ++ r') : v = w ∧ r = r' := by
  cases τ with
  | bits =>
    cases v <;> simp [PrimTy.ser] at hs
    cases w <;> simp [PrimTy.ser] at hs'
    rename_i xs ys
    rw [Bits.serialize_ofIter] at hs hs'
    cases hs; cases hs'
    unfold Bits.serV at he
    simp only [List.append_assoc] at he
    obtain ⟨h1, h2⟩ := Bits.writeVaruint_prefix_inj he
    obtain ⟨hx, hxb⟩ := Bits.ofIter_spec xs
    obtain ⟨hy, hyb⟩ := Bits.ofIter_spec ys
    have hbx := Bits.body_length hx
    have hby := Bits.body_length hy
    unfold Bits.body at hbx hby
    rw [← List.append_assoc, ← List.append_assoc] at h2
    obtain ⟨h3, h4⟩ := List.append_inj h2 (by rw [hbx, hby, h1])
    refine ⟨?_, h4⟩
    rw [← hxb, ← hyb]
    congr 1
    rw [← Bits.serV_inj hx hy]
    unfold Bits.serV
    rw [List.append_assoc, List.append_assoc, h3, h1]
  | tx =>
    cases v <;> simp [PrimTy.check] at hc
    cases w <;> simp [PrimTy.check] at hc'
    simp only [PrimTy.ser] at hs hs'
    obtain ⟨b, hb, hs⟩ := Except.bind_eq_ok hs
    obtain ⟨b', hb', hs'⟩ := Except.bind_eq_ok hs'
    cases hs; cases hs'
    obtain ⟨rfl, h2⟩ := lenPrefixed_inj he
    exact ⟨by rw [Btc.PF.tx.inj hb hb'], h2⟩
  | outpoint =>
    cases v <;> simp [PrimTy.check] at hc
    cases w <;> simp [PrimTy.check] at hc'
    simp only [PrimTy.ser] at hs hs'
    obtain ⟨b, hb, hs⟩ := Except.bind_eq_ok hs
    obtain ⟨b', hb', hs'⟩ := Except.bind_eq_ok hs'
    cases hs; cases hs'
    obtain ⟨rfl, h2⟩ := lenPrefixed_inj he
    exact ⟨by rw [Btc.PF.outpoint.inj hb hb'], h2⟩
  | bool => exact (RT.prim hc hs trivial).inj_append (RT.prim hc' hs' trivial) he
  | fixed => exact (RT.prim hc hs trivial).inj_append (RT.prim hc' hs' trivial) he
  | varBytes => exact (RT.prim hc hs trivial).inj_append (RT.prim hc' hs' trivial) he
  | uint => exact (RT.prim hc hs trivial).inj_append (RT.prim hc' hs' trivial) he

theorem serFields_pf : ∀ {τs : List PrimTy} {vs ws : List PVal} {e e' r r' : Bytes},
    checkFields τs vs = .ok () → checkFields τs ws = .ok () →
    serFields τs vs = .ok e → serFields τs ws = .ok e' → e ++ r = e' ++ r' → vs = ws ∧ r = r'
  | [], [], [], e, e', r, r', _, _, h, h', he => by cases h; cases h'; exact ⟨rfl, he⟩
  | [], _ :: _, _, _, _, _, _, h, _, _, _, _ => by cases h
  | [], [], _ :: _, _, _, _, _, _, h, _, _, _ => by cases h
  | _ :: _, [], _, _, _, _, _, h, _, _, _, _ => by cases h
  | _ :: _, _ :: _, [], _, _, _, _, _, h, _, _, _ => by cases h
  | τ :: τs, v :: vs, w :: ws, e, e', r, r', hc, hc', h, h', he => by
    unfold checkFields at hc hc'
    unfold serFields at h h'
    obtain ⟨_, c1, c2⟩ := Except.bind_eq_ok hc
    obtain ⟨_, d1, d2⟩ := Except.bind_eq_ok hc'
    obtain ⟨a, ha, h⟩ := Except.bind_eq_ok h
    obtain ⟨b, hb, h⟩ := Except.bind_eq_ok h
    obtain ⟨a', ha', h'⟩ := Except.bind_eq_ok h'
    obtain ⟨b', hb', h'⟩ := Except.bind_eq_ok h'
    cases h; cases h'
    simp only [List.append_assoc] at he
    obtain ⟨rfl, he⟩ := PrimTy.pf c1 d1 ha ha' he
    obtain ⟨rfl, he⟩ := serFields_pf c2 d2 hb hb' he
    exact ⟨rfl, he⟩

theorem RT.fields : ∀ {τs : List PrimTy} {vs : List PVal} {e : Bytes},
    checkFields τs vs = .ok () → serFields τs vs = .ok e → (∀ p ∈ τs.zip vs, p.1.RoundTrips p.2) →
    RT .truncation (deserFields τs) e vs
  | [], [], _, _, h, _ => by cases h; exact RT.pure _
  | [], _ :: _, _, h, _, _ => by cases h
  | _ :: _, [], _, h, _, _ => by cases h
  | τ :: τs, v :: vs, e, hc, h, hr => by
    unfold checkFields at hc
    unfold serFields at h
    obtain ⟨_, c1, c2⟩ := Except.bind_eq_ok hc
    obtain ⟨a, ha, h⟩ := Except.bind_eq_ok h
    obtain ⟨b, hb, h⟩ := Except.bind_eq_ok h
    cases h
    apply RT.bind (RT.prim c1 ha (hr (τ, v) (by simp)))
    exact (RT.fields c2 hb (fun p hp => hr p (by simp [hp]))).map (v :: ·)

/-- The most bytes that a class reads at once. -/
def PrimTy.longest : PrimTy → Nat
  | .fixed n => n
  | .varBytes _ mx => mx
  | _ => 0

/-- What a basic deserializer returns: an acceptable value, read from bytes no shorter than its serialization. -/
theorem PrimTy.deser_basic {τ : PrimTy} (hb : τ.isBasic) (s : Bytes) :
    (∃ v rest enc e, τ.deser s = .ok (v, rest) ∧ τ.check v = .ok () ∧ s = enc ++ rest ∧ τ.ser v = .ok e ∧
      e.length ≤ enc.length ∧ (enc.length = e.length → enc = e)) ∨
    ∃ e, τ.deser s = .error e ∧ (e.isDeserialization = true ∨ e = .overflow ∧ 2 ^ 63 ≤ τ.longest) := by
  have hv := readVaruint_eq s
  cases τ with
  | bool =>
    simp only [PrimTy.deser]
    rw [P.bind_apply]
    unfold readBool
    rw [P.bind_apply]
    cases s with
    | nil => right; exact ⟨_, rfl, .inl rfl⟩
    | cons b rest =>
      have : fdRead 1 (b :: rest) = .ok ([b], rest) := rfl
      rw [this]
      simp only
      by_cases h1 : b = 255#8
      · left
        rw [if_pos h1]
        refine ⟨.bool true, rest, [b], [b], rfl, rfl, rfl, ?_, Nat.le_refl _, fun _ => rfl⟩
        subst h1; rfl
      · rw [if_neg h1]
        by_cases h2 : b = 0#8
        · left
          rw [if_pos h2]
          refine ⟨.bool false, rest, [b], [b], rfl, rfl, rfl, ?_, Nat.le_refl _, fun _ => rfl⟩
          subst h2; rfl
        · right; rw [if_neg h2]; exact ⟨_, rfl, .inl rfl⟩
  | fixed n =>
    simp only [PrimTy.deser]
    rw [P.bind_apply]
    cases h : readBytes n s with
    | error e =>
      right
      refine ⟨e, rfl, ?_⟩
      rw [(fdRead_error h).1]
      split
      · exact .inl rfl
      · exact .inr ⟨rfl, by simp only [longest]; omega⟩
    | ok p =>
      obtain ⟨b, rest⟩ := p
      obtain ⟨h1, h2⟩ := fdRead_ok h
      left
      exact ⟨.bytes b, rest, b, b, rfl, by simp [check, h2], h1, rfl, Nat.le_refl _, fun _ => rfl⟩
  | uint mx =>
    simp only [PrimTy.deser]
    rw [P.bind_apply, hv]
    cases h : leb s with
    | none => right; exact ⟨_, rfl, .inl rfl⟩
    | some p =>
      obtain ⟨n, rest⟩ := p
      simp only
      obtain ⟨enc, h1, h2, h3⟩ := leb_some h
      split
      · right; exact ⟨_, rfl, .inl rfl⟩
      · rename_i hle
        left
        refine ⟨.int n, rest, enc, writeVaruint n, rfl, ?_, h1, ?_, h2, h3⟩
        · have : n ≤ mx := by omega
          simp [check, this]
        · simp [ser, writeVaruintInt_nonneg]
  | varBytes mn mx =>
    simp only [PrimTy.deser]
    rw [P.bind_apply, hv]
    cases h : leb s with
    | none => right; exact ⟨_, rfl, .inl rfl⟩
    | some p =>
      obtain ⟨n, rest⟩ := p
      simp only
      obtain ⟨enc, h1, h2, h3⟩ := leb_some h
      split
      · right; exact ⟨_, rfl, .inl rfl⟩
      · rename_i hle
        rw [P.bind_apply]
        cases h4 : readBytes n rest with
        | error e =>
          right
          refine ⟨e, rfl, ?_⟩
          rw [(fdRead_error h4).1]
          split
          · exact .inl rfl
          · exact .inr ⟨rfl, by simp only [longest]; omega⟩
        | ok p =>
          obtain ⟨b, rest'⟩ := p
          obtain ⟨h5, h6⟩ := fdRead_ok h4
          left
          refine ⟨.bytes b, rest', enc ++ b, writeVaruint b.length ++ b, rfl, ?_, ?_, rfl, ?_, ?_⟩
          · have : mn ≤ b.length ∧ b.length ≤ mx := by omega
            simp [check, this]
          · rw [h1, h5, List.append_assoc]
          · rw [List.length_append, List.length_append, h6]; omega
          · rw [List.length_append, List.length_append, h6]
            intro h7
            rw [h3 (by omega)]
  | bits => cases hb
  | tx => cases hb
  | outpoint => cases hb

end Verif
