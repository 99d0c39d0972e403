import Verif.Lemmas.Prim
import Verif.Props.Btc
/-! # C03–C07: the primitive serializers -/
namespace Verif
open Btc

/-- C03: whatever `check_instance` accepts serializes, and reads back exactly, whatever follows. -/
theorem C03_roundtrip {τ : PrimTy} (hb : τ.isBasic) {v : PVal} (hc : τ.check v = .ok ()) :
    ∃ e, τ.ser v = .ok e ∧ ∀ rest, τ.deser (e ++ rest) = .ok (v, rest) := by
  have hs : ∃ e, τ.ser v = .ok e := by
    cases τ <;> cases v <;> first | exact ⟨_, rfl⟩ | (exfalso; simp [PrimTy.check] at hc; done) | (cases hb; done)
  have hr : τ.RoundTrips v := by
    cases τ <;> first | trivial | cases hb
  obtain ⟨e, he⟩ := hs
  exact ⟨e, he, (RT.prim hc he hr).reads⟩

/-- The values each serializer is documented to take. -/
def Documented : PrimTy → PVal → Prop
  | .bool, .bool _ => True
  | .fixed n, .bytes b => b.length = n
  | .varBytes mn mx, .bytes b => mn ≤ b.length ∧ b.length ≤ mx
  | .uint mx, .int i => 0 ≤ i ∧ i ≤ mx
  | _, _ => False

/-- C03: the values accepted are the documented ones; anything else raises a `SerializerError`. -/
theorem C03_accepts {τ : PrimTy} (hb : τ.isBasic) (v : PVal) :
    (Documented τ v → τ.check v = .ok ()) ∧
    (¬ Documented τ v → τ.check v = .error .serType ∨ τ.check v = .error .serValue) := by
  cases τ <;> cases v <;> first
    | (cases hb; done)
    | (simp only [Documented, PrimTy.check]; split <;> simp_all <;> omega; done)
    | simp [Documented, PrimTy.check]

/-- C03: what the four named classes of integers accept. -/
theorem C03_named (v : PVal) :
    (PrimTy.uint8.check v = .ok () ↔ ∃ i, v = .int i ∧ 0 ≤ i ∧ i < 256) ∧
    (PrimTy.uint16.check v = .ok () ↔ ∃ i, v = .int i ∧ 0 ≤ i ∧ i < 65536) ∧
    (PrimTy.uint32.check v = .ok () ↔ ∃ i, v = .int i ∧ 0 ≤ i ∧ i < 4294967296) ∧
    (PrimTy.uint64.check v = .ok () ↔ ∃ i, v = .int i ∧ 0 ≤ i ∧ i < 18446744073709551616) := by
  cases v <;> simp [PrimTy.uint8, PrimTy.uint16, PrimTy.uint32, PrimTy.uint64, PrimTy.check] <;> omega

example : PrimTy.uint64.check (.int 300) = .ok () ∧ (PrimTy.varBytes 1 3).check (.bytes [1, 2]) = .ok () ∧
    (PrimTy.fixed 2).check (.bytes [1, 2]) = .ok () ∧ PrimTy.uint8.check (.int 256) = .error .serValue := by decide

/-- C04: on any bytes a primitive deserializer returns a value its own `check_instance` accepts, or raises an
exception of the `DeserializationError` family.  (A class of strings of at least 2^63 bytes, which Python cannot have, may raise `OverflowError`.) -/
theorem C04_acceptable {τ : PrimTy} (hb : τ.isBasic) (s : Bytes) :
    match τ.deser s with
    | .ok (v, _) => τ.check v = .ok ()
    | .error e => e.isDeserialization = true ∨ e = .overflow ∧ 2 ^ 63 ≤ τ.longest := by
  rcases PrimTy.deser_basic hb s with ⟨v, rest, _, _, h, hc, _⟩ | ⟨e, h, he⟩
  · rw [h]; exact hc
  · rw [h]; exact he

example : (PrimTy.varBytes 0 (2 ^ 70)).deser (writeVaruint (2 ^ 63)) = .error .overflow := by decide +kernel
example : PrimTy.uint8.deser [0x80#8, 0x02#8] = .error .deserialization := by decide
example : PrimTy.uint8.deser [0xff#8, 0x01#8, 9#8] = .ok (.int 255, [9#8]) := by decide

/-- C05: any proper prefix of a serialization (which has less than 2^63 bytes, as all strings in Python) raises `TruncationError`; this includes
`Bits`, transactions and outpoints. -/
theorem C05_truncation {τ : PrimTy} {v : PVal} {e : Bytes} (hc : τ.check v = .ok ()) (hs : τ.ser v = .ok e)
    {pre suf : Bytes} (he : e = pre ++ suf) (hne : suf ≠ []) (hl : e.length < 2 ^ 63) : τ.deserialize pre = .error .truncation := by
  unfold PrimTy.deserialize
  rw [PrimTy.trunc hc hs he hne hl]; rfl

/-- C05 for a list of fields: a cut anywhere in the concatenation is detected. -/
theorem C05_truncation_fields {τs : List PrimTy} {vs : List PVal} {e : Bytes} (hc : checkFields τs vs = .ok ())
    (hs : serFields τs vs = .ok e) (hr : ∀ p ∈ τs.zip vs, p.1.RoundTrips p.2)
    {pre suf : Bytes} (he : e = pre ++ suf) (hne : suf ≠ []) (hl : e.length < 2 ^ 63) : deserFields τs pre = .error .truncation :=
  (RT.fields hc hs hr).trunc pre suf he hne (fun _ => hl)

example : (PrimTy.varBytes 0 9).check (.bytes [7, 8]) = .ok () ∧
    (PrimTy.varBytes 0 9).ser (.bytes [7, 8]) = .ok ([2#8, 7#8] ++ [8#8]) := by decide +kernel
example : PrimTy.bits.ser (.bits [true, false, true]) = .ok ([3#8] ++ [0xa0#8]) := by decide +kernel

/-- C06, the claim as documented ("deterministic round-trip encoding", serialize.py). -/
def C06_statement : Prop :=
  ∀ (τ : PrimTy), τ.isBasic → ∀ (b : Bytes) (v : PVal), τ.deserialize b = .ok v → τ.ser v = .ok b

/-- C06 is false: `80 00` is accepted as the integer 0, which serializes as `00`. -/
theorem C06_refuted : ¬ C06_statement := by
  intro h
  have := h .uint8 rfl [0x80#8, 0x00#8] (.int 0) (by decide)
  revert this
  decide +kernel

/-- C06, a second independent reason: `deserialize` does not look at what follows the value. -/
theorem C06_refuted_trailing : PrimTy.deserialize .bool [0xff#8, 0xaa#8] = .ok (.bool true) ∧
    PrimTy.ser .bool (.bool true) = .ok [0xff#8] := by decide

/-- C06, what does hold: the input is an encoding followed by ignored bytes; the encoding is at least as long as
the canonical one and equal to it when it has the same length.  Missing from C06: the two exceptions above. -/
theorem C06_canonical_partial {τ : PrimTy} (hb : τ.isBasic) {s : Bytes} {v : PVal} {rest : Bytes}
    (h : τ.deser s = .ok (v, rest)) :
    ∃ enc e, s = enc ++ rest ∧ τ.ser v = .ok e ∧ e.length ≤ enc.length ∧ (enc.length = e.length → enc = e) := by
  rcases PrimTy.deser_basic hb s with ⟨v', rest', enc, e, h', _, h2, h3, h4, h5⟩ | ⟨e, h', -⟩
  · rw [h] at h'; cases h'
    exact ⟨enc, e, h2, h3, h4, h5⟩
  · rw [h] at h'; cases h'

/-- C06 for the serializers without a varuint: the bytes consumed are exactly the serialization. -/
theorem C06_exact_partial {τ : PrimTy} (hb : τ = .bool ∨ ∃ n, τ = .fixed n) {s : Bytes} {v : PVal} {rest : Bytes}
    (h : τ.deser s = .ok (v, rest)) : ∃ e, τ.ser v = .ok e ∧ s = e ++ rest := by
  have hbas : τ.isBasic := by rcases hb with rfl | ⟨n, rfl⟩ <;> rfl
  obtain ⟨enc, e, h1, h2, h3, h4⟩ := C06_canonical_partial hbas h
  have hc := C04_acceptable hbas s
  rw [h] at hc
  refine ⟨e, h2, ?_⟩
  suffices enc.length = e.length by rw [h1, h4 this]
  rcases hb with rfl | ⟨n, rfl⟩
  · cases v <;> simp [PrimTy.check] at hc
    rename_i b
    have h1' : s.length = 1 + rest.length := by
      simp only [PrimTy.deser] at h; unfold readBool at h
      cases s with
      | nil => cases h
      | cons x xs =>
        rw [P.bind_apply, P.bind_apply] at h
        have : fdRead 1 (x :: xs) = .ok ([x], xs) := rfl
        rw [this] at h
        simp only at h
        have hx : xs = rest := by
          by_cases h1 : x = 255#8
          · rw [if_pos h1] at h; cases h; rfl
          · by_cases h2 : x = 0#8
            · rw [if_neg h1, if_pos h2] at h; cases h; rfl
            · rw [if_neg h1, if_neg h2] at h; cases h
        subst hx; simp; omega
    have h2' : e.length = 1 := by
      simp only [PrimTy.ser, Except.ok.injEq] at h2
      subst h2; cases b <;> rfl
    have := congrArg List.length h1
    simp only [List.length_append] at this
    omega
  · cases v <;> simp [PrimTy.check] at hc
    rename_i b
    simp only [PrimTy.ser, Except.ok.injEq] at h2
    subst h2
    simp only [PrimTy.deser] at h
    rw [P.bind_apply] at h
    cases h5 : readBytes n s with
    | error e => rw [h5] at h; cases h
    | ok p =>
      rw [h5] at h; cases h
      have h6 := (fdRead_ok h5).1
      rw [h6] at h1
      rw [List.append_cancel_right h1]

example : (PrimTy.fixed 2).deser [1#8, 2#8, 3#8] = .ok (.bytes [1#8, 2#8], [3#8]) := by decide

/-- C07: equal concatenations (with whatever follows) mean equal fields; this covers every serializer usable in
`SERIALIZED_ATTRS` apart from proofs. -/
theorem C07_fields_unambiguous {τs : List PrimTy} {vs ws : List PVal} {e e' r r' : Bytes}
    (hv : checkFields τs vs = .ok ()) (hw : checkFields τs ws = .ok ())
    (h : serFields τs vs = .ok e) (h' : serFields τs ws = .ok e') (he : e ++ r = e' ++ r') : vs = ws ∧ r = r' :=
  serFields_pf hv hw h h' he

/-- C07, and the fields can be read back (transactions with scripts within `MAX_SIZE`, `Bits` as in C18). -/
theorem C07_fields_roundtrip {τs : List PrimTy} {vs : List PVal} {e : Bytes} (hc : checkFields τs vs = .ok ())
    (hs : serFields τs vs = .ok e) (hr : ∀ p ∈ τs.zip vs, p.1.RoundTrips p.2) (rest : Bytes) :
    deserFields τs (e ++ rest) = .ok (vs, rest) := (RT.fields hc hs hr).reads rest

example : checkFields [.varBytes 0 9, .uint64, .bits] [.bytes [1, 2], .int 3, .bits [true]] = .ok () ∧
    serFields [.varBytes 0 9, .uint64, .bits] [.bytes [1, 2], .int 3, .bits [true]] = .ok [2, 1, 2, 3, 1, 0x80] := by
  decide +kernel

end Verif
