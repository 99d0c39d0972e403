import Verif.Model.Serializers
import Verif.Lemmas.Net
import Verif.Lemmas.BtcDeser
import Verif.Model.Sha256
/-!
# C148: what the serializers of bitcoin/core/serialize.py write comes back
-/
namespace Verif.Btc
open Verif

/-- C148: what `serialize` of a serializer writes, `deserialize` of the same serializer reads. -/
def C148_statement : Prop :=
  (∀ (i : Nat) b, serVarInt i = .ok b → serializerDeserialize deserVarInt b = .ok i) ∧
  (∀ s b, serBytes s = .ok b → serializerDeserialize deserBytes b = .ok s) ∧
  (∀ s b, serVarString s = .ok b → serializerDeserialize deserVarString b = .ok s) ∧
  (∀ us b, serUint256s us = .ok b → serializerDeserialize deserUint256s b = .ok us) ∧
  (∀ is b, serInts is = .ok b → serializerDeserialize deserInts b = .ok (some is)) ∧
  (∀ is : List Int, ∀ b, vectorSerialize is = .ok b → vectorDeserialize b = .ok is)

theorem deserialize_of_RT {α} {tr : PyErr} {de : P α} {e : Bytes} {a : α} (h : RT tr de e a) (rest : Bytes) : serializerDeserialize de (e ++ rest) = .ok a := by
  unfold serializerDeserialize
  rw [h.reads rest]
  rfl

/-- C148 is false: `intVectorSerialzer` reads every vector as `None`. -/
theorem C148_refuted : ¬ C148_statement := by
  intro h
  have := h.2.2.2.2.1 [] [0#8] (by decide)
  have e : serializerDeserialize deserInts [0#8] = .ok none := by decide
  rw [e] at this
  cases this

/-- Numbers: exactly those of 64 bits are written, and come back, whatever follows them. -/
theorem C148_varint_partial (i : Int) : (∃ b, serVarInt i = .ok b) ↔ 0 ≤ i ∧ i < 2 ^ 64 := by
  constructor
  · rintro ⟨b, h⟩
    unfold serVarInt at h
    split at h
    · cases h
    · refine ⟨by omega, ?_⟩
      split at h
      · omega
      · split at h
        · omega
        · split at h
          · omega
          · obtain ⟨c, hc, _⟩ := Except.bind_eq_ok h
            unfold packU at hc
            split at hc
            · rename_i h8
              omega
            · cases hc
  · rintro ⟨h0, h1⟩
    obtain ⟨e, he⟩ := serVarInt_total (n := i.toNat) (by omega)
    rw [Int.toNat_of_nonneg h0] at he
    exact ⟨e, he⟩

theorem C148_varint_back_partial {i : Int} {b : Bytes} (h : serVarInt i = .ok b) (rest : Bytes) :
    ∃ n, serializerDeserialize deserVarInt (b ++ rest) = .ok n ∧ (n : Int) = i := by
  have hi := ((C148_varint_partial i).mp ⟨b, h⟩).1
  obtain ⟨n, rfl⟩ := Int.eq_ofNat_of_zero_le hi
  exact ⟨n, deserialize_of_RT (RT.varInt h) rest, rfl⟩

/-- Bytes: all are written, and come back exactly if there are at most 2²⁵ of them; more are refused when they are read. -/
theorem C148_bytes_partial {s b : Bytes} (h : serBytes s = .ok b) (rest : Bytes) :
    serializerDeserialize deserBytes (b ++ rest) = if s.length ≤ 2 ^ 25 then .ok s else .error .btcSer := by
  have hm : MAX_SIZE = 2 ^ 25 := by decide
  split
  · rename_i hl
    exact deserialize_of_RT (RT.bytes h (by omega)) rest
  · rename_i hl
    unfold serBytes at h
    obtain ⟨l, h1, h⟩ := Except.bind_eq_ok h
    cases h
    unfold serializerDeserialize deserBytes
    have e : (deserVarInt >>= fun l => serRead l : P Bytes) (l ++ s ++ rest) = .error .btcSer := by
      show P.bind _ _ _ = _
      unfold P.bind
      rw [List.append_assoc, (RT.varInt h1).reads]
      simp only [serRead]
      rw [if_pos (by omega)]
    rw [e]
    rfl

/-- `VarStringSerializer` is `BytesSerializer`. -/
theorem C148_varstring_partial : serVarString = serBytes ∧ deserVarString = deserBytes := ⟨rfl, rfl⟩

theorem serEach_uint256 : ∀ us : List Bytes, serEach serUint256 us = if ∀ u ∈ us, u.length = 32 then .ok us.flatten else .error .assertion
  | [] => by simp [serEach]
  | u :: us => by
    have e : ∀ u : Bytes, serUint256 u = if u.length = 32 then .ok u else .error .assertion := by
      intro u
      unfold serUint256 pyAssert
      by_cases hu : u.length = 32 <;> simp [hu] <;> rfl
    unfold serEach
    rw [e, serEach_uint256 us]
    by_cases hu : u.length = 32
    · by_cases hs : ∀ u ∈ us, u.length = 32
      · rw [if_pos hu, if_pos hs, if_pos (by simpa [hu] using hs)]
        rfl
      · rw [if_pos hu, if_neg hs, if_neg (by simpa [hu] using hs)]
        rfl
    · rw [if_neg hu, if_neg (c := ∀ v ∈ u :: us, v.length = 32) (fun h => hu (h u (by simp)))]
      rfl

/-- Hashes: exactly lists of strings of 32 bytes are written, one after the other, and come back, whatever follows them; otherwise
`AssertionError`. -/
theorem C148_uint256s_partial {us : List Bytes} {l : Bytes} (hl : serVarInt us.length = .ok l) :
    ((∀ u ∈ us, u.length = 32) → serUint256s us = .ok (l ++ us.flatten) ∧ ∀ rest, serializerDeserialize deserUint256s (l ++ us.flatten ++ rest) = .ok us) ∧
    ((∃ u ∈ us, u.length ≠ 32) → serUint256s us = .error .assertion) := by
  have h := serEach_uint256 us
  constructor
  · intro hu
    rw [if_pos hu] at h
    have e : serUint256s us = .ok (l ++ us.flatten) := by
      unfold serUint256s serVector
      rw [hl, h]
      rfl
    refine ⟨e, fun rest => deserialize_of_RT (RT.vector e ?_) rest⟩
    intro u _ e hu
    unfold serUint256 at hu
    obtain ⟨_, hu1, hu⟩ := Except.bind_eq_ok hu
    cases hu
    exact RT.serRead (by simpa using pyAssert_ok hu1) (by decide)
  · rintro ⟨u, hu, hn⟩
    rw [if_neg (fun hc => hn (hc u hu))] at h
    unfold serUint256s serVector
    rw [hl, h]
    rfl

theorem RT.ints {is : List Int} {b : Bytes} (h : serInts is = .ok b) : RT .btcTrunc (deserVector (do let b ← Btc.serRead 4; return unpackS 4 b)) b is := by
  refine RT.vector h ?_
  intro i _ e he
  obtain ⟨h1, h2⟩ := packS_ok (by omega) he
  exact RT.congr ((RT.serRead h1 (by decide)).bind (RT.pure _)) (by simp) h2

theorem deserIntTuples_eq : ∀ n s, deserIntTuples n s = (deserEach (do let b ← serRead 4; return unpackS 4 b) n s).map fun r => (r.1.map fun i => [i], r.2)
  | 0, s => rfl
  | n + 1, s => by
    unfold deserIntTuples deserEach
    show P.bind _ _ _ = Except.map _ (P.bind (P.bind _ _) _ _)
    unfold P.bind
    cases serRead 4 s with
    | error e => rfl
    | ok r =>
      show P.bind _ _ _ = Except.map _ (P.bind _ _ _)
      unfold P.bind
      rw [deserIntTuples_eq n r.2]
      cases deserEach (do let b ← serRead 4; return unpackS 4 b) n r.2 with
      | error e => rfl
      | ok r' => rfl

/-- Integers: exactly lists of 32-bit numbers are written, different lists differently; what was written is read to its end, but the
result of reading is `None`, whatever is read. -/
theorem C148_ints_partial :
    (∀ is : List Int, is.length < 2 ^ 64 → ((∃ b, serInts is = .ok b) ↔ ∀ i ∈ is, -(2 ^ 31) ≤ i ∧ i < 2 ^ 31)) ∧
    (∀ is js b, serInts is = .ok b → serInts js = .ok b → is = js) ∧
    (∀ is b rest, serInts is = .ok b → deserInts (b ++ rest) = .ok (none, rest)) ∧
    (∀ b v, serializerDeserialize deserInts b = .ok v → v = none) := by
  refine ⟨?_, ?_, ?_, ?_⟩
  · intro is hn
    constructor
    · rintro ⟨b, h0⟩
      unfold serInts serVector at h0
      obtain ⟨l, hl, h⟩ := Except.bind_eq_ok h0
      obtain ⟨bs, hb, h'⟩ := Except.bind_eq_ok h
      clear h' h hl h0 hn
      induction is generalizing bs with
      | nil => simp
      | cons i is ih =>
        unfold serEach at hb
        obtain ⟨x, hx, hb⟩ := Except.bind_eq_ok hb
        obtain ⟨y, hy, hb⟩ := Except.bind_eq_ok hb
        intro j hj
        rcases List.mem_cons.mp hj with rfl | hj
        · unfold packS at hx
          split at hx
          · assumption
          · cases hx
        · exact ih y hy j hj
    · intro hi
      obtain ⟨l, hl⟩ := serVarInt_total hn
      obtain ⟨e, he⟩ := serEach_total (ser := packS 4) (xs := is) (fun i h => ⟨_, by unfold packS; rw [if_pos (hi i h)]⟩)
      exact ⟨l ++ e, by unfold serInts serVector; rw [hl, he]; rfl⟩
  · intro is js b h1 h2
    have e1 := (RT.ints h1).reads []
    have e2 := (RT.ints h2).reads []
    rw [e1] at e2
    cases e2
    rfl
  · intro is b rest h
    have e := (RT.ints h).reads rest
    unfold deserVector at e
    obtain ⟨n, s', h1, h2⟩ := P.bind_inv e
    unfold deserInts
    show P.bind _ _ _ = _
    unfold P.bind
    rw [h1]
    show P.bind _ _ _ = _
    unfold P.bind
    rw [deserIntTuples_eq, h2]
    rfl
  · intro b v h
    unfold serializerDeserialize at h
    obtain ⟨r, hr, h⟩ := Except.bind_eq_ok h
    cases h
    unfold deserInts at hr
    obtain ⟨n, s', _, hr⟩ := P.bind_inv hr
    obtain ⟨m, s'', _, hr⟩ := P.bind_inv hr
    exact (P.pure_inv hr).1.symm

/-- Cases: two numbers are written, and read as `None`; two hashes come back although something follows; a hash of 31 bytes. -/
example : serInts [5, -1] = .ok (hex "0205000000ffffffff") ∧ serializerDeserialize deserInts (hex "0205000000ffffffff") = .ok none ∧
    serInts [2 ^ 31] = .error .structError := by decide +kernel
example : serializerDeserialize deserUint256s (2#8 :: List.replicate 32 7#8 ++ List.replicate 32 8#8 ++ [1#8]) = .ok [List.replicate 32 7#8, List.replicate 32 8#8] ∧
    serUint256s [List.replicate 31 7#8] = .error .assertion := by decide +kernel
/-- A string of 2²⁵ + 1 bytes is written, and refused. -/
example : (∃ b, serBytes (List.replicate (2 ^ 25 + 1) 0#8) = .ok b) ∧ ¬ (List.replicate (2 ^ 25 + 1) 0#8).length ≤ 2 ^ 25 :=
  ⟨serBytes_total (by rw [List.length_replicate]; decide), by rw [List.length_replicate]; decide⟩

/-- Vectors of objects: `serialize` and `deserialize` never work. -/
theorem C148_vector_partial {α} (xs : List α) (b : Bytes) : vectorSerialize xs = .error .typeError ∧ (vectorDeserialize b : Py (List α)) = .error .typeError := ⟨rfl, rfl⟩

end Verif.Btc
