import Verif.Lemmas.Bloom
import Verif.Model.Sha256
/-!
# C109–C111: MurmurHash3 and Bloom filters
-/
namespace Verif.Btc
open Verif Bloom

/-! ## C109 -/

/-- C109: for every seed of 32 bits and every byte string, `MurmurHash3` gives the hash its author defined. -/
theorem C109_murmur {seed : Nat} (h : seed < 2 ^ 32) (data : Bytes) : murmurHash3 seed data = .ok (Murmur.hash (BitVec.ofNat 32 seed) data).toNat := by
  have := murmurHash3_eq (BitVec.ofNat 32 seed) data
  rwa [BitVec.toNat_ofNat, Nat.mod_eq_of_lt h] at this

/-- C109: larger seeds raise `AssertionError`. -/
theorem C109_seed {seed : Nat} (h : 2 ^ 32 ≤ seed) (data : Bytes) : murmurHash3 seed data = .error .assertion := by
  unfold murmurHash3
  rw [decide_eq_false (by omega)]
  rfl

/-- Published test vectors. -/
example : murmurHash3 0xFBA4C795 [] = .ok 0x6a396f08 ∧ murmurHash3 0 [0x21#8, 0x43#8, 0x65#8, 0x87#8] = .ok 0xf55b516b ∧
    murmurHash3 0x5082EDEE [0x21#8, 0x43#8, 0x65#8, 0x87#8] = .ok 0x2362f9de ∧ murmurHash3 0 [0x21#8, 0x43#8, 0x65#8] = .ok 0x7e4a8634 := by decide +kernel

/-! ## C110 -/

/-- A filter that can be used: it has at least one byte, or no hash functions (as `__init__` makes it if it has no bytes). -/
def CBloomFilter.Usable (f : CBloomFilter) : Prop := f.vData ≠ [] ∨ f.nHashFuncs ≤ 0

/-- The bits that stand for `data` in filter `f`. -/
abbrev CBloomFilter.bitsOf (f : CBloomFilter) (data : Bytes) : List Nat := bits f.vData.length f.nHashFuncs.toNat f.nTweak data

theorem bitsOf_eq (f : CBloomFilter) (data : Bytes) : f.bitsOf data = (List.range f.nHashFuncs.toNat).map (f.index data) := rfl

theorem full_eq {v : Bytes} (h : v.length = 1 ∧ v.head? = some 0xff#8) : v = [0xff#8] := by
  match v, h with
  | [a], h => cases h.2; rfl

/-- C110: inserting an element sets its bits and changes nothing else. -/
theorem C110_insert {f : CBloomFilter} (hu : f.Usable) {e : Elem} {data : Bytes} (he : e.data = .ok data) :
    ∃ v, f.insert e = .ok { f with vData := v } ∧ v.length = f.vData.length ∧
      ∀ j < 8 * f.vData.length, bit v j = (bit f.vData j || decide (j ∈ f.bitsOf data)) := by
  unfold CBloomFilter.insert
  rw [he, Except.bind_ok]
  by_cases hf : f.vData.length = 1 ∧ f.vData.head? = some 0xff#8
  · rw [if_pos hf]
    refine ⟨f.vData, rfl, rfl, fun j hj => ?_⟩
    rw [hf.1] at hj
    rw [full_eq hf, full_bits hj]
    rfl
  · rw [if_neg hf]
    by_cases hv : f.vData = []
    · have h0 : f.nHashFuncs.toNat = 0 := by
        rcases hu with h | h
        · exact absurd hv h
        · omega
      rw [h0]
      refine ⟨f.vData, rfl, rfl, fun j hj => ?_⟩
      rw [hv] at hj
      cases hj
    · obtain ⟨v, h1, h2, h3⟩ := insertLoop_eq data (List.range f.nHashFuncs.toNat) hv
      exact ⟨v, h1, h2, fun j _ => h3 j⟩

/-- C110: an element is said to be contained if and only if all of its bits are set. -/
theorem C110_contains {f : CBloomFilter} (hu : f.Usable) {e : Elem} {data : Bytes} (he : e.data = .ok data) :
    f.contains e = .ok ((f.bitsOf data).all (bit f.vData)) := by
  unfold CBloomFilter.contains
  rw [he, Except.bind_ok]
  by_cases hf : f.vData.length = 1 ∧ f.vData.head? = some 0xff#8
  · rw [if_pos hf]
    congr 1
    symm
    rw [List.all_eq_true]
    intro j hj
    rw [bitsOf_eq] at hj
    obtain ⟨i, _, rfl⟩ := List.mem_map.mp hj
    have hlt := index_lt (f := f) (by intro h; rw [h] at hf; cases hf.1) data i
    rw [hf.1] at hlt
    rw [full_eq hf]
    exact full_bits hlt
  · rw [if_neg hf]
    by_cases hv : f.vData = []
    · have h0 : f.nHashFuncs.toNat = 0 := by
        rcases hu with h | h
        · exact absurd hv h
        · omega
      unfold CBloomFilter.bitsOf
      rw [h0]
      rfl
    · rw [containsLoop_eq data hv, bitsOf_eq, List.all_map]
      rfl

/-- Elements inserted one after the other. -/
def insertAll : List Elem → CBloomFilter → Py CBloomFilter
  | [], f => .ok f
  | e :: es, f => do
    let f ← f.insert e
    insertAll es f

theorem CBloomFilter.Usable.insert {f : CBloomFilter} (hu : f.Usable) {v : Bytes} (h : v.length = f.vData.length) : CBloomFilter.Usable { f with vData := v } := by
  rcases hu with hu | hu
  · exact .inl fun hv => hu (List.eq_nil_of_length_eq_zero (by rw [← h]; exact congrArg List.length hv))
  · exact .inr hu

/-- C110: after any insertions a bit is set if and only if it was, or stands for an inserted element. -/
theorem C110_history : ∀ {es : List Elem} {f : CBloomFilter}, f.Usable → (∀ e ∈ es, ∃ d, e.data = .ok d) →
    ∃ v, insertAll es f = .ok { f with vData := v } ∧ v.length = f.vData.length ∧
      ∀ j < 8 * f.vData.length, bit v j = true ↔ bit f.vData j = true ∨ ∃ e ∈ es, ∃ d, e.data = .ok d ∧ j ∈ f.bitsOf d
  | [], f, _, _ => ⟨f.vData, rfl, rfl, fun j _ => by simp⟩
  | e :: es, f, hu, hd => by
    obtain ⟨d, he⟩ := hd e (List.mem_cons_self ..)
    obtain ⟨v, h1, h2, h3⟩ := C110_insert hu he
    obtain ⟨w, h4, h5, h6⟩ := C110_history (hu.insert h2) (fun e' h => hd e' (List.mem_cons_of_mem _ h))
    refine ⟨w, ?_, h5.trans h2, fun j hj => ?_⟩
    · rw [insertAll, h1, Except.bind_ok]
      exact h4
    · have h7 := h6 j (by dsimp only; rw [h2]; exact hj)
      have hb : ∀ d, CBloomFilter.bitsOf { f with vData := v } d = f.bitsOf d := fun d => by
        unfold CBloomFilter.bitsOf
        dsimp only
        rw [h2]
      rw [h7]
      dsimp only
      rw [h3 j hj, Bool.or_eq_true, decide_eq_true_iff]
      constructor
      · rintro ((h | h) | ⟨e', h8, d', h9, h10⟩)
        · exact .inl h
        · exact .inr ⟨e, List.mem_cons_self .., d, he, h⟩
        · exact .inr ⟨e', List.mem_cons_of_mem _ h8, d', h9, by rw [← hb]; exact h10⟩
      · rintro (h | ⟨e', h8, d', h9, h10⟩)
        · exact .inl (.inl h)
        · rcases List.mem_cons.mp h8 with rfl | h8
          · rw [he] at h9
            cases h9
            exact .inl (.inr h10)
          · exact .inr ⟨e', h8, d', h9, by rw [hb]; exact h10⟩

/-- C110: after any insertions exactly those elements are said to be contained all of whose bits were set or stand for inserted
elements. -/
theorem C110_contained {es : List Elem} {f : CBloomFilter} (hu : f.Usable) (hd : ∀ e ∈ es, ∃ d, e.data = .ok d) :
    ∃ g, insertAll es f = .ok g ∧ ∀ e d, e.data = .ok d →
      ∃ b, g.contains e = .ok b ∧ (b = true ↔ ∀ j ∈ f.bitsOf d, bit f.vData j = true ∨ ∃ e' ∈ es, ∃ d', e'.data = .ok d' ∧ j ∈ f.bitsOf d') := by
  obtain ⟨v, h1, h2, h3⟩ := C110_history hu hd
  refine ⟨_, h1, fun e d he => ⟨_, C110_contains (hu.insert h2) he, ?_⟩⟩
  have hb : CBloomFilter.bitsOf { f with vData := v } d = f.bitsOf d := by
    unfold CBloomFilter.bitsOf
    dsimp only
    rw [h2]
  rw [hb, List.all_eq_true]
  refine forall₂_congr fun j hj => h3 j ?_
  rcases hu with hv | h0
  · rw [bitsOf_eq] at hj
    obtain ⟨i, _, rfl⟩ := List.mem_map.mp hj
    exact index_lt hv d i
  · have h0 : f.nHashFuncs.toNat = 0 := by omega
    rw [bitsOf_eq, h0] at hj
    cases hj

/-- C110: there are no false negatives: whatever was in the filter, and whatever else is inserted before and after, an element that
was inserted is said to be contained. -/
theorem C110_no_false_negatives {es : List Elem} {f : CBloomFilter} (hu : f.Usable) (hd : ∀ e ∈ es, ∃ d, e.data = .ok d) :
    ∃ g, insertAll es f = .ok g ∧ (∀ e ∈ es, g.contains e = .ok true) ∧
      ∀ e, f.contains e = .ok true → g.contains e = .ok true := by
  obtain ⟨g, h1, h2⟩ := C110_contained hu hd
  refine ⟨g, h1, fun e he => ?_, fun e he => ?_⟩
  · obtain ⟨d, hed⟩ := hd e he
    obtain ⟨b, h3, h4⟩ := h2 e d hed
    rw [h3, h4.mpr fun j hj => .inr ⟨e, he, d, hed, hj⟩]
  · obtain ⟨d, hed, _⟩ := Except.bind_eq_ok he
    obtain ⟨b, h3, h4⟩ := h2 e d hed
    rw [C110_contains hu hed] at he
    injection he with he
    rw [List.all_eq_true] at he
    rw [h3, h4.mpr fun j hj => .inl (he j hj)]

/-- C110: neither the order of insertions nor repetition matters. -/
theorem C110_order {es es' : List Elem} {f : CBloomFilter} (hu : f.Usable) (hd : ∀ e ∈ es, ∃ d, e.data = .ok d) (h : ∀ e, e ∈ es ↔ e ∈ es') :
    insertAll es f = insertAll es' f := by
  obtain ⟨v, h1, h2, h3⟩ := C110_history hu hd
  obtain ⟨w, h4, h5, h6⟩ := C110_history (es := es') hu (fun e he => hd e ((h e).mpr he))
  have : v = w := bits_ext (h2.trans h5.symm) fun j hj => by
    rw [h2] at hj
    have h7 := h3 j hj
    have h8 := h6 j hj
    simp only [h] at h7
    rw [Bool.eq_iff_iff, h7, h8]
  rw [h1, h4, this]

/-- C110: nothing is contained in a filter of zeros that has hash functions. -/
theorem C110_empty {f : CBloomFilter} (hv : f.vData ≠ []) (hk : 0 < f.nHashFuncs) (hz : ∀ b ∈ f.vData, b = 0#8) {e : Elem} {d : Bytes} (he : e.data = .ok d) :
    f.contains e = .ok false := by
  rw [C110_contains (.inl hv) he, bitsOf_eq]
  congr 1
  obtain ⟨k, hk'⟩ : ∃ k, f.nHashFuncs.toNat = k + 1 := ⟨f.nHashFuncs.toNat - 1, by omega⟩
  rw [hk', List.range_succ_eq_map, List.map_cons, List.all_cons]
  have : bit f.vData (f.index d 0) = false := by
    unfold bit
    have hlt := index_lt hv d 0
    have h8 : f.index d 0 / 8 < f.vData.length := by omega
    rw [List.getD_eq_getElem?_getD, List.getElem?_eq_getElem h8, Option.getD_some, hz _ (List.getElem_mem h8)]
    simp
  rw [this, Bool.false_and]

/-- C110: an outpoint is the same element as its bytes. -/
theorem C110_outpoint (f : CBloomFilter) {o : COutPoint} {d : Bytes} (h : o.ser = .ok d) :
    f.insert (.outpoint o) = f.insert (.bytes d) ∧ f.contains (.outpoint o) = f.contains (.bytes d) := by
  have : (Elem.outpoint o).data = (Elem.bytes d).data := h
  exact ⟨by unfold CBloomFilter.insert; rw [this], by unfold CBloomFilter.contains; rw [this]⟩

/-- C110: a filter without bytes that has hash functions raises `ZeroDivisionError`. -/
theorem C110_unusable {f : CBloomFilter} (h : ¬ f.Usable) {e : Elem} {d : Bytes} (he : e.data = .ok d) :
    f.insert e = .error .other ∧ f.contains e = .error .other := by
  have hv : f.vData = [] := Decidable.byContradiction fun hv => h (.inl hv)
  have hk : 0 < f.nHashFuncs := Int.not_le.mp fun hk => h (.inr hk)
  obtain ⟨k, hk'⟩ : ∃ k, f.nHashFuncs.toNat = k + 1 := ⟨f.nHashFuncs.toNat - 1, by omega⟩
  unfold CBloomFilter.insert CBloomFilter.contains
  rw [he, Except.bind_ok, Except.bind_ok, if_neg (by rw [hv]; simp), if_neg (by rw [hv]; simp), hk', List.range_succ_eq_map, insertLoop, containsLoop, bloomHash_error hv]
  exact ⟨rfl, rfl⟩

/-- The filter of the unit test of Bitcoin. -/
example : insertAll [.bytes (hex "99108ad8ed9bb6274d3980bab5a85c048f0950c8"), .bytes (hex "b5a2c786d9ef4658287ced5914b37a1b4aa32eee"),
    .bytes (hex "b9300670b4c5366e95b2699e8b18bc75e5f729c5")] ⟨[0#8, 0#8, 0#8], 5, 0, 1⟩ = .ok ⟨hex "614e9b", 5, 0, 1⟩ := by decide +kernel
example : CBloomFilter.contains ⟨hex "614e9b", 5, 0, 1⟩ (.bytes (hex "99108ad8ed9bb6274d3980bab5a85c048f0950c8")) = .ok true ∧
    CBloomFilter.contains ⟨hex "614e9b", 5, 0, 1⟩ (.bytes (hex "19108ad8ed9bb6274d3980bab5a85c048f0950c8")) = .ok false := by decide +kernel
example : CBloomFilter.Usable ⟨[0#8, 0#8, 0#8], 5, 0, 1⟩ := .inl (by decide)

/-! ## C111 -/

/-- C111, the claim: a filter within the limits of the protocol can be written, and read back. -/
def C111_statement : Prop := ∀ f : CBloomFilter, f.vData.length ≤ 36000 → 0 ≤ f.nHashFuncs → f.nHashFuncs ≤ 50 → 0 ≤ f.nTweak → f.nTweak < 2 ^ 32 →
  0 ≤ f.nFlags → f.nFlags < 2 ^ 8 → ∃ b, f.ser = .ok b ∧ CBloomFilter.deser b = .ok (f, [])

/-- C111 is refuted by every filter; here is one. -/
theorem C111_refuted : ¬ C111_statement := fun h => by
  obtain ⟨b, h1, h2⟩ := h ⟨hex "614e9b", 5, 0, 1⟩ (by decide +kernel) (by decide) (by decide) (by decide) (by decide) (by decide) (by decide)
  unfold CBloomFilter.deser at h2
  rw [P.bind_apply] at h2
  cases h3 : deserBytes b <;> rw [h3] at h2 <;> cases h2

/-- C111, what holds: a filter is within the limits, 36000 bytes and 50 hash functions, exactly if the library says so. -/
theorem C111_limits_partial (f : CBloomFilter) : f.isWithinSizeConstraints = true ↔ f.vData.length ≤ 36000 ∧ f.nHashFuncs ≤ 50 := by
  unfold CBloomFilter.isWithinSizeConstraints
  rw [Bool.and_eq_true, decide_eq_true_iff, decide_eq_true_iff]

/-- C111, what holds: such a filter is written, as the protocol says: the length, the bytes, and three numbers. -/
theorem C111_write_partial {f : CBloomFilter} (hs : f.vData.length ≤ 36000 ∧ f.nHashFuncs ≤ 50) (h1 : 0 ≤ f.nHashFuncs) (h2 : 0 ≤ f.nTweak) (h3 : f.nTweak < 2 ^ 32) (h4 : 0 ≤ f.nFlags)
    (h5 : f.nFlags < 2 ^ 8) :
    ∃ l, serVarInt f.vData.length = .ok l ∧
      f.ser = .ok (l ++ f.vData ++ (leBytes 4 f.nHashFuncs.toNat ++ leBytes 4 f.nTweak.toNat ++ leBytes 1 f.nFlags.toNat)) := by
  obtain ⟨l, hl⟩ : ∃ l, serVarInt f.vData.length = .ok l := by
    unfold serVarInt
    rw [if_neg (by omega)]
    split
    · exact ⟨_, rfl⟩
    · rw [if_pos (by omega)]
      unfold packU
      rw [if_pos ⟨by omega, by omega⟩]
      exact ⟨_, rfl⟩
  refine ⟨l, hl, ?_⟩
  unfold CBloomFilter.ser serBytes
  rw [hl, Except.bind_ok]
  unfold packU
  rw [if_pos ⟨h1, by omega⟩, if_pos ⟨h2, by omega⟩, if_pos ⟨h4, by omega⟩]
  rfl

/-- C111, what holds: different filters are written differently. -/
theorem C111_injective_partial {f g : CBloomFilter} {b : Bytes} (hf : f.ser = .ok b) (hg : g.ser = .ok b) (lf : f.vData.length ≤ MAX_SIZE) (lg : g.vData.length ≤ MAX_SIZE) :
    f = g := by
  unfold CBloomFilter.ser at hf hg
  obtain ⟨v, e1, hf⟩ := Except.bind_eq_ok hf
  obtain ⟨a1, e2, hf⟩ := Except.bind_eq_ok hf
  obtain ⟨a2, e3, hf⟩ := Except.bind_eq_ok hf
  obtain ⟨a3, e4, hf⟩ := Except.bind_eq_ok hf
  obtain ⟨w, g1, hg⟩ := Except.bind_eq_ok hg
  obtain ⟨b1, g2, hg⟩ := Except.bind_eq_ok hg
  obtain ⟨b2, g3, hg⟩ := Except.bind_eq_ok hg
  obtain ⟨b3, g4, hg⟩ := Except.bind_eq_ok hg
  have hb : v ++ (a1 ++ a2 ++ a3) = w ++ (b1 ++ b2 ++ b3) := (Except.ok.inj hf).trans (Except.ok.inj hg).symm
  have hv := (RT.bytes e1 lf).reads (a1 ++ a2 ++ a3)
  rw [hb, (RT.bytes g1 lg).reads (b1 ++ b2 ++ b3)] at hv
  obtain ⟨hv1, hv2⟩ := Prod.mk.inj (Except.ok.inj hv)
  obtain ⟨p1, p2, _⟩ := packU_ok e2
  obtain ⟨p3, p4, _⟩ := packU_ok e3
  obtain ⟨p5, p6, _⟩ := packU_ok e4
  obtain ⟨q1, q2, _⟩ := packU_ok g2
  obtain ⟨q3, q4, _⟩ := packU_ok g3
  obtain ⟨q5, q6, _⟩ := packU_ok g4
  rw [List.append_assoc, List.append_assoc] at hv2
  obtain ⟨r1, hv2⟩ := List.append_inj hv2 (by omega)
  obtain ⟨r2, r3⟩ := List.append_inj hv2 (by omega)
  obtain ⟨f1, f2, f3, f4⟩ := f
  obtain ⟨g1', g2', g3', g4'⟩ := g
  dsimp only at *
  rw [← r1, q2] at p2
  rw [← r2, q4] at p4
  rw [← r3, q6] at p6
  subst hv1 p2 p4 p6
  rfl

/-- C111, exactly: reading always raises, `NameError` as soon as the bytes of the filter have been read. -/
theorem C111_read_partial (s : Bytes) : CBloomFilter.deser s = match deserBytes s with
    | .ok _ => .error .nameError
    | .error e => .error e := by
  unfold CBloomFilter.deser
  rw [P.bind_apply]
  cases deserBytes s <;> rfl

end Verif.Btc
