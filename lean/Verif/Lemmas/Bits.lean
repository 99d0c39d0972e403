import Verif.Model.Bits
import Verif.Lemmas.Serialize
/-! Helper lemmas about `Bits`: the byte-level operations computed bit by bit. -/
namespace Verif

theorem Except.bind_ok {ε α β} (a : α) (f : α → Except ε β) : (Except.ok a >>= f) = f a := rfl
theorem Except.bind_error {ε α β} (e : ε) (f : α → Except ε β) : ((Except.error e : Except ε α) >>= f) = .error e := rfl
theorem Except.pure_eq {ε α} (a : α) : (pure a : Except ε α) = .ok a := rfl

theorem mapM_ok {α β} {f : α → Py β} {g : α → β} : ∀ {l : List α}, (∀ x ∈ l, f x = .ok (g x)) →
    l.mapM f = .ok (l.map g)
  | [], _ => rfl
  | x :: l, h => by
    rw [List.mapM_cons, h x (by simp), mapM_ok (l := l) (fun y hy => h y (by simp [hy]))]
    rfl

namespace Bits

def byteD (buf : Bytes) (j : Nat) : Byte := buf[j]?.getD 0#8
def bit (buf : Bytes) (i : Nat) : Bool := (byteD buf (i / 8)).getMsbD (i % 8)
def bits (b : Bits) : List Bool := (List.range b.length).map (bit b.buf)

theorem byteAt_eq {buf : Bytes} {j : Nat} (h : j < buf.length) : byteAt buf j = .ok (byteD buf j) := by
  simp [byteAt, byteD, h]

theorem bitAt_byte (b : Byte) : ∀ k : Fin 8, ((b >>> (7 - k.val)) &&& 1#8 != 0#8) = b.getMsbD k.val := by
  decide +revert +kernel

theorem bitAt_eq {buf : Bytes} {i : Nat} (h : i < 8 * buf.length) : bitAt buf i = .ok (bit buf i) := by
  unfold bitAt
  rw [byteAt_eq (by omega)]
  show Except.ok _ = _
  rw [bitAt_byte _ ⟨i % 8, by omega⟩]
  rfl

theorem iter_eq {b : Bits} (h : b.WF) : b.iter = .ok b.bits := by
  apply mapM_ok
  intro i hi
  simp only [List.mem_range] at hi
  exact bitAt_eq (by unfold WF at h; omega)

@[simp] theorem bits_length (b : Bits) : b.bits.length = b.length := by simp [bits]

theorem bits_getElem {b : Bits} {i : Nat} (h : i < b.bits.length) : b.bits[i] = bit b.buf i := by
  simp [bits]

theorem bits_getElem? {b : Bits} {i : Nat} (h : i < b.length) : b.bits[i]? = some (bit b.buf i) := by
  simp [bits, h]

theorem bits_ext {b : Bits} {xs : List Bool} (hl : b.length = xs.length)
    (h : ∀ i (hi : i < xs.length), bit b.buf i = xs[i]) : b.bits = xs := by
  apply List.ext_getElem
  · simp [hl]
  · intro i h1 h2
    rw [bits_getElem h1, h i h2]

theorem bits_eq_iff {a b : Bits} : a.bits = b.bits ↔
    a.length = b.length ∧ ∀ i, i < a.length → bit a.buf i = bit b.buf i := by
  constructor
  · intro h
    have hl : a.length = b.length := by rw [← bits_length a, h, bits_length]
    refine ⟨hl, fun i hi => ?_⟩
    have := bits_getElem? hi
    rw [h, bits_getElem? (hl ▸ hi)] at this
    exact (Option.some.inj this).symm
  · rintro ⟨hl, h⟩
    apply bits_ext (by simp [hl])
    intro i hi
    simp only [bits_length] at hi
    rw [bits_getElem, h i (by omega)]

theorem byte_ext {x y : Byte} (h : ∀ k, k < 8 → x.getMsbD k = y.getMsbD k) : x = y := by
  apply BitVec.eq_of_getMsbD_eq
  intro i hi
  exact h i hi

theorem bit_mk {buf : Bytes} {j k : Nat} (hk : k < 8) : bit buf (8 * j + k) = (byteD buf j).getMsbD k := by
  unfold bit
  rw [show (8 * j + k) / 8 = j by omega, show (8 * j + k) % 8 = k by omega]

@[simp] theorem byteD_cons_zero (x : Byte) (xs) : byteD (x :: xs) 0 = x := by simp [byteD]
@[simp] theorem byteD_cons_succ (x : Byte) (xs j) : byteD (x :: xs) (j + 1) = byteD xs j := by simp [byteD]

theorem bit_cons_lt {x : Byte} {xs : Bytes} {i : Nat} (h : i < 8) : bit (x :: xs) i = x.getMsbD i := by
  unfold bit
  rw [show i / 8 = 0 by omega, show i % 8 = i by omega, byteD_cons_zero]

theorem bit_cons_ge {x : Byte} {xs : Bytes} {i : Nat} (h : 8 ≤ i) : bit (x :: xs) i = bit xs (i - 8) := by
  unfold bit
  rw [show i / 8 = (i - 8) / 8 + 1 by omega, show i % 8 = (i - 8) % 8 by omega, byteD_cons_succ]

theorem bit_append_lt {xs ys : Bytes} {i : Nat} (h : i < 8 * xs.length) : bit (xs ++ ys) i = bit xs i := by
  unfold bit byteD
  rw [List.getElem?_append_left (by omega)]

theorem bit_append_ge {xs ys : Bytes} {i : Nat} (h : 8 * xs.length ≤ i) :
    bit (xs ++ ys) i = bit ys (i - 8 * xs.length) := by
  unfold bit byteD
  rw [List.getElem?_append_right (by omega), show (i - 8 * xs.length) / 8 = i / 8 - xs.length by omega,
    show (i - 8 * xs.length) % 8 = i % 8 by omega]

theorem bit_take {xs : Bytes} {n i : Nat} (h : i < 8 * n) : bit (xs.take n) i = bit xs i := by
  unfold bit byteD
  rw [List.getElem?_take_of_lt (by omega)]

/-! ### construction -/

theorem or_bit (b : Byte) (x : Bool) (m k : Fin 8) (hz : b.getMsbD m.val = false) :
    (b ||| ((if x then 1#8 else 0#8) <<< (7 - m.val))).getMsbD k.val =
      if k.val = m.val then x else b.getMsbD k.val := by
  decide +revert +kernel

structure NewInv (done : List Bool) (st : Bytes × Byte × Nat) : Prop where
  len : st.2.2 = done.length
  buf : st.1.length = done.length / 8
  bit : ∀ i (hi : i < done.length), bit (st.1 ++ [st.2.1]) i = done[i]
  tail : ∀ k, done.length % 8 ≤ k → k < 8 → st.2.1.getMsbD k = false

theorem newInv_step {done : List Bool} {st} (x : Bool) (h : NewInv done st) :
    NewInv (done ++ [x]) (newStep st x) := by
  obtain ⟨buf, byte, len⟩ := st
  obtain ⟨h1, h2, h3, h4⟩ := h
  simp only at h1 h2 h3 h4
  subst h1
  have hb : ∀ k, k < 8 → (byte ||| ((if x then 1#8 else 0#8) <<< (7 - done.length % 8))).getMsbD k =
      if k = done.length % 8 then x else byte.getMsbD k := fun k hk =>
    or_bit byte x ⟨done.length % 8, by omega⟩ ⟨k, hk⟩ (h4 _ (by simp) (Nat.mod_lt _ (by omega)))
  generalize hB : (byte ||| ((if x then 1#8 else 0#8) <<< (7 - done.length % 8))) = B at hb
  have key : ∀ i (hi : i < (done ++ [x]).length), Bits.bit (buf ++ [B]) i = (done ++ [x])[i] := by
    intro i hi
    simp only [List.length_append, List.length_cons, List.length_nil] at hi
    by_cases hlt : i < 8 * buf.length
    · rw [bit_append_lt hlt, List.getElem_append_left (by omega), ← h3 i (by omega), bit_append_lt hlt]
    · rw [bit_append_ge (by omega), bit_cons_lt (by omega), hb _ (by omega)]
      by_cases he : i = done.length
      · subst he
        rw [if_pos (by omega)]
        simp
      · rw [if_neg (by omega), List.getElem_append_left (by omega), ← h3 i (by omega),
          bit_append_ge (by omega), bit_cons_lt (by omega)]
  unfold newStep
  simp only [hB]
  split
  · rename_i h8
    refine ⟨by simp, by simp; omega, ?_, ?_⟩
    · intro i hi
      simp only [List.length_append, List.length_cons, List.length_nil] at hi
      rw [bit_append_lt (by simp; omega)]
      exact key i (by simp; omega)
    · simp
  · rename_i h8
    refine ⟨by simp, by simp; omega, key, ?_⟩
    intro k hk hk8
    simp only [List.length_append, List.length_cons, List.length_nil] at hk
    rw [hb k hk8, if_neg (by omega)]
    exact h4 k (by omega) hk8

theorem newInv_foldl (xs : List Bool) : ∀ (done : List Bool) st, NewInv done st →
    NewInv (done ++ xs) (xs.foldl newStep st) := by
  induction xs with
  | nil => intro done st h; simpa using h
  | cons x xs ih =>
    intro done st h
    have := ih _ _ (newInv_step x h)
    simpa using this

theorem newInv_all (xs : List Bool) : NewInv xs (xs.foldl newStep ([], 0#8, 0)) := by
  have := newInv_foldl xs [] ([], 0#8, 0) ⟨rfl, rfl, by intro i hi; simp at hi, by simp⟩
  simpa using this

theorem ofIter_spec (xs : List Bool) : (ofIter xs).WF ∧ (ofIter xs).bits = xs := by
  have h := newInv_all xs
  unfold ofIter
  generalize xs.foldl newStep ([], 0#8, 0) = st at h
  obtain ⟨buf, byte, len⟩ := st
  obtain ⟨h1, h2, h3, h4⟩ := h
  simp only at h1 h2 h3 h4
  subst h1
  by_cases h0 : xs.length = 0
  · have : xs = [] := by simpa using h0
    subst this
    exact ⟨by simp [WF, empty], by simp [bits, empty]⟩
  · simp only [h0, ne_eq, not_false_eq_true, if_true]
    refine ⟨?_, bits_ext rfl h3⟩
    simp only [WF, List.length_append, List.length_cons, List.length_nil]
    omega

theorem fromBytes_eq {buf : Bytes} {n : Nat} (h : n ≤ 8 * buf.length) :
    fromBytes buf (some (n : Int)) = .ok ⟨n, if n ≠ 0 then buf else []⟩ := by
  unfold fromBytes
  simp only [Option.getD_some]
  rw [if_neg (by omega), if_neg (by omega)]
  simp

theorem fromBytes_ok {buf : Bytes} {n : Option Int} {b : Bits} (h : fromBytes buf n = .ok b) :
    b.WF ∧ (∀ i, i < b.length → bit b.buf i = bit buf i) ∧ (b.length : Int) = n.getD (buf.length * 8) := by
  unfold fromBytes at h
  simp only at h
  split at h
  · cases h
  split at h
  · cases h
  injection h with h
  subst h
  simp only [WF]
  split
  · exact ⟨by omega, fun _ _ => rfl, by simp; omega⟩
  · rename_i h0
    have h0 : n.getD (↑(List.length buf) * 8) = 0 := by simpa using h0
    rw [h0]
    exact ⟨by simp, fun i hi => by simp at hi, by simp⟩

/-! ### equality -/

theorem mask_byte (b : Byte) (odd k : Fin 8) :
    (b &&& (0xFF#8 <<< (8 - odd.val))).getMsbD k.val = (decide (k.val < odd.val) && b.getMsbD k.val) := by
  decide +revert +kernel

/-- The value of `__tail_bits` on a well-formed `Bits`. -/
def tailV (b : Bits) : Byte :=
  if b.length % 8 ≠ 0 then byteD b.buf (b.length / 8) &&& (0xFF#8 <<< (8 - b.length % 8)) else 0#8

theorem tailBits_eq {b : Bits} (h : b.WF) : b.tailBits = .ok b.tailV := by
  unfold tailBits tailV
  simp only
  unfold WF at h
  split
  · rw [byteAt_eq (by omega)]; rfl
  · rfl

theorem tailV_bit {b : Bits} {k : Nat} (hk : k < 8) :
    b.tailV.getMsbD k = (decide (k < b.length % 8) && bit b.buf (8 * (b.length / 8) + k)) := by
  unfold tailV
  rw [bit_mk hk]
  split
  · exact mask_byte _ ⟨_, Nat.mod_lt _ (by omega)⟩ ⟨k, hk⟩
  · rename_i h
    have : b.length % 8 = 0 := by simpa using h
    simp [this]

theorem take_eq_iff {xs ys : Bytes} {n : Nat} (hx : n ≤ xs.length) (hy : n ≤ ys.length) :
    xs.take n = ys.take n ↔ ∀ i, i < 8 * n → bit xs i = bit ys i := by
  constructor
  · intro h i hi
    rw [← bit_take hi, h, bit_take hi]
  · intro h
    apply List.ext_getElem
    · simp; omega
    · intro j h1 h2
      simp only [List.length_take] at h1 h2
      rw [List.getElem_take, List.getElem_take]
      apply byte_ext
      intro k hk
      have := h (8 * j + k) (by omega)
      rw [bit_mk hk, bit_mk hk] at this
      simpa [byteD, show j < xs.length by omega, show j < ys.length by omega] using this

theorem eq_iff_parts {a b : Bits} (ha : a.WF) (hb : b.WF) (hl : a.length = b.length) :
    (a.fullWidthPrefix = b.fullWidthPrefix ∧ a.tailV = b.tailV) ↔ a.bits = b.bits := by
  unfold WF at ha hb
  unfold fullWidthPrefix
  rw [hl, take_eq_iff (by omega) (by omega), bits_eq_iff]
  constructor
  · rintro ⟨h1, h2⟩
    refine ⟨hl, fun i hi => ?_⟩
    by_cases h : i < 8 * (b.length / 8)
    · exact h1 i h
    · have := tailV_bit (b := a) (k := i % 8) (Nat.mod_lt _ (by omega))
      rw [h2, tailV_bit (b := b) (k := i % 8) (Nat.mod_lt _ (by omega)), hl,
        show 8 * (b.length / 8) + i % 8 = i by omega, decide_eq_true (show i % 8 < b.length % 8 by omega)] at this
      simpa using this.symm
  · rintro ⟨_, h⟩
    refine ⟨fun i hi => h i (by omega), byte_ext fun k hk => ?_⟩
    rw [tailV_bit hk, tailV_bit hk, hl]
    by_cases hk2 : k < b.length % 8
    · rw [h _ (by omega)]
    · simp [hk2]

theorem eq_eq {a b : Bits} (ha : a.WF) (hb : b.WF) : eq a b = .ok (decide (a.bits = b.bits)) := by
  unfold eq
  rw [tailBits_eq ha, tailBits_eq hb]
  by_cases hl : a.length = b.length
  · rw [if_neg (by simpa using hl)]
    by_cases hf : a.fullWidthPrefix = b.fullWidthPrefix
    · rw [if_neg (by simpa using hf)]
      show Except.ok _ = _
      rw [show (a.tailV == b.tailV) = decide (a.tailV = b.tailV) from rfl]
      congr 1
      rw [decide_eq_decide, ← eq_iff_parts ha hb hl]
      simp [hf]
    · rw [if_pos hf]
      have : ¬ a.bits = b.bits := fun h => hf ((eq_iff_parts ha hb hl).mpr h).1
      simp [this]
  · rw [if_pos hl]
    have : ¬ a.bits = b.bits := fun h => hl (bits_eq_iff.mp h).1
    simp [this]

/-! ### slicing and prefixes -/

theorem bits_take {b : Bits} {n : Nat} (h : n ≤ b.length) : bits ⟨n, b.buf⟩ = b.bits.take n := by
  apply List.ext_getElem
  · simp; omega
  · intro i h1 h2
    rw [bits_getElem, List.getElem_take, bits_getElem]

theorem startswith_eq {a p : Bits} (ha : a.WF) (hp : p.WF) :
    a.startswith p = .ok (decide (p.bits <+: a.bits)) := by
  unfold startswith
  have hlen : p.bits <+: a.bits ↔ a.bits.take p.length = p.bits := by
    rw [List.prefix_iff_eq_take, bits_length]; exact eq_comm
  split
  · rename_i h
    congr 1
    symm
    rw [decide_eq_false_iff_not]
    intro hpre
    have := hpre.length_le
    simp at this; omega
  · split
    · rename_i h1 h2
      rw [eq_eq hp ha]
      congr 1
      rw [decide_eq_decide, hlen, List.take_of_length_le (by simp; omega)]
      exact eq_comm
    · rename_i h1 h2
      have hs : (⟨none, some (p.length : Int), none⟩ : PySlice).indices a.length
          = .ok (0, (p.length : Int), 1) := by
        simp [PySlice.indices]
        omega
      unfold getSlice
      rw [hs, Except.bind_ok]
      simp only [and_self, if_true]
      by_cases h0 : p.length = 0
      · rw [if_pos (by omega)]
        rw [Except.pure_eq, Except.bind_ok, eq_eq (by decide) hp]
        have hpn : p.bits = [] := by
          apply List.eq_nil_of_length_eq_zero; simp [h0]
        have hen : empty.bits = [] := rfl
        simp [hpn, hen]
      · rw [if_neg (by omega), if_neg (by omega), Except.pure_eq, Except.bind_ok, eq_eq (by unfold WF at *; simp; omega) hp]
        simp only [Int.toNat_natCast]
        congr 1
        rw [decide_eq_decide, hlen, bits_take (by omega)]

/-! ### concatenation and inversion -/

theorem shr_byte (t b : Byte) (off : Fin 8) (k : Fin 8) :
    (t ||| (b >>> off.val)).getMsbD k.val = (t.getMsbD k.val || (decide (off.val ≤ k.val) && b.getMsbD (k.val - off.val))) := by
  have : ∀ k : Fin 8, (b >>> off.val).getMsbD k.val = (decide (off.val ≤ k.val) && b.getMsbD (k.val - off.val)) := by
    decide +revert +kernel
  rw [BitVec.getMsbD_or, this]

theorem shl_byte (b : Byte) (off : Fin 8) (k : Fin 8) :
    ((b <<< (8 - off.val)) &&& 0xFF#8).getMsbD k.val = (decide (k.val < off.val) && b.getMsbD (k.val + (8 - off.val))) := by
  decide +revert +kernel

theorem addLoop_length (off : Nat) : ∀ (bs : Bytes) (t : Byte), (addLoop off t bs).length = bs.length + 1
  | [], _ => rfl
  | b :: bs, t => by simp [addLoop, addLoop_length off bs]

theorem addLoop_bit {off : Nat} (h0 : 0 < off) (h8 : off < 8) : ∀ (bs : Bytes) (t : Byte),
    (∀ k, off ≤ k → k < 8 → t.getMsbD k = false) → ∀ i,
    i < off + 8 * bs.length →
    bit (addLoop off t bs) i = if i < off then t.getMsbD i else bit bs (i - off)
  | [], t, _, i, hi => by
    simp only [List.length_nil] at hi
    rw [if_pos (by omega), addLoop, bit_cons_lt (by omega)]
  | b :: bs, t, ht, i, hi => by
    simp only [List.length_cons] at hi
    rw [addLoop]
    by_cases h : i < 8
    · rw [bit_cons_lt h, shr_byte t b ⟨off, h8⟩ ⟨i, h⟩]
      by_cases ho : i < off
      · rw [if_pos ho]
        have : ¬ off ≤ i := by omega
        simp [this]
      · rw [if_neg ho, ht i (by omega) h, bit_cons_lt (by omega)]
        have : off ≤ i := by omega
        simp [this]
    · rw [bit_cons_ge (by omega), addLoop_bit h0 h8 bs _ ?_ (i - 8) (by omega), if_neg (show ¬ i < off by omega)]
      · split
        · rename_i hlt
          rw [bit_cons_lt (by omega), shl_byte b ⟨off, h8⟩ ⟨i - 8, by omega⟩]
          simp only
          rw [show i - 8 + (8 - off) = i - off by omega, decide_eq_true hlt]
          simp
        · rw [bit_cons_ge (by omega)]
          congr 1; omega
      · intro k hk hk8
        rw [shl_byte b ⟨off, h8⟩ ⟨k, hk8⟩]
        have : ¬ k < off := by omega
        simp [this]

theorem add_spec {a b : Bits} (ha : a.WF) (hb : b.WF) :
    ∃ r, a.add b = .ok r ∧ r.WF ∧ r.bits = a.bits ++ b.bits := by
  unfold WF at ha hb
  unfold add
  by_cases h0 : a.length = 0
  · rw [if_pos h0]
    have : a.bits = [] := List.eq_nil_of_length_eq_zero (by simp [h0])
    exact ⟨b, rfl, hb, by simp [this]⟩
  rw [if_neg h0]
  by_cases h1 : b.length = 0
  · rw [if_pos h1]
    have : b.bits = [] := List.eq_nil_of_length_eq_zero (by simp [h1])
    exact ⟨a, rfl, ha, by simp [this]⟩
  rw [if_neg h1]
  have hfin : ∀ rbuf : Bytes, a.length + b.length ≤ 8 * (a.length / 8 + rbuf.length) →
      (∀ i, i < a.length % 8 + b.length → bit rbuf i =
        if i < a.length % 8 then bit a.buf (8 * (a.length / 8) + i) else bit b.buf (i - a.length % 8)) →
      (⟨a.length + b.length, a.buf.take (a.length / 8) ++ rbuf⟩ : Bits).WF ∧
      bits ⟨a.length + b.length, a.buf.take (a.length / 8) ++ rbuf⟩ = a.bits ++ b.bits := by
    intro rbuf hl hbit
    have htl : (a.buf.take (a.length / 8)).length = a.length / 8 := by simp; omega
    refine ⟨by simp only [WF, List.length_append, htl]; exact hl, ?_⟩
    apply bits_ext (by simp)
    intro i hi
    simp only [List.length_append, bits_length] at hi
    by_cases hlt : i < 8 * (a.length / 8)
    · rw [bit_append_lt (by rw [htl]; exact hlt), bit_take hlt, List.getElem_append_left (by simp; omega), bits_getElem]
    · rw [bit_append_ge (by rw [htl]; omega), htl, hbit _ (by omega)]
      split
      · rw [List.getElem_append_left (by simp; omega), bits_getElem]
        congr 1; omega
      · rw [List.getElem_append_right (by simp; omega), bits_getElem]
        congr 1
        simp only [bits_length]
        omega
  by_cases hoff : a.length % 8 = 0
  · simp only [hoff, ne_eq, not_true, if_false, Except.pure_eq, Except.bind_ok]
    refine ⟨_, rfl, hfin b.buf (by omega) ?_⟩
    intro i hi
    rw [hoff, if_neg (by omega)]
    rfl
  · simp only [hoff, ne_eq, not_false_eq_true, if_true]
    rw [byteAt_eq (by omega)]
    simp only [Except.pure_eq, Except.bind_ok]
    have hbt : (b.buf.take (b.length / 8 + if ¬ b.length % 8 = 0 then 1 else 0)).length
        = b.length / 8 + if ¬ b.length % 8 = 0 then 1 else 0 := by
      simp only [List.length_take]
      split <;> omega
    have hcov : b.length ≤ 8 * (b.length / 8 + if ¬ b.length % 8 = 0 then 1 else 0) := by
      split <;> omega
    have hm : ∀ k, k < 8 → (byteD a.buf (a.length / 8) &&& (0xFF#8 <<< (8 - a.length % 8))).getMsbD k =
        (decide (k < a.length % 8) && (byteD a.buf (a.length / 8)).getMsbD k) := fun k hk =>
      mask_byte _ ⟨_, Nat.mod_lt _ (by omega)⟩ ⟨k, hk⟩
    refine ⟨_, rfl, hfin _ ?_ ?_⟩
    · rw [addLoop_length, hbt]
      omega
    · intro i hi
      rw [addLoop_bit (by omega) (Nat.mod_lt _ (by omega)) _ _ ?_ i (by rw [hbt]; omega)]
      · split
        · rename_i hlt
          rw [hm i (by omega), bit_mk (by omega)]
          simp [hlt]
        · rw [bit_take (by omega)]
      · intro k hk hk8
        rw [hm k hk8]
        have : ¬ k < a.length % 8 := by omega
        simp [this]

theorem not_byte (b : Byte) (k : Fin 8) : (~~~b &&& 0xff#8).getMsbD k.val = !b.getMsbD k.val := by
  decide +revert +kernel

theorem invert_spec {b : Bits} (hb : b.WF) :
    ∃ r, b.invert = .ok r ∧ r.WF ∧ r.bits = b.bits.map (!·) := by
  unfold WF at hb
  unfold invert
  by_cases h0 : b.length = 0
  · rw [if_pos h0]
    have : b.bits = [] := List.eq_nil_of_length_eq_zero (by simp [h0])
    exact ⟨b, rfl, hb, by simp [this]⟩
  · rw [if_neg h0, fromBytes_eq (by simp; omega)]
    refine ⟨_, rfl, by simp [WF, h0]; omega, ?_⟩
    simp only [ne_eq, h0, not_false_eq_true, if_true]
    apply bits_ext (by simp)
    intro i hi
    simp only [List.length_map, bits_length] at hi
    rw [List.getElem_map, bits_getElem]
    have hj : i / 8 < b.buf.length := by omega
    have hb : byteD ((b.buf.take (b.length / 8 + 1)).map fun x => ~~~x &&& 0xff#8) (i / 8)
        = ~~~(byteD b.buf (i / 8)) &&& 0xff#8 := by
      simp only [byteD, List.getElem?_map]
      rw [List.getElem?_take_of_lt (by omega), List.getElem?_eq_getElem hj]
      rfl
    show BitVec.getMsbD _ _ = _
    rw [hb]
    exact not_byte _ ⟨i % 8, Nat.mod_lt _ (by omega)⟩

/-! ### common prefix -/

theorem cpScan_eq {l r : Bytes} {n : Nat} (hl : n ≤ l.length) (hr : n ≤ r.length) : ∀ m i, n - i = m → i ≤ n →
    (∃ j, cpScan l r n i = .ok (some j) ∧ i ≤ j ∧ j < n ∧ byteD l j ≠ byteD r j ∧
      ∀ k, i ≤ k → k < j → byteD l k = byteD r k) ∨
    (cpScan l r n i = .ok none ∧ ∀ k, i ≤ k → k < n → byteD l k = byteD r k) := by
  intro m
  induction m with
  | zero =>
    intro i h1 h2
    right
    rw [cpScan, if_neg (by omega)]
    exact ⟨rfl, fun k _ _ => by omega⟩
  | succ m ih =>
    intro i h1 h2
    rw [cpScan, if_pos (by omega), byteAt_eq (by omega), byteAt_eq (by omega)]
    simp only [Except.bind_ok]
    by_cases he : byteD l i = byteD r i
    · simp only [he, ne_eq, not_true, if_false]
      rcases ih (i + 1) (by omega) (by omega) with ⟨j, hj, h3, h4, h5, h6⟩ | ⟨h3, h4⟩
      · left
        refine ⟨j, hj, by omega, h4, h5, fun k hk1 hk2 => ?_⟩
        by_cases hki : k = i
        · rw [hki, he]
        · exact h6 k (by omega) hk2
      · right
        refine ⟨h3, fun k hk1 hk2 => ?_⟩
        by_cases hki : k = i
        · rw [hki, he]
        · exact h4 k (by omega) hk2
    · left
      simp only [ne_eq, he, not_false_eq_true, if_true]
      exact ⟨i, rfl, by omega, by omega, he, fun k _ _ => by omega⟩

theorem top_byte (b : Byte) : (b &&& 0x80#8 = 0#8) ↔ b.getMsbD 0 = false := by decide +revert +kernel
theorem shl1_byte (b : Byte) (k : Fin 8) : ((b <<< 1) &&& 0xFF#8).getMsbD k.val = b.getMsbD (k.val + 1) := by
  decide +revert +kernel

theorem cpShift_spec : ∀ (m : Nat) (d : Byte) (c len : Nat), len - c = m → c ≤ len →
    c ≤ cpShift d c len ∧ cpShift d c len ≤ len ∧
    (∀ k, k < cpShift d c len - c → d.getMsbD k = false) ∧
    (cpShift d c len < len → d.getMsbD (cpShift d c len - c) = true) := by
  intro m
  induction m with
  | zero =>
    intro d c len h1 h2
    rw [cpShift, if_neg (by omega)]
    exact ⟨by omega, h2, fun k hk => by omega, fun h => by omega⟩
  | succ m ih =>
    intro d c len h1 h2
    rw [cpShift]
    by_cases ht : d &&& 0x80#8 = 0#8
    · rw [if_pos ⟨by omega, ht⟩]
      obtain ⟨i1, i2, i3, i4⟩ := ih ((d <<< 1) &&& 0xFF#8) (c + 1) len (by omega) (by omega)
      have hs : ∀ k, ((d <<< 1) &&& 0xFF#8).getMsbD k = d.getMsbD (k + 1) := by
        intro k
        by_cases hk : k < 8
        · exact shl1_byte d ⟨k, hk⟩
        · simp [BitVec.getMsbD, show ¬ k < 8 from hk, show ¬ k + 1 < 8 by omega]
      refine ⟨by omega, i2, fun k hk => ?_, fun h => ?_⟩
      · cases k with
        | zero => exact (top_byte d).mp ht
        | succ k => rw [← hs]; exact i3 k (by omega)
      · have := i4 h
        rw [hs] at this
        rw [← this]
        congr 1; omega
    · rw [if_neg (by intro h; exact ht h.2)]
      refine ⟨by omega, h2, fun k hk => by omega, fun _ => ?_⟩
      rw [Nat.sub_self]
      have : ¬ d.getMsbD 0 = false := fun h => ht ((top_byte d).mpr h)
      simpa using this

theorem commonPrefix_aux {l r : Bits} (hl : l.WF) (hr : r.WF) (hle : l.length ≤ r.length) :
    ∃ (n : Nat) (fwb : Bool) (cpl0 : Nat),
      (∃ found, cpScan l.buf r.buf (l.length / 8) 0 = .ok found ∧
        (match found with
          | some i => (i * 8, false)
          | none => (l.length / 8 * 8, true)) = (cpl0, fwb)) ∧
      cpTail l r cpl0 = .ok n ∧
      n ≤ l.length ∧ (n = l.length → fwb = true) ∧
      (∀ i, i < n → bit l.buf i = bit r.buf i) ∧ (n < l.length → bit l.buf n ≠ bit r.buf n) := by
  unfold WF at hl hr
  rcases cpScan_eq (l := l.buf) (r := r.buf) (n := l.length / 8) (by omega) (by omega) _ 0 rfl (by omega) with
    ⟨j, h1, h2, h3, h4, h5⟩ | ⟨h1, h2⟩
  · have hx : ∀ k, k < 8 → (byteD l.buf j ^^^ byteD r.buf j).getMsbD k = (bit l.buf (8 * j + k) ^^ bit r.buf (8 * j + k)) := by
      intro k hk
      rw [bit_mk hk, bit_mk hk, BitVec.getMsbD_xor]
    obtain ⟨c1, c2, c3, c4⟩ := cpShift_spec _ (byteD l.buf j ^^^ byteD r.buf j) (j * 8) l.length rfl (by omega)
    have hlt : cpShift (byteD l.buf j ^^^ byteD r.buf j) (j * 8) l.length < j * 8 + 8 := by
      apply Classical.byContradiction
      intro hcon
      apply h4
      apply byte_ext
      intro k hk
      have := c3 k (by omega)
      rw [BitVec.getMsbD_xor] at this
      revert this
      cases (byteD l.buf j).getMsbD k <;> cases (byteD r.buf j).getMsbD k <;> simp
    refine ⟨cpShift (byteD l.buf j ^^^ byteD r.buf j) (j * 8) l.length, false, j * 8, ⟨_, h1, rfl⟩, ?_, c2, ?_, ?_, ?_⟩
    · rw [cpTail, if_pos (by omega), show j * 8 / 8 = j by omega, byteAt_eq (by omega), byteAt_eq (by omega)]
      rfl
    · intro h; omega
    · intro i hi
      by_cases hij : i < 8 * j
      · unfold bit
        rw [h5 (i / 8) (by omega) (by omega)]
      · have := c3 (i - j * 8) (by omega)
        rw [hx _ (by omega), show 8 * j + (i - j * 8) = i by omega] at this
        simpa using this
    · intro h
      have := c4 h
      rw [hx _ (by omega), show ∀ n, j * 8 ≤ n → 8 * j + (n - j * 8) = n from fun n hn => by omega] at this
      · simpa using this
      · exact c1
  · by_cases hodd : l.length / 8 * 8 < l.length
    · have hx : ∀ k, k < 8 → (byteD l.buf (l.length / 8) ^^^ byteD r.buf (l.length / 8)).getMsbD k
          = (bit l.buf (8 * (l.length / 8) + k) ^^ bit r.buf (8 * (l.length / 8) + k)) := by
        intro k hk
        rw [bit_mk hk, bit_mk hk, BitVec.getMsbD_xor]
      obtain ⟨c1, c2, c3, c4⟩ := cpShift_spec _ (byteD l.buf (l.length / 8) ^^^ byteD r.buf (l.length / 8))
        (l.length / 8 * 8) l.length rfl (by omega)
      refine ⟨cpShift (byteD l.buf (l.length / 8) ^^^ byteD r.buf (l.length / 8)) (l.length / 8 * 8) l.length,
        true, l.length / 8 * 8, ⟨_, h1, rfl⟩, ?_, c2, ?_, ?_, ?_⟩
      · rw [cpTail, if_pos hodd, show l.length / 8 * 8 / 8 = l.length / 8 by omega, byteAt_eq (by omega), byteAt_eq (by omega)]
        rfl
      · intro _; rfl
      · intro i hi
        by_cases hij : i < 8 * (l.length / 8)
        · unfold bit
          rw [h2 (i / 8) (by omega) (by omega)]
        · have := c3 (i - l.length / 8 * 8) (by omega)
          rw [hx _ (by omega), show 8 * (l.length / 8) + (i - l.length / 8 * 8) = i by omega] at this
          simpa using this
      · intro h
        have := c4 h
        rw [hx _ (by omega), show ∀ n, l.length / 8 * 8 ≤ n → 8 * (l.length / 8) + (n - l.length / 8 * 8) = n from fun n hn => by omega] at this
        · simpa using this
        · exact c1
    · refine ⟨l.length / 8 * 8, true, l.length / 8 * 8, ⟨_, h1, rfl⟩, by rw [cpTail, if_neg hodd], by omega, fun _ => rfl, ?_, ?_⟩
      · intro i hi
        unfold bit
        rw [h2 (i / 8) (by omega) (by omega)]
      · intro h; omega

/-- The result of `common_prefix` for operands already ordered by length. -/
theorem commonPrefix_spec_le {l r : Bits} (hl : l.WF) (hr : r.WF) (hle : l.length ≤ r.length) :
    ∃ p : Bits, (do
      let found ← cpScan l.buf r.buf (l.length / 8) 0
      let (cpl, fwbEq) := match found with
        | some i => (i * 8, false)
        | none => (l.length / 8 * 8, true)
      let cpl ← cpTail l r cpl
      pyAssert (cpl ≤ l.length)
      if cpl = l.length then do
        pyAssert fwbEq
        return l
      else fromBytes l.buf (some cpl)) = (.ok p : Py Bits) ∧ p.WF ∧
      (∃ n, n ≤ l.length ∧ p.bits = l.bits.take n ∧ p.bits = r.bits.take n ∧
        (n < l.length → l.bits[n]? ≠ r.bits[n]?)) := by
  obtain ⟨n, fwb, c0, ⟨found, hf, hm⟩, hn, hnl, hfwb, hbit, hdiff⟩ := commonPrefix_aux hl hr hle
  rw [hf, Except.bind_ok]
  simp only [hm]
  rw [hn, Except.bind_ok]
  have htake : l.bits.take n = r.bits.take n := by
    apply List.ext_getElem
    · simp; omega
    · intro i h1 h2
      simp only [List.length_take, bits_length] at h1 h2
      rw [List.getElem_take, List.getElem_take, bits_getElem, bits_getElem, hbit i (by omega)]
  have hd : n < l.length → l.bits[n]? ≠ r.bits[n]? := by
    intro h
    rw [bits_getElem? h, bits_getElem? (by omega)]
    simpa using hdiff h
  rw [show pyAssert (decide (n ≤ l.length)) = .ok () by simp [pyAssert, hnl], Except.bind_ok]
  by_cases he : n = l.length
  · rw [if_pos he, hfwb he]
    refine ⟨l, rfl, hl, n, hnl, ?_, ?_, hd⟩
    · rw [List.take_of_length_le (by simp; omega)]
    · rw [← htake, List.take_of_length_le (by simp; omega)]
  · rw [if_neg he, fromBytes_eq (by unfold WF at hl; omega)]
    have hb : bits ⟨n, if n ≠ 0 then l.buf else []⟩ = l.bits.take n := by
      by_cases h0 : n = 0
      · subst h0; simp [bits]
      · simp only [ne_eq, h0, not_false_eq_true, if_true]
        exact bits_take hnl
    refine ⟨_, rfl, ?_, n, hnl, hb, by rw [hb, htake], hd⟩
    unfold WF at *
    simp only
    split <;> simp_all <;> omega

theorem commonPrefix_spec {a b : Bits} (ha : a.WF) (hb : b.WF) :
    ∃ p : Bits, a.commonPrefix b = .ok p ∧ p.WF ∧
      ∃ n, n ≤ a.length ∧ n ≤ b.length ∧ p.bits = a.bits.take n ∧ p.bits = b.bits.take n ∧
        (n < a.length → n < b.length → a.bits[n]? ≠ b.bits[n]?) := by
  unfold commonPrefix
  by_cases h : a.length ≤ b.length
  · simp only [h, if_true]
    obtain ⟨p, h1, h2, n, h3, h4, h5, h6⟩ := commonPrefix_spec_le ha hb h
    exact ⟨p, h1, h2, n, h3, by omega, h4, h5, fun h7 _ => h6 h7⟩
  · simp only [h, if_false]
    obtain ⟨p, h1, h2, n, h3, h4, h5, h6⟩ := commonPrefix_spec_le hb ha (by omega)
    exact ⟨p, h1, h2, n, by omega, h3, h5, h4, fun _ h7 => (h6 h7).symm⟩

end Bits
end Verif
