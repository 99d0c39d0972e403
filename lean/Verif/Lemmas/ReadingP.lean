import Verif.Spec.Reading
import Verif.Lemmas.Prim
import Verif.Lemmas.BtcDeser
import Verif.Model.Block
/-! Exceptions of parsers, and how much they consume -/
namespace Verif
open Btc

/-- What a parser can raise, and how many bytes it consumes at least. -/
structure Par {α} (E : PyErr → Prop) (p : P α) (eats : α → Nat) : Prop where
  err : ∀ s e, p s = .error e → E e
  ok : ∀ s a rest, p s = .ok (a, rest) → eats a + rest.length ≤ s.length

namespace Par
variable {E : PyErr → Prop} {α β : Type}

theorem bind {p : P α} {f : α → P β} {g : α → Nat} {h : β → Nat} (hp : Par E p g) (hf : ∀ s a rest, p s = .ok (a, rest) → Par E (f a) (fun b => h b - g a)) :
    Par E (p >>= f) h := by
  constructor
  · intro s e he
    rw [P.bind_apply] at he
    cases hs : p s with
    | error e' => rw [hs] at he; cases he; exact hp.err s e hs
    | ok x =>
      obtain ⟨a, rest⟩ := x
      rw [hs] at he
      exact (hf s a rest hs).err rest e he
  · intro s b rest hb
    obtain ⟨a, s1, h1, h2⟩ := P.bind_inv hb
    have := hp.ok s a s1 h1
    have := (hf s a s1 h1).ok s1 b rest h2
    omega

theorem weaken {p : P α} {g g' : α → Nat} (h : Par E p g) (hg : ∀ a, g' a ≤ g a) : Par E p g' :=
  ⟨h.err, fun s a rest q => by have := h.ok s a rest q; have := hg a; omega⟩

theorem pure {a : α} {g : α → Nat} (h : g a = 0) : Par E (Pure.pure a : P α) g := by
  constructor
  · intro s e he; cases he
  · intro s b rest hb
    obtain ⟨rfl, rfl⟩ := P.pure_inv hb
    omega

theorem lift {x : Py α} {g : α → Nat} (h : ∀ e, x = .error e → E e) (hg : ∀ a, x = .ok a → g a = 0) : Par E (P.lift x) g := by
  constructor
  · intro s e he
    cases x with
    | error e' => cases he; exact h _ rfl
    | ok a => cases he
  · intro s a rest ha
    obtain ⟨hx, rfl⟩ := P.lift_inv ha
    rw [hg a hx]; omega

theorem fail {e : PyErr} {g : α → Nat} (h : E e) : Par E (P.fail e : P α) g :=
  ⟨fun s e' he => by cases he; exact h, fun s a rest ha => by cases ha⟩

theorem fdRead {l : Nat} (h : E .truncation) (h' : 2 ^ 63 ≤ l → E .overflow) : Par E (fdRead l) (fun _ => l) := by
  constructor
  · intro s e he
    rw [(fdRead_error he).1]
    split
    · exact h
    · exact h' (by omega)
  · intro s a rest ha
    obtain ⟨rfl, h2⟩ := fdRead_ok ha
    rw [List.length_append]; omega

theorem varuint (h : E .truncation) : Par E readVaruint (fun _ => 1) := by
  constructor
  · intro s e he
    rw [readVaruint_eq] at he
    cases hl : leb s with
    | none => rw [hl] at he; cases he; exact h
    | some x => rw [hl] at he; cases he
  · intro s a rest ha
    rw [readVaruint_eq] at ha
    cases hl : leb s with
    | none => rw [hl] at ha; cases ha
    | some x =>
      obtain ⟨n, r⟩ := x
      rw [hl] at ha
      simp only [Except.ok.injEq, Prod.mk.injEq] at ha
      obtain ⟨rfl, rfl⟩ := ha
      obtain ⟨enc, h1, h2, -⟩ := leb_some hl
      have : 0 < (writeVaruint n).length := List.length_pos_iff.mpr (writeVaruint_ne_nil n)
      rw [h1, List.length_append]; omega

theorem bool (h : ∀ e, e.isDeserialization = true → E e) : Par E readBool (fun _ => 1) := by
  refine (fdRead (l := 1) (h _ rfl) (fun h => absurd h (by decide))).bind fun s a rest ha => ?_
  have := (fdRead_ok ha).2
  match a, this with
  | [b], _ =>
    simp only
    split
    · exact .pure rfl
    · split
      · exact .pure rfl
      · exact .fail (h _ rfl)

theorem serRead {n : Nat} (h1 : E .btcSer) (h2 : E .btcTrunc) : Par E (serRead n) (fun _ => n) := by
  constructor
  · intro s e he
    unfold Btc.serRead at he
    simp only at he
    split at he
    · cases he; exact h1
    · split at he
      · cases he; exact h2
      · cases he
  · intro s a rest ha
    obtain ⟨rfl, h2⟩ := serRead_ok ha
    rw [List.length_append]; omega

theorem varInt (h1 : E .btcSer) (h2 : E .btcTrunc) : Par E deserVarInt (fun _ => 1) := by
  refine (serRead (n := 1) h1 h2).bind fun s a rest ha => ?_
  have := (serRead_ok ha).2
  match a, this with
  | [b], _ =>
    simp only
    repeat' split
    · exact .pure rfl
    all_goals exact (serRead h1 h2).bind fun _ _ _ _ => .pure (by simp)

theorem btcBytes (h1 : E .btcSer) (h2 : E .btcTrunc) : Par E deserBytes (fun b => 1 + b.length) := by
  refine (varInt h1 h2).bind fun s a rest _ => ?_
  refine ⟨(serRead h1 h2).err, fun s b rest hb => ?_⟩
  obtain ⟨rfl, h⟩ := serRead_ok hb
  rw [List.length_append]
  omega

/-- Total of a cost over a list. -/
def total (g : α → Nat) (xs : List α) : Nat := (xs.map g).sum

theorem each {de : P α} {g : α → Nat} (h : Par E de g) : ∀ n, Par E (deserEach de n) (total g)
  | 0 => .pure rfl
  | n + 1 => h.bind fun _ _ _ _ => (each h n).bind fun _ _ _ _ => .pure (by simp [total])

theorem vector {de : P α} {g : α → Nat} (h1 : E .btcSer) (h2 : E .btcTrunc) (h : Par E de g) : Par E (deserVector de) (fun xs => 1 + total g xs) :=
  (varInt h1 h2).bind fun _ _ _ _ => (each h _).weaken (fun _ => by omega)

theorem outpoint (h1 : E .btcSer) (h2 : E .btcTrunc) : Par E COutPoint.deser (fun _ => 36) := by
  refine (serRead (n := 32) h1 h2).bind fun s a rest ha => ?_
  refine (serRead (n := 4) h1 h2).bind fun s b rest hb => ?_
  have ha := (serRead_ok ha).2
  have hb := (serRead_ok hb).2
  have := leNat_lt b
  rw [hb] at this
  refine .lift (fun e he => ?_) (fun _ _ => by omega)
  unfold COutPoint.new unpackU at he
  rw [if_neg (by omega), if_neg (by omega)] at he
  cases he

theorem txin (h1 : E .btcSer) (h2 : E .btcTrunc) : Par E CTxIn.deser (fun i => 41 + i.scriptSig.length) := by
  refine (outpoint h1 h2).bind fun s a rest ha => ?_
  refine (btcBytes h1 h2).bind fun s b rest hb => ?_
  refine (serRead (n := 4) h1 h2).bind fun s c rest hc => ?_
  have hc := (serRead_ok hc).2
  have := leNat_lt c
  rw [hc] at this
  unfold CTxIn.new unpackU
  rw [if_neg (by omega)]
  refine .lift (fun e he => by cases he) (fun i hi => ?_)
  cases hi
  simp only
  omega

theorem txout (h1 : E .btcSer) (h2 : E .btcTrunc) : Par E CTxOut.deser (fun o => 9 + o.scriptPubKey.length) := by
  refine (serRead (n := 8) h1 h2).bind fun s a rest ha => ?_
  refine (btcBytes h1 h2).bind fun s b rest hb => ?_
  exact .pure (by simp only; omega)

/-- The bytes of a transaction, at least. -/
def txCost (t : CTransaction) : Nat := 10 + total (fun i : CTxIn => 41 + i.scriptSig.length) t.vin + total (fun o : CTxOut => 9 + o.scriptPubKey.length) t.vout

theorem tx (h1 : E .btcSer) (h2 : E .btcTrunc) : Par E CTransaction.deser txCost := by
  refine (serRead (n := 4) h1 h2).bind fun s a rest ha => ?_
  refine (vector h1 h2 (txin h1 h2)).bind fun s vin rest _ => ?_
  refine (vector h1 h2 (txout h1 h2)).bind fun s vout rest _ => ?_
  refine (serRead (n := 4) h1 h2).bind fun s d rest hd => ?_
  have hd := (serRead_ok hd).2
  have := leNat_lt d
  rw [hd] at this
  unfold CTransaction.new unpackU
  rw [if_neg (by omega)]
  refine .lift (fun e he => by cases he) (fun t ht => ?_)
  cases ht
  simp only [txCost]
  omega

end Par

theorem deserializeAll_err {α} {E : PyErr → Prop} {p : P α} {g : α → Nat} (h : Par E p g) (hx : E .btcExtra) {b : Bytes} {e : PyErr} (he : deserializeAll p b = .error e) : E e := by
  unfold deserializeAll at he
  cases hp : p b with
  | error e' => rw [hp] at he; cases he; exact h.err b e hp
  | ok x =>
    obtain ⟨a, rest⟩ := x
    rw [hp] at he
    simp only at he
    split at he
    · cases he; exact hx
    · cases he

/-- Reading a value: the exceptions, and that it consumes something or nothing. -/
theorem Par.prim {E : PyErr → Prop} (τ : PrimTy) (h0 : ∀ e, e.isDeserialization = true → E e) (h1 : ∀ e, τ.Strange e → E e) : Par E τ.deser (fun _ => 0) := by
  cases τ with
  | bool => exact (Par.bool h0).bind fun _ _ _ _ => .pure rfl
  | fixed n => exact (Par.fdRead (h0 _ rfl) (fun h => h1 _ ⟨rfl, h⟩)).bind fun _ _ _ _ => .pure (by simp)
  | uint mx =>
    refine (Par.varuint (h0 _ rfl)).bind fun _ _ _ _ => ?_
    split
    · exact .fail (h0 _ rfl)
    · exact .pure rfl
  | varBytes mn mx =>
    refine (Par.varuint (h0 _ rfl)).bind fun _ l _ _ => ?_
    split
    · exact .fail (h0 _ rfl)
    · rename_i hl
      exact (Par.fdRead (h0 _ rfl) (fun h => h1 _ ⟨rfl, by omega⟩)).bind fun _ _ _ _ => .pure (by simp)
  | bits =>
    have i0 : ∀ {b : Bytes} {i : Nat} {e}, Bits.byteAt b i = .error e → E e := fun {b i e} h => by
      unfold Bits.byteAt at h
      split at h
      · cases h
      · cases h; exact h1 _ (.inr (.inl rfl))
    have i1 : ∀ {b : Bits} {e}, b.tailBits = .error e → E e := fun {b e} h => by
      unfold Bits.tailBits at h
      simp only at h
      split at h
      · cases hb : Bits.byteAt b.buf (b.length / 8) with
        | error e' => rw [hb] at h; cases h; exact i0 hb
        | ok x => rw [hb] at h; cases h
      · cases h
    have i2 : ∀ (buf : Bytes) (l : List Nat) {e}, l.mapM (Bits.bitAt buf) = .error e → E e := fun buf l => by
      induction l with
      | nil => intro e h; cases h
      | cons i l ih =>
        intro e h
        rw [List.mapM_cons] at h
        cases hb : Bits.bitAt buf i with
        | error e' =>
          rw [hb] at h
          cases h
          unfold Bits.bitAt at hb
          cases hc : Bits.byteAt buf (i / 8) with
          | error e' => rw [hc] at hb; cases hb; exact i0 hc
          | ok x => rw [hc] at hb; cases hb
        | ok x =>
          rw [hb] at h
          cases hc : List.mapM (Bits.bitAt buf) l with
          | error e' => 
            have := ih hc
            change (List.mapM (Bits.bitAt buf) l >>= _) = _ at h
            rw [hc] at h
            cases h
            exact this
          | ok y =>
            change (List.mapM (Bits.bitAt buf) l >>= _) = _ at h
            rw [hc] at h
            cases h
    have hd : Par E Bits.deserialize (fun _ => 0) := by
      refine (Par.varuint (h0 _ rfl)).bind fun _ l _ _ => ?_
      refine (Par.fdRead (h0 _ rfl) (fun _ => h1 _ (.inr (.inr rfl)))).bind fun _ buf _ hb => ?_
      have hb := (fdRead_ok hb).2
      refine Par.bind (g := fun _ => 0) (.lift (fun e he => ?_) (fun _ _ => rfl)) fun _ r _ _ => ?_
      · unfold Bits.fromBytes at he
        simp only [Option.getD_some] at he
        rw [if_neg (by omega), if_neg (by split at hb <;> omega)] at he
        cases he
      refine Par.bind (g := fun _ => 0) (.lift (fun e he => i1 he) (fun _ _ => rfl)) fun _ tail _ _ => ?_
      refine Par.bind (g := fun _ => 0) (.lift (fun e he => ?_) (fun _ _ => rfl)) fun _ last _ _ => ?_
      · unfold pyGetItem at he
        simp only at he
        repeat' split at he
        all_goals first | (cases he; done) | (cases he; exact h1 _ (.inr (.inl rfl)))
      refine Par.bind (g := fun _ => 0) (.lift (fun e he => ?_) (fun _ _ => rfl)) fun _ _ _ _ => .pure (by simp)
      unfold pyAssert at he
      split at he
      · cases he
      · cases he; exact h1 _ (.inl rfl)
    exact hd.bind fun _ b _ _ => Par.bind (g := fun _ => 0) (.lift (fun e he => i2 _ _ he) (fun _ _ => rfl)) fun _ _ _ _ => .pure rfl
  | tx =>
    refine (Par.varuint (h0 _ rfl)).bind fun _ l _ _ => ?_
    refine (Par.fdRead (h0 _ rfl) (fun _ => h1 _ (.inr (.inr (.inr rfl))))).bind fun _ b _ _ => ?_
    refine Par.bind (g := fun _ => 0) (.lift (fun e he => ?_) (fun _ _ => rfl)) fun _ _ _ _ => .pure (by simp)
    exact deserializeAll_err (Par.tx (h1 _ (.inl rfl)) (h1 _ (.inr (.inl rfl)))) (h1 _ (.inr (.inr (.inl rfl)))) he
  | outpoint =>
    refine (Par.varuint (h0 _ rfl)).bind fun _ l _ _ => ?_
    refine (Par.fdRead (h0 _ rfl) (fun _ => h1 _ (.inr (.inr (.inr rfl))))).bind fun _ b _ _ => ?_
    refine Par.bind (g := fun _ => 0) (.lift (fun e he => ?_) (fun _ _ => rfl)) fun _ _ _ _ => .pure (by simp)
    exact deserializeAll_err (Par.outpoint (h1 _ (.inl rfl)) (h1 _ (.inr (.inl rfl)))) (h1 _ (.inr (.inr (.inl rfl)))) he

end Verif
