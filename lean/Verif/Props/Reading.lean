import Verif.Lemmas.ReadingF
import Verif.Model.Classes
/-!
# C145, C146: reading data that somebody else has written
-/
namespace Verif
open Btc Reading

/-! ## C145: what reading costs -/

/-- C145: reading a proof from any bytes, for any class, leaves the objects there are as they are and makes at most one object for each byte; if it succeeds, at
most one for each byte that it has consumed. -/
theorem C145_proofs (T : Table) (c : Nat) (b : Bytes) (s : PState) :
    let x := Prf.ctxDeserialize T c b s
    s.objs <+: x.2.objs ∧ x.2.objs.length ≤ s.objs.length + b.length ∧
      ∀ r rest, x.1 = .ok (r, rest) → r < x.2.objs.length ∧ x.2.objs.length + rest.length ≤ s.objs.length + b.length := by
  intro x
  obtain ⟨h1, h2⟩ := deserF_tri T c (b.length + 1) c b .self (Nat.lt_succ_self _) s
  have e : Prf.deserF T (b.length + 1) c b s = x := rfl
  rw [e] at h1 h2
  refine ⟨h1, ?_, fun r rest hr => ?_⟩
  · cases hx : x.1 with
    | ok a => rw [hx] at h2; have := h2.1; omega
    | error e => rw [hx] at h2; exact h2.1
  · rw [hr] at h2
    obtain ⟨g1, -, o, g3, -⟩ := h2
    exact ⟨(List.getElem?_eq_some_iff.mp g3).1, g1⟩

/-- C145: nor is it deeper than there are bytes: with any greater bound on the depth the result is the same. -/
theorem C145_depth (T : Table) (n c : Nat) (b : Bytes) (s : PState) (h : b.length < n) : Prf.deserF T n c b s = Prf.ctxDeserialize T c b s :=
  deserF_fuel T n (b.length + 1) c b s h (Nat.lt_succ_self _)

/-- C145: the inputs, outputs and scripts of a transaction that has been read take no more than the bytes there were. -/
theorem C145_tx (b : Bytes) (t : CTransaction) (h : deserializeAll CTransaction.deser b = .ok t) :
    10 + (t.vin.map fun i => 41 + i.scriptSig.length).sum + (t.vout.map fun o => 9 + o.scriptPubKey.length).sum ≤ b.length := by
  unfold deserializeAll at h
  cases hp : CTransaction.deser b with
  | error e => rw [hp] at h; cases h
  | ok x =>
    have := (Par.tx (E := fun _ => True) trivial trivial).ok b x.1 x.2 hp
    rw [hp] at h
    simp only at h
    split at h
    · cases h
    · cases h
      exact Nat.le_trans (Nat.le_add_right _ _) this

/-- C145: the transactions of a block that has been read take no more than the bytes there were. -/
theorem C145_block (H : HashFns) (b : Bytes) (k : CBlock) (h : deserializeAll (CBlock.deser H) b = .ok k) :
    81 + (k.vtx.map fun t =>
      10 + (t.vin.map fun i => 41 + i.scriptSig.length).sum + (t.vout.map fun o => 9 + o.scriptPubKey.length).sum).sum ≤ b.length := by
  unfold deserializeAll at h
  cases hp : CBlock.deser H b with
  | error e => rw [hp] at h; cases h
  | ok x =>
    have := (Par.block (E := fun _ => True) H trivial trivial).ok b x.1 x.2 hp
    rw [hp] at h
    simp only at h
    split at h
    · cases h
    · cases h
      exact Nat.le_trans (Nat.le_add_right _ _) this

namespace Rd
abbrev TT : Table := testClasses realHash
abbrev CC : Table := classes realHash intGuMap
/-- A transaction with one input and one output, both with empty scripts. -/
def tx0 : Bytes := hex ("01000000" ++ "01" ++ "0000000000000000000000000000000000000000000000000000000000000000" ++ "00000000" ++ "00" ++ "ffffffff" ++
  "01" ++ "0000000000000000" ++ "00" ++ "00000000")
/-- A block with that transaction. -/
def block0 : Bytes := hex ("01000000" ++ "0000000000000000000000000000000000000000000000000000000000000000" ++
  "0000000000000000000000000000000000000000000000000000000000000000" ++ "00000000" ++ "00000000" ++ "00000000" ++ "01") ++ tx0
end Rd
open Rd

/-- Of these seven bytes six are consumed and three objects made; the seventh byte is left. -/
example : (Prf.ctxDeserialize TT 1 [0, 0, 1, 0, 2, 3, 9] {}).1 = .ok (2, [9]) ∧ (Prf.ctxDeserialize TT 1 [0, 0, 1, 0, 2, 3, 9] {}).2.objs.length = 3 := by
  decide +kernel

/-- An object that has been made before the data turn out to be cut off. -/
example : (Prf.ctxDeserialize TT 1 [0, 0, 1, 0] {}).1 = .error .truncation ∧ (Prf.ctxDeserialize TT 1 [0, 0, 1, 0] {}).2.objs.length = 1 := by decide +kernel

/-- A depth beyond the number of bytes. -/
example : Prf.deserF TT 100 1 [0, 0, 1, 0, 2, 3] {} = Prf.ctxDeserialize TT 1 [0, 0, 1, 0, 2, 3] {} := C145_depth TT 100 1 _ {} (by decide)

/-- The bounds for transactions and blocks are reached. -/
example : (deserializeAll CTransaction.deser tx0).map (fun t => (t.vin.length, t.vout.length)) = .ok (1, 1) ∧ tx0.length = 10 + 41 + 9 := by decide +kernel
example : (deserializeAll (CBlock.deser realHash) block0).map (fun k => k.vtx.length) = .ok 1 ∧ block0.length = 81 + (10 + 41 + 9) := by decide +kernel

/-! ## C146: which exceptions reading ends with -/

/-- C146: `DeserializationError` is the "base class for all errors encountered during deserialization" (serialize.py:62-63). -/
def C146_statement : Prop :=
  ∀ (T : Table) (c : Nat) (b : Bytes) (s : PState) (e : PyErr), (Prf.deserialize T c b s).1 = .error e → e.isDeserialization = true

/-- Two bytes for an `IntGuMap`: `NameError`. -/
theorem C146_refuted : ¬ C146_statement := by
  intro h
  have := h CC Cls.guMap [0, 3] {} .nameError (by decide +kernel)
  cases this

/-- C146, what holds: whatever the bytes, reading an instance of a class ends with one of these exceptions only. -/
theorem C146_raises_partial (T : Table) (c : Nat) (b : Bytes) (s : PState) (e : PyErr) (h : (Prf.deserialize T c b s).1 = .error e) : T.MayRaise c e := by
  obtain ⟨-, h2⟩ := deserF_tri T c (b.length + 1) c b .self (Nat.lt_succ_self _) s
  have e0 : Prf.deserF T (b.length + 1) c b s = Prf.ctxDeserialize T c b s := rfl
  rw [e0] at h2
  have e1 : (Prf.deserialize T c b s) = (match Prf.ctxDeserialize T c b s with | (.ok a, s') => (.ok a.1, s') | (.error e, s') => (.error e, s')) := by
    change HM.bind (Prf.ctxDeserialize T c b) _ s = _
    unfold HM.bind
    cases Prf.ctxDeserialize T c b s with
    | mk r s1 => cases r <;> rfl
  rw [e1] at h
  generalize Prf.ctxDeserialize T c b s = x at h h2
  obtain ⟨r, s1⟩ := x
  cases r with
  | ok a => cases h
  | error e' => cases h; exact h2.2

/-- C146, what holds: the documented exceptions only, if the class and those it leads to have neither variants nor unions, and only values whose serializers are
in serialize.py. -/
theorem C146_plain_partial (T : Table) (c : Nat) (hc : T.Tame c) (b : Bytes) (s : PState) (e : PyErr) (h : (Prf.deserialize T c b s).1 = .error e) :
    e.isDeserialization = true := by
  obtain ⟨h1, h2, h3⟩ := hc
  cases C146_raises_partial T c b s e h with
  | documented h => exact h
  | @value τ _ ht hs =>
    have := h3 τ ht
    cases τ with
    | bool => exact hs.elim
    | uint n => exact hs.elim
    | fixed n => have g := hs.2; simp only at this; omega
    | varBytes m n => have g := hs.2; simp only at this; omega
    | bits => exact this.elim
    | tx => exact this.elim
    | outpoint => exact this.elim
  | variant hd hv => rw [h1 _ hd] at hv; cases hv
  | union hu => exact (h2 _ hu).elim
  | @pruned d us hd hv =>
    obtain ⟨d', u, a1, a2, a3⟩ := hd
    rw [h1 d (.proof a1 a2 a3)] at hv; cases hv
  | prunedUnion hu _ _ => exact (h2 _ hu).elim

/-- C146, what holds of python-bitcoinlib: reading a transaction or a block raises `SerializationError`, `SerializationTruncationError` or
`DeserializationExtraDataError`, nothing else. -/
theorem C146_bitcoin_partial (H : HashFns) (b : Bytes) (e : PyErr)
    (h : deserializeAll CTransaction.deser b = .error e ∨ deserializeAll (CBlock.deser H) b = .error e ∨ deserializeAll CBlockHeader.deser b = .error e) :
    e = .btcSer ∨ e = .btcTrunc ∨ e = .btcExtra := by
  let E : PyErr → Prop := fun e => e = .btcSer ∨ e = .btcTrunc ∨ e = .btcExtra
  have h1 : E .btcSer := .inl rfl
  have h2 : E .btcTrunc := .inr (.inl rfl)
  have h3 : E .btcExtra := .inr (.inr rfl)
  rcases h with h | h | h
  · exact deserializeAll_err (Par.tx h1 h2) h3 h
  · exact deserializeAll_err (Par.block H h1 h2) h3 h
  · exact deserializeAll_err (Par.header h1 h2) h3 h

/-- `BarProof` of the tests of proofmarshal: only documented exceptions, of which there are. -/
theorem Rd.tame_bar : TT.Tame 1 := by
  have hl : ∀ d, TT.Leads 1 d → d = 1 ∨ d = 0 := by
    intro d hd
    induction hd with
    | self => exact .inl rfl
    | proof _ hu hk ih =>
      rcases ih with rfl | rfl <;> (cases List.mem_singleton.mp hu; simp [testClasses] at hk)
      exact .inr hk
    | union _ hu hk _ ih =>
      rcases ih with rfl | rfl <;> (cases List.mem_singleton.mp hu; simp [testClasses] at hk)
  refine ⟨fun d hd => ?_, ?_, ?_⟩
  · rcases hl d hd with rfl | rfl <;> rfl
  · rintro us ⟨d, u, hd, hu, hk⟩
    rcases hl d hd with rfl | rfl <;> (cases List.mem_singleton.mp hu; simp [testClasses] at hk)
  · rintro τ ⟨d, u, hd, hu, hk⟩
    rcases hl d hd with rfl | rfl <;> (cases List.mem_singleton.mp hu; simp [testClasses] at hk; subst hk; trivial)
example : (Prf.deserialize TT 1 [0, 0, 1, 0] {}).1 = .error .truncation := by decide +kernel
example : (Prf.deserialize TT 1 [7] {}).1 = .error .deserialization := by decide +kernel

/-- A class with one attribute of each kind that reading can go wrong with. -/
def Rd.odd : Table
  | 0 => { hashtag := none, attrs := [.prim .bits] }
  | 1 => { hashtag := none, attrs := [.prim .tx] }
  | 2 => { hashtag := none, attrs := [.union [0, 1]] }
  | 3 => { hashtag := none, attrs := [.proof 4] }
  | 4 => { hashtag := none, attrs := [], variants := some [5] }
  | 5 => { hashtag := none, attrs := [], variants := some [5], bases := [4] }
  | _ => { hashtag := none, attrs := [] }

/-- The exceptions that `MayRaise` lists do occur: bits that are none, numbers too high, strings too long for Python, transactions cut off, pruned instances of
classes with variants. -/
example : (Prf.deserialize odd 2 [0, 2] {}).1 = .error .nameError := by decide +kernel
example : (Prf.deserialize odd 4 [0, 1] {}).1 = .error .nameError := by decide +kernel
example : (Prf.deserialize odd 0 [0, 0] {}).1 = .error .indexError := by decide +kernel
example : (Prf.deserialize odd 0 [0, 1, 2] {}).1 = .error .assertion := by decide +kernel
example : (Prf.deserialize odd 0 [0, 0xf8, 0xff, 0xff, 0xff, 0xff, 0xff, 0xff, 0xff, 0xff, 0x7f] {}).1 = .error .overflow := by decide +kernel
example : (Prf.deserialize odd 1 [0, 4, 1, 0, 0, 0] {}).1 = .error .btcTrunc := by decide +kernel
example : (Prf.deserialize odd 1 ([0, 61] ++ tx0 ++ [0]) {}).1 = .error .btcExtra := by decide +kernel
example : (Prf.deserialize odd 1 ([0, 46] ++ tx0.take 41 ++ [0xfe, 0xff, 0xff, 0xff, 0xff]) {}).1 = .error .btcSer := by decide +kernel
example : (Prf.deserialize odd 3 ([0, 0xff] ++ List.replicate 32 0) {}).1 = .error .serType := by decide +kernel

end Verif
