import Verif.Lemmas.ScriptMore
import Verif.Spec.Seal
import Verif.Spec.Hash
import Verif.Model.Sha256
/-!
# Properties of scripts (C67–C74)
-/
namespace Verif.Btc
open Verif

/-! ## C67: scripts are read as the operations they consist of -/

/-- `raw_iter` yields the operations of a script, each with its opcode, data and position, in order. -/
theorem C67_raw_iter {ts : List Tok} (h : WFToks ts) : rawIter (scriptOf ts) = (located 0 ts, none) := rawIter_scriptOf h

/-- On arbitrary bytes it yields the operations up to the first place where no operation stands, and then raises
`CScriptInvalidError`, if there is such a place. -/
theorem C67_any_bytes (s : Bytes) : ∃ ts bad, WFToks ts ∧ s = scriptOf ts ++ bad ∧ (∀ (t : Tok) (r : Bytes), t.Ok → bad ≠ t.bytes ++ r) ∧
    rawIter s = (located 0 ts, if bad = [] then none else some .scriptInvalid) := rawIter_any s

/-- The operations of a script are determined by its bytes. -/
theorem C67_unambiguous {ts us : List Tok} {bad bad' : Bytes} (h : WFToks ts) (h' : WFToks us) (hb : ∀ (t : Tok) (r : Bytes), t.Ok → bad ≠ t.bytes ++ r)
    (hb' : ∀ (t : Tok) (r : Bytes), t.Ok → bad' ≠ t.bytes ++ r) (e : scriptOf ts ++ bad = scriptOf us ++ bad') : ts = us ∧ bad = bad' := by
  induction ts generalizing us with
  | nil =>
    cases us with
    | nil => exact ⟨rfl, by simpa [scriptOf] using e⟩
    | cons u us =>
      exact absurd (by simpa [scriptOf] using e) (hb u (scriptOf us ++ bad') (h' u (by simp)))
  | cons t ts ih =>
    cases us with
    | nil => exact absurd (by simpa [scriptOf] using e.symm) (hb' t (scriptOf ts ++ bad) (h t (by simp)))
    | cons u us =>
      have e' : t.bytes ++ (scriptOf ts ++ bad) = u.bytes ++ (scriptOf us ++ bad') := by simpa [scriptOf] using e
      obtain ⟨rfl, e2⟩ := tok_append_inj (h t (by simp)) (h' u (by simp)) e'
      obtain ⟨rfl, rfl⟩ := ih (fun x hx => h x (by simp [hx])) (fun x hx => h' x (by simp [hx])) e2
      exact ⟨rfl, rfl⟩

/-- `is_valid` never raises, and tells whether the bytes are a sequence of operations. -/
theorem C67_is_valid (s : Bytes) : (∃ b, isValidScript s = .ok b) ∧ (isValidScript s = .ok true ↔ ∃ ts, WFToks ts ∧ s = scriptOf ts) := by
  obtain ⟨ts, bad, h1, h2, h3, h4⟩ := scriptItems_any s
  rw [valid_iff h2 h1 h3, isValidScript, h4]
  by_cases hb : bad = []
  · simp only [hb, if_true]; exact ⟨⟨_, rfl⟩, by simp⟩
  · simp only [hb, if_false]; exact ⟨⟨_, rfl⟩, by simp⟩

example : WFToks [.op 0x76#8, .push .two [1#8, 2#8], .push .direct []] ∧
    rawIter [0x76#8, 0x4d#8, 0x02#8, 0x00#8, 0x01#8, 0x02#8, 0x00#8] = ([⟨0x76#8, none, 0⟩, ⟨0x4d#8, some [1#8, 2#8], 1⟩, ⟨0x00#8, some [], 6⟩], none) := by
  refine ⟨by decide, C67_raw_iter (ts := [.op 0x76#8, .push .two [1#8, 2#8], .push .direct []]) (by decide)⟩

example : rawIter [0x51#8, 0x02#8, 0xff#8] = ([⟨0x51#8, none, 0⟩], some .scriptInvalid) := by decide

/-! ## C68: building a script and iterating over it -/

/-- `CScript(items)` succeeds, and iterating over it gives the items again: opcodes above 0x4e as they are, except that 0x51–0x60
come back as the numbers they stand for; the number 0 as the empty byte string, −1 as its opcode, 1–16 as they are, other numbers
as their shortest byte strings; byte strings as they are.  Here `num` gives those byte strings. -/
theorem C68_build_iterate {num : Int → Bytes} {is : List Item} (h : ∀ i ∈ is, i.Fits num) :
    ∃ s, mkScript is = .ok s ∧ scriptItems s = .ok (is.map (Item.seen num)) := by
  obtain ⟨h1, h2, h3⟩ := mkScript_ok h
  exact ⟨_, h1, by rw [scriptItems_scriptOf h2, h3]⟩

/-- Iterating over a script and building a script from the items gives the script again, exactly if every push in it is written
in the shortest way. -/
theorem C68_iterate_build {s : Bytes} {is : List Item} (h : scriptItems s = .ok is) :
    ∃ ts, WFToks ts ∧ s = scriptOf ts ∧ is = ts.map Tok.item ∧ (mkScript is = .ok s ↔ ∀ e d, Tok.push e d ∈ ts → e = shortest d) := by
  obtain ⟨ts, bad, h1, h2, h3, h4⟩ := scriptItems_any s
  rw [h] at h4
  by_cases hb : bad = []
  · rw [if_pos hb] at h4
    simp only [Except.ok.injEq] at h4
    subst hb h4
    rw [List.append_nil] at h2
    subst h2
    refine ⟨ts, h1, rfl, rfl, ?_⟩
    obtain ⟨g1, g2⟩ := mkScript_items h1
    rw [g1, ← canon_eq]
    constructor
    · intro e
      simp only [Except.ok.injEq] at e
      exact scriptOf_inj g2 h1 e
    · intro e; rw [e]
  · rw [if_neg hb] at h4; cases h4

/-- Adding an item to a script adds one operation. -/
theorem C68_add {num : Int → Bytes} {ts : List Tok} (h : WFToks ts) {i : Item} (hi : i.Fits num) :
    ∃ s, scriptAdd (scriptOf ts) i = .ok s ∧ scriptItems s = .ok (ts.map Tok.item ++ [i.seen num]) := by
  obtain ⟨h1, h2, h3⟩ := coerceItem_ok hi
  refine ⟨scriptOf ts ++ (i.tok num).bytes, by simp only [scriptAdd, h1, Except.bind_ok]; rfl, ?_⟩
  have hw : WFToks (ts ++ [i.tok num]) := by
    intro t ht
    rcases List.mem_append.mp ht with ht | ht
    · exact h t ht
    · simp at ht; rw [ht]; exact h2
  have := scriptItems_scriptOf hw
  simpa [scriptOf, h3] using this

/-! ## C69: is_push_only -/

/-- `is_push_only` is true exactly of the sequences of operations that are pushes or have an opcode up to 0x60. -/
theorem C69_is_push_only (s : Bytes) : isPushOnly s = true ↔ ∃ ts, WFToks ts ∧ s = scriptOf ts ∧ ∀ t ∈ ts, t.isPush = true := by
  unfold isPushOnly
  simp only
  rw [test_iff (f := fun o => decide (0x60 < o.opcode.toNat)) (g := fun t => !t.isPush) (fun t i h => isPush_eq t i h)]
  simp

example : isPushOnly [0x4f#8, 0x01#8, 0xac#8] = true ∧ isPushOnly [0xac#8] = false ∧ isPushOnly [0x01#8] = false := by decide

/-! ## C70: has_canonical_pushes -/

/-- `has_canonical_pushes` is true exactly of the scripts that contain no push for which there is a shorter operation. -/
def C70_statement : Prop := ∀ s : Bytes, hasCanonicalPushes s = true ↔ ∃ ts, WFToks ts ∧ s = scriptOf ts ∧ ∀ e d, Tok.push e d ∈ ts → (Tok.push e d).Minimal

/-- False: there is no shorter way to push the byte 0 than the one it rejects. -/
theorem C70_refuted : ¬ C70_statement := by
  intro h
  have h1 : hasCanonicalPushes [0x01#8, 0x00#8] = false := by decide
  have h2 := (h [0x01#8, 0x00#8]).mpr ⟨[.push .direct [0x00#8]], by decide, by decide, ?_⟩
  · rw [h1] at h2; cases h2
  · intro e d hm
    simp only [List.mem_singleton, Tok.push.injEq] at hm
    obtain ⟨rfl, rfl⟩ := hm
    intro u hu hp
    rcases u with o | ⟨e, d⟩
    · have : ∀ o : Byte, ¬ (Tok.op o).pushes = some [0x00#8] := by decide
      exact absurd hp (this o)
    · simp only [Tok.pushes, Option.some.injEq] at hp
      subst hp
      cases e <;> decide

/-- It also accepts a push of the byte 0x81, which is what the shorter 0x4f pushes. -/
theorem C70_minus_one_accepted : hasCanonicalPushes [0x01#8, 0x81#8] = true ∧ ¬ (Tok.push .direct [0x81#8]).Minimal := by
  refine ⟨by decide, fun h => ?_⟩
  exact absurd (h (.op 0x4f#8) (by decide) (by decide)) (by decide)

/-- What it does: it is true exactly of the sequences of operations in which every push has the shortest length encoding and
pushes nothing that consists of one byte up to 16. -/
theorem C70_canonical_partial (s : Bytes) : hasCanonicalPushes s = true ↔
    ∃ ts, WFToks ts ∧ s = scriptOf ts ∧ ∀ e d, Tok.push e d ∈ ts → e = shortest d ∧ ∀ b : Byte, d = [b] → 16 < b.toNat := by
  unfold hasCanonicalPushes
  simp only
  rw [test_iff (f := badPush) (g := Tok.flagged) (fun t i h => badPush_eq t i h)]
  have key : ∀ t : Tok, t.flagged = false ↔ ∀ e d, Tok.push e d = t → e = shortest d ∧ ∀ b : Byte, d = [b] → 16 < b.toNat := by
    rintro (o | ⟨e, d⟩)
    · simp [Tok.flagged]
    · simp only [Tok.flagged, Bool.or_eq_false_iff, decide_eq_false_iff_not, Tok.push.injEq]
      constructor
      · rintro ⟨h1, h2⟩ e' d' ⟨rfl, rfl⟩
        refine ⟨Decidable.not_not.mp h1, ?_⟩
        rintro b rfl
        simpa using h2
      · intro h
        obtain ⟨h1, h2⟩ := h e d ⟨rfl, rfl⟩
        refine ⟨fun hn => hn h1, ?_⟩
        rintro ⟨hl, hb⟩
        obtain ⟨b, rfl⟩ := List.length_eq_one_iff.mp hl
        have := h2 b rfl
        simp at hb
        omega
  constructor
  · rintro ⟨ts, h1, h2, h3⟩
    exact ⟨ts, h1, h2, fun e d hm => (key _).mp (h3 _ hm) e d rfl⟩
  · rintro ⟨ts, h1, h2, h3⟩
    refine ⟨ts, h1, h2, fun t ht => (key t).mpr ?_⟩
    rintro e d rfl
    exact h3 e d ht

/-! ## C71: numbers in scripts -/

/-- `bn2vch` gives the shortest byte string for a number; it fails only for numbers that need 2^32 bytes. -/
theorem C71_bn2vch (n : Int) : ((∃ k, k < 2 ^ 32 ∧ n.natAbs < 2 ^ (8 * k - 1)) → ∃ b, bn2vch n = .ok b ∧ ShortestNum n b) ∧
    (¬ (∃ k, k < 2 ^ 32 ∧ n.natAbs < 2 ^ (8 * k - 1)) → bn2vch n = .error .structError) := by
  by_cases h0 : n = 0
  · subst h0
    refine ⟨fun _ => ⟨[], bn2vch_zero, numOf_nil, fun b' _ hl => by simpa using hl⟩, fun h => absurd ⟨0, by omega, by decide⟩ h⟩
  · constructor
    · rintro ⟨k, hk, hn⟩
      rw [size_iff h0] at hn
      exact ⟨_, bn2vch_ok h0 (by omega), (shortestNum_iff h0).mpr rfl⟩
    · intro h
      refine bn2vch_big h0 fun hk => h ⟨bitLength n / 8 + 1, hk, ?_⟩
      rw [size_iff h0]
      exact Nat.le_refl _

theorem shortest_of_bn2vch {n : Int} {b : Bytes} (h : bn2vch n = .ok b) : ShortestNum n b := by
  by_cases hs : ∃ k, k < 2 ^ 32 ∧ n.natAbs < 2 ^ (8 * k - 1)
  · obtain ⟨b', h1, h2⟩ := (C71_bn2vch n).1 hs
    rw [h1] at h
    cases h
    exact h2
  · rw [(C71_bn2vch n).2 hs] at h
    cases h

/-- `vch2bn` gives the number a byte string stands for. -/
theorem C71_vch2bn {b : Bytes} (h : b.length < 2 ^ 32) : vch2bn b = .ok (some (numOf b)) := vch2bn_eq h

/-- So a number survives. -/
theorem C71_roundtrip {n : Int} {b : Bytes} (h : bn2vch n = .ok b) : vch2bn b = .ok (some n) := by
  have h2 := shortest_of_bn2vch h
  have hl : b.length < 2 ^ 32 := by
    by_cases h0 : n = 0
    · subst h0
      have := h2.2 [] numOf_nil (by simp)
      rw [← this]; decide
    · by_cases hk : bitLength n / 8 + 1 < 2 ^ 32
      · rw [(shortestNum_iff h0).mp h2, signed_length]; exact hk
      · rw [bn2vch_big h0 hk] at h; cases h
  rw [C71_vch2bn hl, h2.1]

example : bn2vch (-255) = .ok [0xff#8, 0x80#8] ∧ bn2vch 127 = .ok [0x7f#8] ∧ bn2vch 128 = .ok [0x80#8, 0x00#8] ∧ bn2vch (-1) = .ok [0x81#8] := by decide

example : ∀ i ∈ [Item.op 0xac#8, .int (-255), .int 16, .int 0, .int (-1), .data [1#8]], i.Fits fun n => if n = -255 then [0xff#8, 0x80#8] else if n = 16 then [0x10#8] else if n = 0 then [] else [0x81#8] := by
  intro i hi
  simp only [List.mem_cons, List.not_mem_nil, or_false] at hi
  rcases hi with rfl | rfl | rfl | rfl | rfl | rfl
  · show 0x4e < 0xac; omega
  · exact ⟨by decide, shortest_of_bn2vch (by decide)⟩
  · exact ⟨by decide, shortest_of_bn2vch (by decide)⟩
  · exact ⟨by decide, shortest_of_bn2vch (by decide)⟩
  · exact ⟨by decide, shortest_of_bn2vch (by decide)⟩
  · show 1 < 2 ^ 32; omega

/-! ## C72: FindAndDelete -/

/-- `FindAndDelete` does what the function of this name in the Satoshi client does. -/
def C72_statement : Prop := ∀ script sig r : Bytes, SatoshiDelete sig script r ↔ findAndDelete script sig = .ok r

/-- False: what is deleted may consist of several operations, of which only the first is dropped. -/
theorem C72_refuted : ¬ C72_statement := by
  intro h
  have h1 : findAndDelete [0x51#8, 0x52#8] [0x51#8, 0x52#8] = .ok [0x52#8] := by decide
  have h2 : SatoshiDelete [0x51#8, 0x52#8] [0x51#8, 0x52#8] [] := by
    refine Deleted.erase (s := []) (Deleted.stop (by decide) ?_)
    intro t r _ h
    have := t.bytes_length_pos
    have h0 := congrArg List.length h
    simp at h0
    omega
  rw [h, h1] at h2
  cases h2

/-- Deleting nothing deletes everything. -/
theorem C72_empty_deletes_all : findAndDelete [0x51#8] [] = .ok [] ∧ SatoshiDelete [] [0x51#8] [0x51#8] := ⟨by decide, rfl⟩

/-- What is true: deleting a single operation, the only use that the library makes of it, from a valid script agrees with the
Satoshi client, and is the removal of all occurrences of this operation. -/
theorem C72_one_operation_partial {u : Tok} (hu : u.Ok) {ts : List Tok} (h : WFToks ts) (r : Bytes) :
    findAndDelete (scriptOf ts) u.bytes = .ok (scriptOf (ts.filter fun t => t ≠ u)) ∧
    (SatoshiDelete u.bytes (scriptOf ts) r ↔ findAndDelete (scriptOf ts) u.bytes = .ok r) := by
  have hne : u.bytes ≠ [] := by
    intro hn
    have := u.bytes_length_pos
    simp [hn] at this
  have h1 : findAndDelete (scriptOf ts) u.bytes = .ok (scriptOf (ts.filter fun t => t ≠ u)) := by
    obtain ⟨ts', bad, g1, g2, g3, g4⟩ := findAndDelete_any (scriptOf ts) u.bytes
    have hb := (valid_iff g2 g1 g3).mp ⟨ts, h, rfl⟩
    subst hb
    rw [List.append_nil] at g2
    have := scriptOf_inj h g1 g2
    subst this
    rw [g4, if_pos rfl, keepOps_tok hu h]
  refine ⟨h1, ?_⟩
  rw [h1, SatoshiDelete, if_neg hne]
  constructor
  · intro hd
    rw [(Deleted.filter hu h).det hne hd]
  · intro hr
    cases hr
    exact Deleted.filter hu h

/-- Of a script that is not valid, where the Satoshi client keeps the invalid rest, nothing is returned. -/
theorem C72_invalid_partial {s sig : Bytes} (h : ¬ ∃ ts, WFToks ts ∧ s = scriptOf ts) : findAndDelete s sig = .error .scriptInvalid := by
  obtain ⟨ts, bad, g1, g2, g3, g4⟩ := findAndDelete_any s sig
  rw [g4, if_neg (fun hb => h ((valid_iff g2 g1 g3).mpr hb))]

/-- Deleting anything from a valid script drops exactly the operations at which a copy of it starts. -/
theorem C72_any_partial {ts : List Tok} (h : WFToks ts) (sig : Bytes) : findAndDelete (scriptOf ts) sig =
    .ok (scriptOf ((ts.zipIdx.filter fun (p : Tok × Nat) => ¬ sig <+: scriptOf (ts.drop p.2)).map Prod.fst)) := by
  obtain ⟨ts', bad, g1, g2, g3, g4⟩ := findAndDelete_any (scriptOf ts) sig
  have hb := (valid_iff g2 g1 g3).mp ⟨ts, h, rfl⟩
  subst hb
  rw [List.append_nil] at g2
  have := scriptOf_inj h g1 g2
  subst this
  rw [g4, if_pos rfl]
  congr 1
  have : ∀ (us : List Tok) (k : Nat) , us = ts.drop k →
      keepOps sig us = scriptOf (((us.zipIdx k).filter fun (p : Tok × Nat) => ¬ sig <+: scriptOf (ts.drop p.2)).map Prod.fst) := by
    intro us
    induction us with
    | nil => intro k _; rfl
    | cons u us ih =>
      intro k hk
      have ih := ih (k + 1) (by rw [← List.drop_drop, ← hk]; rfl)
      rw [keepOps, ih, List.zipIdx_cons]
      by_cases hp : sig <+: scriptOf (u :: us)
      · rw [if_pos hp, List.filter_cons_of_neg (by rw [← hk]; simpa using hp)]
        rfl
      · rw [if_neg hp, List.filter_cons_of_pos (by rw [← hk]; simpa using hp)]
        rfl
  exact this ts 0 rfl

example : findAndDelete [0xab#8, 0x02#8, 0xab#8, 0xab#8, 0xab#8] [0xab#8] = .ok [0x02#8, 0xab#8, 0xab#8] := by decide

/-! ## C73: counting signature checks -/

/-- `GetSigOpCount` counts what the Satoshi client counts: 1 for each check of a signature, for each check of several signatures 20
or, if `fAccurate`, the number given by the operation before; operations behind an invalid one are not counted. -/
def C73_statement : Prop := ∀ (ts : List Tok) (bad : Bytes) (accurate : Bool), WFToks ts → (∀ (t : Tok) (r : Bytes), t.Ok → bad ≠ t.bytes ++ r) →
  getSigOpCount (scriptOf ts ++ bad) accurate = .ok (sigOpSum accurate none ts)

/-- False: counting accurately raises AttributeError. -/
theorem C73_refuted : ¬ C73_statement := by
  intro h
  have := h [.op 0x52#8, .op 0xae#8] [] true (by decide) (by
    intro t r _ h
    have h1 := t.bytes_length_pos
    have h0 := congrArg List.length h
    simp at h0
    omega)
  have h2 : getSigOpCount [0x52#8, 0xae#8] true = .error .attributeError := by decide
  rw [show scriptOf [Tok.op 0x52#8, .op 0xae#8] ++ [] = [0x52#8, 0xae#8] from rfl, h2] at this
  cases this

/-- Of a valid script it returns the right number, unless the count is to be accurate and the script has a check of several
signatures right after the number of keys; in this case, the one that matters, it raises AttributeError. -/
theorem C73_valid_partial {ts : List Tok} (h : WFToks ts) (accurate : Bool) :
    (¬ (accurate = true ∧ CountedMultisig ts) → getSigOpCount (scriptOf ts) accurate = .ok (sigOpSum accurate none ts)) ∧
    (accurate = true ∧ CountedMultisig ts → getSigOpCount (scriptOf ts) accurate = .error .attributeError) := by
  have hc : CountedFrom none ts ↔ CountedMultisig ts := countedFrom_iff ts none
  obtain ⟨h1, h2⟩ := sigOpLoop_eq accurate ts none (by simp) h 0 0
  rw [hc] at h1 h2
  unfold getSigOpCount
  rw [rawIter_scriptOf h]
  constructor
  · intro hn
    have := h2 hn
    rw [show lastOp none = OP_INVALIDOPCODE from rfl] at this
    simp only [this, Except.bind_ok, Nat.zero_add]
    rfl
  · intro hn
    have := h1 hn
    rw [show lastOp none = OP_INVALIDOPCODE from rfl] at this
    simp only [this, Except.bind_error]

/-- Of an invalid script it does not return a number. -/
theorem C73_invalid_partial {s : Bytes} (h : ¬ ∃ ts, WFToks ts ∧ s = scriptOf ts) :
    getSigOpCount s false = .error .scriptInvalid ∧ ∃ e, getSigOpCount s true = .error e := by
  obtain ⟨ts, bad, g1, g2, g3, g4⟩ := rawIter_any s
  have hb : bad ≠ [] := fun hb => h ((valid_iff g2 g1 g3).mpr hb)
  rw [if_neg hb] at g4
  constructor
  · have := (sigOpLoop_eq false ts none (by simp) g1 0 0).2 (by simp)
    rw [show lastOp none = OP_INVALIDOPCODE from rfl] at this
    simp only [getSigOpCount, g4, this, Except.bind_ok]
  · simp only [getSigOpCount, g4]
    rcases sigOpLoop true 0 OP_INVALIDOPCODE (located 0 ts) with e | n
    · exact ⟨e, rfl⟩
    · exact ⟨_, rfl⟩

example : getSigOpCount [0x76#8, 0xa9#8, 0xac#8, 0x53#8, 0xaf#8, 0x01#8, 0xac#8] false = .ok 21 := by decide
example : CountedMultisig [.push .direct [], .op 0x51#8, .op 0xae#8] := ⟨[.push .direct []], [], 0x51#8, 0xae#8, rfl, by decide, by decide, .inl rfl⟩

/-! ## C74: pay to script hash -/

/-- `is_p2sh` is true of 0xa9 0x14, 20 bytes, 0x87, and of nothing else. -/
theorem C74_is_p2sh (s : Bytes) : isP2sh s = true ↔ ∃ h : Bytes, h.length = 20 ∧ s = [0xa9#8, 0x14#8] ++ h ++ [0x87#8] := by
  constructor
  · intro h
    simp only [isP2sh, Bool.and_eq_true, beq_iff_eq] at h
    obtain ⟨⟨⟨hl, h0⟩, h1⟩, h22⟩ := h
    rcases s with _ | ⟨a, _ | ⟨b, s⟩⟩
    · simp at hl
    · simp at hl
    · simp only [List.getElem?_cons_zero, List.getElem?_cons_succ, Option.some.injEq] at h0 h1 h22
      subst h0 h1
      have hl : s.length = 21 := by simpa using hl
      refine ⟨s.take 20, by rw [List.length_take]; omega, ?_⟩
      have : s.drop 20 = [0x87#8] := by
        rw [List.drop_eq_getElem_cons (by omega), List.drop_of_length_le (by omega)]
        rw [List.getElem?_eq_getElem (by omega)] at h22
        simpa using h22
      rw [List.append_assoc, ← this]
      simp
  · rintro ⟨h, hl, rfl⟩
    simp [isP2sh, hl]

/-- `to_p2sh_scriptPubKey` fails only for scripts of more than 520 bytes, if told to; the script it makes is recognised by
`is_p2sh` and has the hash of the script in the middle. -/
theorem C74_to_p2sh (H : HashFns) (s : Bytes) (checksize : Bool) :
    (checksize = true ∧ 520 < s.length → toP2sh H s checksize = .error .valueError) ∧
    (¬ (checksize = true ∧ 520 < s.length) → toP2sh H s checksize = .ok ([0xa9#8, 0x14#8] ++ H.ripemd160 (H.sha256 s) ++ [0x87#8]) ∧
      isP2sh ([0xa9#8, 0x14#8] ++ H.ripemd160 (H.sha256 s) ++ [0x87#8]) = true) := by
  have h20 := H.ripemd160_len (H.sha256 s)
  refine ⟨fun h => by rw [toP2sh, MAX_SCRIPT_ELEMENT_SIZE, if_pos h], fun h => ⟨?_, (C74_is_p2sh _).mpr ⟨_, h20, rfl⟩⟩⟩
  rw [toP2sh, MAX_SCRIPT_ELEMENT_SIZE, if_neg h]
  have e : encodePushdata (H.hash160 s) = .ok (0x14#8 :: H.hash160 s) := by
    unfold encodePushdata
    rw [show (H.hash160 s).length = 20 from h20]
    rfl
  simp only [mkScript, coerceItem, e, Except.bind_ok]
  simp [pure, Except.pure, Except.bind_ok, HashFns.hash160]

/-- Two scripts with the same output script are equal, unless their hashes collide. -/
theorem C74_binding (H : HashFns) {s t o : Bytes} {c d : Bool} (hs : toP2sh H s c = .ok o) (ht : toP2sh H t d = .ok o)
    (hc : CollisionFree (fun m => H.ripemd160 (H.sha256 m)) [s, t]) : s = t := by
  have h1 : o = [0xa9#8, 0x14#8] ++ H.ripemd160 (H.sha256 s) ++ [0x87#8] := by
    by_cases h : c = true ∧ 520 < s.length
    · rw [(C74_to_p2sh H s c).1 h] at hs; cases hs
    · rw [((C74_to_p2sh H s c).2 h).1] at hs; cases hs; rfl
  have h2 : o = [0xa9#8, 0x14#8] ++ H.ripemd160 (H.sha256 t) ++ [0x87#8] := by
    by_cases h : d = true ∧ 520 < t.length
    · rw [(C74_to_p2sh H t d).1 h] at ht; cases ht
    · rw [((C74_to_p2sh H t d).2 h).1] at ht; cases ht; rfl
  have h3 := List.append_cancel_left (List.append_cancel_right (h1.symm.trans h2))
  exact hc s (by simp) t (by simp) h3

end Verif.Btc
