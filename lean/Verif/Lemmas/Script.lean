import Verif.Spec.Script
import Verif.Lemmas.Btc
import Verif.Lemmas.Bits
/-! # Lemmas about scripts -/
namespace Verif.Btc
open Verif

theorem little_eq : ∀ k n, little k n = leBytes k n
  | 0, _ => rfl
  | k + 1, n => by
    rw [leBytes, ← little_eq k (n / 256)]
    simp only [little, List.range_succ_eq_map, List.map_cons, List.map_map, Nat.pow_zero, Nat.div_one]
    congr 1
    · exact BitVec.eq_of_toNat_eq (by simp)
    · apply List.map_congr_left
      intro i _
      simp only [Function.comp, Nat.succ_eq_add_one, Nat.pow_succ, Nat.mul_comm (256 ^ i), Nat.div_div_eq_div_mul]

theorem Tok.bytes_length_pos (t : Tok) : 0 < t.bytes.length := by
  rcases t with o | ⟨e, d⟩
  · simp [Tok.bytes]
  · cases e <;> simp [Tok.bytes, little_eq, leBytes_length] <;> omega

theorem leNat1 (n : Nat) (h : n < 256) : leBytes 1 n = [BitVec.ofNat 8 n] := by
  simp [leBytes, Nat.mod_eq_of_lt h]

theorem rawOp_take {op : Byte} {n : Nat} {d rest : Bytes} (h : d.length = n) :
    (if ((d ++ rest).take n).length < n then (.error .scriptInvalid : Py (Byte × Option Bytes × Bytes))
      else .ok (op, some ((d ++ rest).take n), (d ++ rest).drop n)) = .ok (op, some d, rest) := by
  subst h
  simp

theorem byteNat (n : Nat) (h : n < 256) : (BitVec.ofNat 8 n).toNat = n := by
  rw [BitVec.toNat_ofNat]; omega

/-- The end of a round: take the data. -/
def takeData (op : Byte) (n : Nat) (s : Bytes) : Py (Byte × Option Bytes × Bytes) :=
  if (s.take n).length < n then .error .scriptInvalid else .ok (op, some (s.take n), s.drop n)

theorem rawOp_push {op : Byte} {s : Bytes} {n : Nat} {s' : Bytes} (h : ¬ 0x4e < op.toNat) (hd : dataSize op s = .ok (n, s')) :
    rawOp (op :: s) = takeData op n s' := by
  simp only [rawOp, if_neg h, hd]
  rfl

theorem rawOp_one (a : Byte) (s : Bytes) : rawOp (0x4c#8 :: a :: s) = takeData 0x4c#8 a.toNat s := rawOp_push (by decide) rfl
theorem rawOp_two (a b : Byte) (s : Bytes) : rawOp (0x4d#8 :: a :: b :: s) = takeData 0x4d#8 (a.toNat + b.toNat <<< 8) s := rawOp_push (by decide) rfl
theorem rawOp_four (a b c d : Byte) (s : Bytes) : rawOp (0x4e#8 :: a :: b :: c :: d :: s) =
    takeData 0x4e#8 (a.toNat + b.toNat <<< 8 + c.toNat <<< 16 + d.toNat <<< 24) s := by
  refine rawOp_push (by decide) ?_
  unfold dataSize
  rw [if_neg (by decide), if_neg (by decide), if_neg (by decide)]

theorem rawOp_tok {t : Tok} (h : t.Ok) (rest : Bytes) : rawOp (t.bytes ++ rest) = .ok (t.opcode, t.data, rest) := by
  rcases t with o | ⟨e, d⟩
  · simp only [Tok.bytes, little_eq, List.cons_append, List.nil_append, rawOp, Tok.opcode, Tok.data]
    rw [if_pos (show 0x4e < o.toNat from h)]
  · cases e
    · have h : d.length < 0x4c := h
      have hb := byteNat d.length (by omega)
      simp only [Tok.bytes, little_eq, leNat1 d.length (by omega), List.cons_append, List.nil_append, rawOp, Tok.opcode, Tok.data]
      have hds : dataSize (BitVec.ofNat 8 d.length) (d ++ rest) = .ok (d.length, d ++ rest) := by
        unfold dataSize; rw [if_pos (by omega), hb]
      rw [if_neg (by omega), hds]
      simp only [Except.bind_ok]
      exact rawOp_take rfl
    · have h : d.length < 256 := h
      have hb := byteNat d.length (by omega)
      simp only [Tok.bytes, little_eq, leNat1 d.length (by omega), List.cons_append, List.nil_append, rawOp_one, Tok.opcode, Tok.data, hb]
      exact rawOp_take rfl
    · have h : d.length < 65536 := h
      have h1 := byteNat (d.length % 256) (by omega)
      have h2 := byteNat (d.length / 256 % 256) (by omega)
      simp only [Tok.bytes, little_eq, leBytes, List.cons_append, List.nil_append, rawOp_two, Tok.opcode, Tok.data, h1, h2]
      exact rawOp_take (by simp only [Nat.shiftLeft_eq, Nat.reducePow]; omega)
    · have h : d.length < 4294967296 := h
      have h1 := byteNat (d.length % 256) (by omega)
      have h2 := byteNat (d.length / 256 % 256) (by omega)
      have h3 := byteNat (d.length / 256 / 256 % 256) (by omega)
      have h4 := byteNat (d.length / 256 / 256 / 256 % 256) (by omega)
      simp only [Tok.bytes, little_eq, leBytes, List.cons_append, List.nil_append, rawOp_four, Tok.opcode, Tok.data, h1, h2, h3, h4]
      exact rawOp_take (by simp only [Nat.shiftLeft_eq, Nat.reducePow]; omega)

theorem take_some {n : Nat} {s : Bytes} {op : Byte} {r : Byte × Option Bytes × Bytes}
    (h : (if (s.take n).length < n then (.error .scriptInvalid : Py (Byte × Option Bytes × Bytes))
      else .ok (op, some (s.take n), s.drop n)) = .ok r) :
    ∃ d, d.length = n ∧ s = d ++ r.2.2 ∧ r.1 = op ∧ r.2.1 = some d := by
  split at h
  · cases h
  · next hl =>
    cases h
    exact ⟨s.take n, by rw [List.length_take] at hl ⊢; omega, by simp, rfl, rfl⟩

theorem rawOp_ok {s : Bytes} {op : Byte} {d : Option Bytes} {s' : Bytes} (h : rawOp s = .ok (op, d, s')) :
    ∃ t : Tok, t.Ok ∧ s = t.bytes ++ s' ∧ op = t.opcode ∧ d = t.data := by
  cases s with
  | nil => cases h
  | cons o s =>
    simp only [rawOp] at h
    split at h
    · next ho =>
      cases h
      exact ⟨.op op, ho, rfl, rfl, rfl⟩
    · next ho =>
      obtain ⟨⟨n, s1⟩, h1, h2⟩ := Except.bind_eq_ok h
      obtain ⟨d', hd, hs, ho', hd'⟩ := take_some h2
      simp only at ho' hd' hs
      subst ho' hd'
      unfold dataSize at h1
      split at h1
      · next hlt =>
        cases h1
        refine ⟨.push .direct d', by simp only [Tok.Ok]; omega, ?_, ?_, rfl⟩
        · rw [Tok.bytes, little_eq, leNat1 _ (show d'.length < 256 by omega), hd, hs]
          simp
        · simp [Tok.opcode, hd]
      · split at h1
        · next ho2 =>
          subst ho2
          split at h1
          · next a s2 =>
            cases h1
            refine ⟨.push .one d', by have := a.isLt; simp only [Tok.Ok]; omega, ?_, rfl, rfl⟩
            rw [Tok.bytes, little_eq, leNat1 _ (show d'.length < 256 by have := a.isLt; omega), hd, hs]
            simp
          · cases h1
        · split at h1
          · next ho2 =>
            subst ho2
            split at h1
            · next a b s2 =>
              cases h1
              have ha := a.isLt
              have hb := b.isLt
              simp only [Nat.shiftLeft_eq, Nat.reducePow] at hd
              refine ⟨.push .two d', by simp only [Tok.Ok]; omega, ?_, rfl, rfl⟩
              have e : leBytes 2 d'.length = [a, b] := by
                rw [hd, ← leBytes_leNat [a, b]]
                congr 1
                simp [leNat]; omega
              simp only [Tok.bytes, little_eq, e, hs]
              simp
            · cases h1
          · next ho2 ho3 ho4 =>
            split at h1
            · next a b c e s2 =>
              simp only [Except.ok.injEq, Prod.mk.injEq] at h1
              obtain ⟨hn, rfl⟩ := h1
              rw [← hn] at hd
              have ha := a.isLt
              have hb := b.isLt
              have hc := c.isLt
              have he := e.isLt
              simp only [Nat.shiftLeft_eq, Nat.reducePow] at hd
              have hop : op = 0x4e#8 := by
                have := op.isLt
                have h1 : op.toNat ≠ 0x4c := fun h => ho3 (BitVec.eq_of_toNat_eq h)
                have h2 : op.toNat ≠ 0x4d := fun h => ho4 (BitVec.eq_of_toNat_eq h)
                exact BitVec.eq_of_toNat_eq (by show op.toNat = 0x4e; omega)
              subst hop
              refine ⟨.push .four d', by simp only [Tok.Ok]; omega, ?_, rfl, rfl⟩
              have e' : leBytes 4 d'.length = [a, b, c, e] := by
                have hl : leNat [a, b, c, e] = d'.length := by simp only [leNat]; omega
                rw [← hl]
                exact leBytes_leNat [a, b, c, e]
              simp only [Tok.bytes, little_eq, e', hs]
              simp
            · cases h1

theorem rawOp_error {s : Bytes} {e : PyErr} (hs : s ≠ []) (h : rawOp s = .error e) : e = .scriptInvalid := by
  cases s with
  | nil => exact absurd rfl hs
  | cons o s =>
    simp only [rawOp] at h
    split at h
    · cases h
    · rcases hx : dataSize o s with e' | ⟨n, s1⟩
      · rw [hx] at h
        have h : Except.error e' = Except.error e := h
        cases h
        unfold dataSize at hx
        repeat' split at hx
        all_goals (cases hx; try rfl)
      · rw [hx] at h
        simp only [Except.bind_ok] at h
        split at h
        · cases h; rfl
        · cases h

/-- What the loop does, given enough rounds. -/
theorem rawIterF_ok : ∀ (ts : List Tok) (n i : Nat), WFToks ts → (scriptOf ts).length ≤ n → rawIterF n i (scriptOf ts) = (located i ts, none)
  | [], n, i, _, _ => by cases n <;> simp [rawIterF, scriptOf, located]
  | t :: ts, n, i, h, hn => by
    have hp := t.bytes_length_pos
    have e : scriptOf (t :: ts) = t.bytes ++ scriptOf ts := rfl
    rw [e, List.length_append] at hn
    rw [e]
    obtain ⟨n, rfl⟩ : ∃ m, n = m + 1 := ⟨n - 1, by omega⟩
    simp only [rawIterF]
    rw [if_neg (by rw [List.length_append]; omega), rawOp_tok (h t (by simp))]
    simp only
    rw [show (t.bytes ++ scriptOf ts).length - (scriptOf ts).length = t.bytes.length by rw [List.length_append]; omega,
      rawIterF_ok ts n _ (fun t ht => h t (by simp [ht])) (by omega)]
    rfl

/-- Conversely, what it yields is what the bytes consist of. -/
theorem rawIterF_conv : ∀ (n i : Nat) (s : Bytes), s.length ≤ n → ∃ ts bad, WFToks ts ∧ s = scriptOf ts ++ bad ∧ (rawIterF n i s).1 = located i ts ∧
    ((bad = [] ∧ (rawIterF n i s).2 = none) ∨
     (bad ≠ [] ∧ (rawIterF n i s).2 = some .scriptInvalid ∧ ∃ e, rawOp bad = .error e))
  | 0, i, s, h => ⟨[], [], by simp [WFToks], by simp at h; simp [h, scriptOf], rfl, .inl ⟨rfl, rfl⟩⟩
  | n + 1, i, s, h => by
    simp only [rawIterF]
    split
    · next h0 => exact ⟨[], [], by simp [WFToks], by simp at h0; simp [h0, scriptOf], rfl, .inl ⟨rfl, rfl⟩⟩
    · next h0 =>
      have hs : s ≠ [] := by intro hs; exact h0 (by simp [hs])
      rcases hr : rawOp s with e | ⟨op, d, s'⟩
      · have he := rawOp_error hs hr
        subst he
        exact ⟨[], s, by simp [WFToks], by simp [scriptOf], rfl, .inr ⟨hs, rfl, _, hr⟩⟩
      · obtain ⟨t, ht, e, rfl, rfl⟩ := rawOp_ok hr
        have hp := t.bytes_length_pos
        have hl : s.length = t.bytes.length + s'.length := by rw [e, List.length_append]
        obtain ⟨ts, bad, hts, hs', h1, h2⟩ := rawIterF_conv n (i + (s.length - s'.length)) s' (by omega)
        refine ⟨t :: ts, bad, ?_, ?_, ?_, h2⟩
        · intro u hu
          rcases List.mem_cons.mp hu with rfl | hu
          · exact ht
          · exact hts u hu
        · rw [e, hs']; simp [scriptOf]
        · simp only [h1, located]
          rw [hl, Nat.add_sub_cancel]

theorem rawIter_scriptOf {ts : List Tok} (h : WFToks ts) : rawIter (scriptOf ts) = (located 0 ts, none) :=
  rawIterF_ok ts _ 0 h (Nat.le_refl _)

theorem scriptOf_inj : ∀ {ts ts' : List Tok}, WFToks ts → WFToks ts' → scriptOf ts = scriptOf ts' → ts = ts' := by
  intro ts ts' h h' e
  have a := rawIter_scriptOf h
  have b := rawIter_scriptOf h'
  rw [e, b] at a
  have hl : ∀ (ts ts' : List Tok) (i : Nat), WFToks ts → WFToks ts' → located i ts' = located i ts → ts = ts' := by
    intro ts
    induction ts with
    | nil => intro ts' i _ _ h; cases ts' with | nil => rfl | cons _ _ => cases h
    | cons t ts ih =>
      intro ts' i hts hts' h
      cases ts' with
      | nil => cases h
      | cons t' ts' =>
        simp only [located, List.cons.injEq, RawOp.mk.injEq, and_true] at h
        obtain ⟨⟨h1, h2⟩, h3⟩ := h
        have ht : t = t' := by
          have ho := hts t (by simp)
          have ho' := hts' t' (by simp)
          have hne : ∀ (o : Byte) (e : PushEnc) (d : Bytes), ¬ (Tok.op o).data = (Tok.push e d).data := by intro _ _ _ h; cases h
          rcases t with o | ⟨e, d⟩ <;> rcases t' with o' | ⟨e', d'⟩
          · simp only [Tok.opcode] at h1; rw [h1]
          · exact absurd h2.symm (hne _ _ _)
          · exact absurd h2 (hne _ _ _)
          · cases h2
            have hsmall : ∀ d : Bytes, (Tok.push .direct d).Ok → (BitVec.ofNat 8 d.length).toNat < 0x4c := by
              intro d hd
              have hd : d.length < 0x4c := hd
              rw [byteNat _ (by omega)]; exact hd
            have k := hsmall d
            cases e <;> cases e' <;> simp only [Tok.opcode] at h1 <;>
              first
              | rfl
              | (exfalso; have k := k ho'; rw [h1] at k; exact absurd k (by decide))
              | (exfalso; have k := k ho; rw [← h1] at k; exact absurd k (by decide))
              | (exfalso; exact absurd h1 (by decide))
        subst ht
        rw [ih ts' _ (fun t ht => hts t (by simp [ht])) (fun t ht => hts' t (by simp [ht])) h3]
  exact hl ts ts' 0 h h' (congrArg Prod.fst a)

theorem WFToks.cons {t : Tok} {ts : List Tok} (h : t.Ok) (hs : WFToks ts) : WFToks (t :: ts) := by
  intro u hu
  rcases List.mem_cons.mp hu with rfl | hu
  · exact h
  · exact hs u hu

theorem encodePushdata_ok {d : Bytes} (h : d.length < 2 ^ 32) : encodePushdata d = .ok (Tok.push (shortest d) d).bytes ∧ (Tok.push (shortest d) d).Ok := by
  unfold encodePushdata shortest
  by_cases h1 : d.length < 0x4c
  · simp only [if_pos h1, Tok.bytes, little_eq, Tok.Ok, leNat1 _ (show d.length < 256 by omega)]
    exact ⟨rfl, h1⟩
  · simp only [if_neg h1]
    by_cases h2 : d.length ≤ 0xff
    · have h2' : d.length < 2 ^ 8 := by omega
      simp only [if_pos h2, if_pos h2', Tok.bytes, little_eq, Tok.Ok, leNat1 _ (show d.length < 256 by omega)]
      exact ⟨rfl, h2'⟩
    · have h2' : ¬ d.length < 2 ^ 8 := by omega
      simp only [if_neg h2, if_neg h2']
      by_cases h3 : d.length ≤ 0xffff
      · have h3' : d.length < 2 ^ 16 := by omega
        simp only [if_pos h3, if_pos h3', Tok.bytes, little_eq, Tok.Ok]
        refine ⟨?_, h3'⟩
        unfold packU
        rw [if_pos (by constructor <;> omega)]
        simp [Except.bind_ok]; rfl
      · have h3' : ¬ d.length < 2 ^ 16 := by omega
        have h4 : d.length ≤ 0xffffffff := by omega
        simp only [if_neg h3, if_neg h3', if_pos h4, Tok.bytes, little_eq, Tok.Ok]
        refine ⟨?_, h⟩
        unfold packU
        rw [if_pos (by constructor <;> omega)]
        simp [Except.bind_ok]; rfl

end Verif.Btc
