import Verif.Lemmas.Bignum
/-! # More lemmas about scripts: items, canonical pushes, deletion, counting signature checks -/
namespace Verif.Btc
open Verif

theorem tok_append_inj {t u : Tok} {r r' : Bytes} (ht : t.Ok) (hu : u.Ok) (h : t.bytes ++ r = u.bytes ++ r') : t = u ∧ r = r' := by
  have h1 := rawOp_tok ht r
  rw [h, rawOp_tok hu r'] at h1
  simp only [Except.ok.injEq, Prod.mk.injEq] at h1
  obtain ⟨-, -, rfl⟩ := h1
  have h2 := List.append_cancel_right h
  have h3 := scriptOf_inj (ts := [t]) (ts' := [u]) (by intro x hx; simp at hx; rw [hx]; exact ht) (by intro x hx; simp at hx; rw [hx]; exact hu)
    (by simp [scriptOf, h2])
  exact ⟨by simpa using h3, rfl⟩

theorem no_tok_of_error {s : Bytes} {e : PyErr} (h : rawOp s = .error e) : ∀ (t : Tok) (r : Bytes), t.Ok → s ≠ t.bytes ++ r := by
  rintro t r ht rfl
  rw [rawOp_tok ht] at h
  cases h

/-- What `raw_iter` does with any bytes. -/
theorem rawIter_any (s : Bytes) : ∃ ts bad, WFToks ts ∧ s = scriptOf ts ++ bad ∧
    (∀ (t : Tok) (r : Bytes), t.Ok → bad ≠ t.bytes ++ r) ∧
    rawIter s = (located 0 ts, if bad = [] then none else some .scriptInvalid) := by
  obtain ⟨ts, bad, h1, h2, h3, h4⟩ := rawIterF_conv s.length 0 s (Nat.le_refl _)
  refine ⟨ts, bad, h1, h2, ?_, Prod.ext h3 ?_⟩
  · rcases h4 with ⟨rfl, _⟩ | ⟨_, _, e, he⟩
    · intro t r _ h
      have h0 : 0 < (t.bytes ++ r).length := by rw [List.length_append]; have := t.bytes_length_pos; omega
      rw [← h] at h0
      simp at h0
    · exact no_tok_of_error he
  · rcases h4 with ⟨rfl, h⟩ | ⟨hb, h, _⟩
    · rw [if_pos rfl]; exact h
    · rw [if_neg hb]; exact h

theorem valid_iff {s : Bytes} {ts : List Tok} {bad : Bytes} (hs : s = scriptOf ts ++ bad) (hwf : WFToks ts)
    (hb : ∀ (t : Tok) (r : Bytes), t.Ok → bad ≠ t.bytes ++ r) : (∃ us, WFToks us ∧ s = scriptOf us) ↔ bad = [] := by
  constructor
  · rintro ⟨us, hus, h⟩
    rw [hs] at h
    clear hs
    induction ts generalizing us with
    | nil =>
      cases us with
      | nil => simpa [scriptOf] using h
      | cons u us =>
        exact absurd (by simpa [scriptOf] using h) (hb u (scriptOf us) (hus u (by simp)))
    | cons t ts ih =>
      cases us with
      | nil =>
        have hp := t.bytes_length_pos
        have : t.bytes = [] := by
          have h : t.bytes ++ (scriptOf ts ++ bad) = [] := by simpa [scriptOf] using h
          exact (List.append_eq_nil_iff.mp h).1
        simp [this] at hp
      | cons u us =>
        have h' : t.bytes ++ (scriptOf ts ++ bad) = u.bytes ++ scriptOf us := by simpa [scriptOf] using h
        obtain ⟨-, h2⟩ := tok_append_inj (hwf t (by simp)) (hus u (by simp)) h'
        exact ih (fun x hx => hwf x (by simp [hx])) us (fun x hx => hus x (by simp [hx])) h2
  · rintro rfl
    exact ⟨ts, hwf, by simpa using hs⟩

/-! ## Iteration -/

theorem cook_tok {t : Tok} (h : t.Ok) (i : Nat) : cook ⟨t.opcode, t.data, i⟩ = .ok t.item := by
  rcases t with o | ⟨e, d⟩
  · have : ∀ o : Byte, 0x4e < o.toNat → cook ⟨o, none, 0⟩ = .ok (Tok.item (.op o)) := by decide
    exact this o h
  · rfl

theorem mapM_cook : ∀ {ts : List Tok} (i : Nat), WFToks ts → (located i ts).mapM cook = .ok (ts.map Tok.item)
  | [], _, _ => rfl
  | t :: ts, i, h => by
    rw [located, List.mapM_cons, cook_tok (h t (by simp)), Except.bind_ok, mapM_cook _ (fun x hx => h x (by simp [hx])), Except.bind_ok]
    rfl

theorem scriptItems_any (s : Bytes) : ∃ ts bad, WFToks ts ∧ s = scriptOf ts ++ bad ∧
    (∀ (t : Tok) (r : Bytes), t.Ok → bad ≠ t.bytes ++ r) ∧
    scriptItems s = if bad = [] then .ok (ts.map Tok.item) else .error .scriptInvalid := by
  obtain ⟨ts, bad, h1, h2, h3, h4⟩ := rawIter_any s
  refine ⟨ts, bad, h1, h2, h3, ?_⟩
  simp only [scriptItems, h4, mapM_cook 0 h1, Except.bind_ok]
  by_cases hb : bad = [] <;> simp [hb] <;> rfl

theorem scriptItems_scriptOf {ts : List Tok} (h : WFToks ts) : scriptItems (scriptOf ts) = .ok (ts.map Tok.item) := by
  simp only [scriptItems, rawIter_scriptOf h, mapM_cook 0 h, Except.bind_ok]
  rfl

/-! ## Construction -/

/-- The operation an item becomes. -/
def Item.tok (num : Int → Bytes) : Item → Tok
  | .op o => .op o
  | .data d => .push (shortest d) d
  | .int n => if n = 0 then .push .direct [] else if n = -1 then .op 0x4f#8
      else if 0 < n ∧ n ≤ 16 then .op (BitVec.ofNat 8 (0x50 + n.toNat)) else .push (shortest (num n)) (num n)

theorem shortestNum_iff {n : Int} {b : Bytes} (h0 : n ≠ 0) :
    ShortestNum n b ↔ b = signed (bitLength n / 8) n.natAbs (decide (n < 0)) := by
  have hv : numOf (signed (bitLength n / 8) n.natAbs (decide (n < 0))) = n := by
    rw [numOf_signed top_lt]
    by_cases hn : n < 0
    · simp [hn]; omega
    · simp [hn]; omega
  constructor
  · rintro ⟨h1, h2⟩
    rcases Nat.le_total b.length (bitLength n / 8 + 1) with hl | hl
    · exact numOf_unique h0 h1 hl
    · exact (h2 _ hv (by rw [signed_length]; exact hl)).symm
  · rintro rfl
    refine ⟨hv, fun b' hb' hl => ?_⟩
    rw [signed_length] at hl
    exact numOf_unique h0 hb' hl

theorem bn2vch_shortest {n : Int} {b : Bytes} (h : ShortestNum n b) (hl : b.length < 2 ^ 32) : bn2vch n = .ok b := by
  by_cases h0 : n = 0
  · subst h0
    have := h.2 [] numOf_nil (by simp)
    rw [← this, bn2vch_zero]
  · have e := (shortestNum_iff h0).mp h
    rw [e, bn2vch_ok h0]
    rw [e, signed_length] at hl
    exact hl

theorem coerceItem_ok {num : Int → Bytes} {i : Item} (h : i.Fits num) : coerceItem i = .ok (i.tok num).bytes ∧ (i.tok num).Ok ∧ (i.tok num).item = i.seen num := by
  rcases i with o | n | d
  · exact ⟨rfl, h, rfl⟩
  · obtain ⟨hl, hs⟩ := h
    simp only [coerceItem, Item.tok, Item.seen]
    by_cases h0 : n = 0
    · subst h0; exact ⟨rfl, show Tok.Ok (.push .direct []) by decide, rfl⟩
    · by_cases h1 : n = -1
      · subst h1; exact ⟨rfl, show Tok.Ok (.op 0x4f#8) by decide, rfl⟩
      · by_cases h2 : 0 < n ∧ n ≤ 16
        · have hn : ∃ k : Fin 17, 0 < k.1 ∧ n = k.1 := ⟨⟨n.toNat, by omega⟩, by simp; omega, by simp; omega⟩
          obtain ⟨k, hk0, rfl⟩ := hn
          rw [if_neg h0, if_neg h1, if_pos h2, if_pos (by omega)]
          rw [if_neg h0, if_neg h1, if_pos h2]
          rw [if_neg h1]
          clear hl hs h0 h1 h2
          revert k
          decide
        · rw [if_neg h0, if_neg h1, if_neg h2, if_neg (by omega), if_neg h0, if_neg h1, if_neg h2, if_neg h1, bn2vch_shortest hs hl]
          obtain ⟨e1, e2⟩ := encodePushdata_ok hl
          exact ⟨e1, e2, rfl⟩
  · obtain ⟨e1, e2⟩ := encodePushdata_ok (show d.length < 2 ^ 32 from h)
    exact ⟨e1, e2, rfl⟩

theorem mkScript_ok {num : Int → Bytes} : ∀ {is : List Item}, (∀ i ∈ is, i.Fits num) →
    mkScript is = .ok (scriptOf (is.map (Item.tok num))) ∧ WFToks (is.map (Item.tok num)) ∧ (is.map (Item.tok num)).map Tok.item = is.map (Item.seen num)
  | [], _ => ⟨rfl, by simp [WFToks], rfl⟩
  | i :: is, h => by
    obtain ⟨h1, h2, h3⟩ := coerceItem_ok (h i (by simp))
    obtain ⟨g1, g2, g3⟩ := mkScript_ok (is := is) (fun j hj => h j (by simp [hj]))
    refine ⟨?_, WFToks.cons h2 g2, by simp only [List.map_cons, h3, g3]⟩
    simp only [mkScript, h1, g1, Except.bind_ok]
    rfl

/-- A push in shortest form. -/
def Tok.canon : Tok → Tok
  | .op o => .op o
  | .push _ d => .push (shortest d) d

theorem Tok.data_lt {e : PushEnc} {d : Bytes} (h : (Tok.push e d).Ok) : d.length < 2 ^ 32 := by
  cases e <;> simp only [Tok.Ok] at h <;> omega

theorem coerce_item {t : Tok} (h : t.Ok) : coerceItem t.item = .ok t.canon.bytes ∧ t.canon.Ok := by
  rcases t with o | ⟨e, d⟩
  · refine ⟨?_, h⟩
    have : ∀ o : Byte, 0x4e < o.toNat → coerceItem (Tok.item (.op o)) = .ok [o] := by decide
    exact this o h
  · obtain ⟨e1, e2⟩ := encodePushdata_ok (Tok.data_lt h)
    exact ⟨e1, e2⟩

theorem mkScript_items : ∀ {ts : List Tok}, WFToks ts → mkScript (ts.map Tok.item) = .ok (scriptOf (ts.map Tok.canon)) ∧ WFToks (ts.map Tok.canon)
  | [], _ => ⟨rfl, by simp [WFToks]⟩
  | t :: ts, h => by
    obtain ⟨h1, h2⟩ := coerce_item (h t (by simp))
    obtain ⟨g1, g2⟩ := mkScript_items (ts := ts) (fun x hx => h x (by simp [hx]))
    refine ⟨?_, WFToks.cons h2 g2⟩
    simp only [List.map_cons, mkScript, h1, g1, Except.bind_ok]
    rfl

theorem canon_eq {ts : List Tok} : ts.map Tok.canon = ts ↔ ∀ e d, Tok.push e d ∈ ts → e = shortest d := by
  constructor
  · intro h e d hm
    have : ∀ t ∈ ts, t.canon = t := by
      rw [List.map_eq_iff] at h
      intro t ht
      obtain ⟨i, hi⟩ := List.getElem?_of_mem ht
      have := h i
      rw [hi] at this
      simp at this
      exact this.symm
    have := this _ hm
    simp only [Tok.canon, Tok.push.injEq, and_true] at this
    exact this.symm
  · intro h
    have : ∀ t ∈ ts, t.canon = id t := by
      rintro (o | ⟨e, d⟩) ht
      · rfl
      · simp only [Tok.canon, id, ← h e d ht]
    rw [List.map_congr_left this, List.map_id]

/-! ## Predicates -/

theorem any_located (f : RawOp → Bool) (g : Tok → Bool) (hfg : ∀ t i, Tok.Ok t → f ⟨t.opcode, t.data, i⟩ = g t) :
    ∀ {ts : List Tok} (i : Nat), WFToks ts → (located i ts).any f = ts.any g
  | [], _, _ => rfl
  | t :: ts, i, h => by
    rw [located, List.any_cons, List.any_cons, hfg t i (h t (by simp)), any_located f g hfg _ (fun x hx => h x (by simp [hx]))]

theorem test_iff {f : RawOp → Bool} {g : Tok → Bool} (hfg : ∀ t i, Tok.Ok t → f ⟨t.opcode, t.data, i⟩ = g t) (s : Bytes) :
    (if (rawIter s).1.any f then false else (rawIter s).2.isNone) = true ↔ ∃ ts, WFToks ts ∧ s = scriptOf ts ∧ ∀ t ∈ ts, g t = false := by
  constructor
  · obtain ⟨ts, bad, h1, h2, h3, h4⟩ := rawIter_any s
    rw [h4, any_located f g hfg 0 h1]
    intro h
    split at h
    · cases h
    · next ha =>
      have hb : bad = [] := by
        simp only at h
        by_cases hb : bad = []
        · exact hb
        · simp [hb] at h
      subst hb
      exact ⟨ts, h1, by simpa using h2, fun t ht => by simpa using (fun hg => ha (List.any_eq_true.mpr ⟨t, ht, hg⟩))⟩
  · rintro ⟨ts, h1, rfl, h3⟩
    rw [rawIter_scriptOf h1]
    simp only
    rw [any_located f g hfg 0 h1, if_neg]
    · rfl
    · rw [List.any_eq_true]
      rintro ⟨t, ht, hg⟩
      rw [h3 t ht] at hg
      cases hg

theorem opcode_push {e : PushEnc} {d : Bytes} (h : (Tok.push e d).Ok) : (Tok.push e d).opcode.toNat ≤ 0x4e := by
  cases e
  · have h : d.length < 0x4c := h
    simp only [Tok.opcode]; rw [byteNat _ (by omega)]; omega
  all_goals simp [Tok.opcode]

theorem isPush_eq (t : Tok) (i : Nat) (h : t.Ok) : decide (0x60 < (⟨t.opcode, t.data, i⟩ : RawOp).opcode.toNat) = !t.isPush := by
  rcases t with o | ⟨e, d⟩
  · have : ∀ o : Byte, decide (0x60 < o.toNat) = !decide (o.toNat ≤ 0x60) := by decide
    exact this o
  · have := opcode_push h
    simp only [Tok.isPush]
    simp; omega

/-- `has_canonical_pushes` complains about this. -/
def Tok.flagged : Tok → Bool
  | .op _ => false
  | .push e d => decide (e ≠ shortest d) || decide (d.length = 1 ∧ (d.headD 0).toNat ≤ 16)

theorem badPush_def (op : Byte) (d : Bytes) (i : Nat) : badPush ⟨op, some d, i⟩ =
    if 0x60 < op.toNat then false
    else if op.toNat < 0x4c ∧ 0 < op.toNat ∧ d.length = 1 ∧ (d.headD 0).toNat ≤ 16 then true
    else if op = 0x4c#8 ∧ d.length < 0x4c then true
    else if op = 0x4d#8 ∧ d.length ≤ 0xff then true
    else decide (op = 0x4e#8 ∧ d.length ≤ 0xffff) := rfl

theorem badPush_eq (t : Tok) (i : Nat) (h : t.Ok) : badPush ⟨t.opcode, t.data, i⟩ = t.flagged := by
  rcases t with o | ⟨e, d⟩
  · have : ∀ o : Byte, 0x4e < o.toNat → badPush ⟨o, none, 0⟩ = false := by decide
    exact this o h
  · have hop := opcode_push h
    rw [show (Tok.push e d).data = some d from rfl, badPush_def, Tok.flagged]
    rw [if_neg (by omega)]
    cases e
    · have h : d.length < 0x4c := h
      have hb : (Tok.push .direct d).opcode.toNat = d.length := byteNat _ (by omega)
      have hne : ∀ b : Byte, 0x4c ≤ b.toNat → (Tok.push .direct d).opcode ≠ b := by rintro b hb' rfl; omega
      rw [hb, shortest, if_pos h]
      by_cases hd : d.length = 1 ∧ (d.headD 0).toNat ≤ 16
      · rw [if_pos ⟨by omega, by omega, hd⟩, decide_eq_true hd, Bool.or_true]
      · rw [if_neg (by rintro ⟨-, -, h⟩; exact hd h), if_neg (by rintro ⟨h, -⟩; exact hne _ (by decide) h), if_neg (by rintro ⟨h, -⟩; exact hne _ (by decide) h)]
        simp only [hne 0x4e#8 (by decide), false_and, decide_false, hd, Bool.or_false]
        simp
    · have h : d.length < 256 := h
      have h1 : (Tok.push .one d).opcode = 0x4c#8 := rfl
      rw [h1, if_neg (by simp), shortest]
      by_cases hd : d.length < 0x4c
      · rw [if_pos ⟨rfl, hd⟩, if_pos hd]; simp
      · rw [if_neg (by rintro ⟨_, h⟩; exact hd h), if_neg (by simp), if_neg hd, if_pos (by omega)]
        simp; omega
    · have h : d.length < 65536 := h
      have h1 : (Tok.push .two d).opcode = 0x4d#8 := rfl
      rw [h1, if_neg (by simp), if_neg (by simp), shortest]
      by_cases hd : d.length ≤ 0xff
      · rw [if_pos ⟨rfl, hd⟩]
        by_cases hd2 : d.length < 0x4c
        · rw [if_pos hd2]; simp
        · rw [if_neg hd2, if_pos (by omega)]; simp
      · rw [if_neg (by rintro ⟨_, h⟩; exact hd h), if_neg (by omega), if_neg (by omega), if_pos (by omega)]
        simp; omega
    · have h1 : (Tok.push .four d).opcode = 0x4e#8 := rfl
      rw [h1, if_neg (by simp), if_neg (by simp), if_neg (by simp), shortest]
      by_cases hd : d.length ≤ 0xffff
      · have : (if d.length < 0x4c then PushEnc.direct else if d.length < 2 ^ 8 then .one else if d.length < 2 ^ 16 then .two else .four) ≠ .four := by
          repeat' split
          all_goals first | (intro h; exact PushEnc.noConfusion h) | omega
        simp [hd]
        left
        intro h
        exact this h.symm
      · rw [if_neg (by omega), if_neg (by omega), if_neg (by omega), decide_eq_false (fun h => hd h.2),
          decide_eq_false (fun h => h rfl), decide_eq_false (fun h => by omega)]
        rfl

/-! ## Deletion -/

/-- The operations at which `sig` does not start. -/
def keepOps (sig : Bytes) : List Tok → Bytes
  | [] => []
  | t :: ts => (if sig <+: scriptOf (t :: ts) then [] else t.bytes) ++ keepOps sig ts

theorem findAndDelete_loop {script sig : Bytes} : ∀ (ts : List Tok) (i last : Nat) (r : Bytes) (skip : Bool), script.drop i = scriptOf ts → last ≤ i →
    (let x := findAndDeleteLoop script sig r last skip (located i ts); if x.2.2 then x.1 else x.1 ++ script.drop x.2.1) =
      r ++ (if skip then [] else (script.drop last).take (i - last)) ++ keepOps sig ts
  | [], i, last, r, skip, h, hl => by
    simp only [located, findAndDeleteLoop, keepOps, List.append_nil]
    cases skip
    · simp only [Bool.false_eq_true, if_false]
      congr 1
      have h : script.length ≤ i := by simpa [scriptOf] using h
      rw [List.take_of_length_le (by rw [List.length_drop]; omega)]
    · simp
  | t :: ts, i, last, r, skip, h, hl => by
    have e : scriptOf (t :: ts) = t.bytes ++ scriptOf ts := rfl
    simp only [located, findAndDeleteLoop, keepOps]
    have hd : script.drop (i + t.bytes.length) = scriptOf ts := by
      rw [← List.drop_drop, h, e, List.drop_left']; rfl
    have := findAndDelete_loop (script := script) (sig := sig) ts (i + t.bytes.length) i
      (if skip = true then r else r ++ (script.drop last).take (i - last)) ((script.drop i).take sig.length == sig) hd (by omega)
    simp only at this
    rw [this, h]
    have hp : ((scriptOf (t :: ts)).take sig.length == sig) = true ↔ sig <+: scriptOf (t :: ts) := by
      rw [beq_iff_eq, List.prefix_iff_eq_take]; exact eq_comm
    have ht : (scriptOf (t :: ts)).take (i + t.bytes.length - i) = t.bytes := by
      rw [Nat.add_sub_cancel_left, e, List.take_left']; rfl
    by_cases hsig : sig <+: scriptOf (t :: ts)
    · rw [if_pos (hp.mpr hsig), if_pos hsig]
      cases skip <;> simp
    · rw [if_neg (fun h => hsig (hp.mp h)), if_neg hsig, ht]
      cases skip <;> simp

theorem findAndDelete_any (s sig : Bytes) : ∃ ts bad, WFToks ts ∧ s = scriptOf ts ++ bad ∧
    (∀ (t : Tok) (r : Bytes), t.Ok → bad ≠ t.bytes ++ r) ∧
    findAndDelete s sig = if bad = [] then .ok (keepOps sig ts) else .error .scriptInvalid := by
  obtain ⟨ts, bad, h1, h2, h3, h4⟩ := rawIter_any s
  refine ⟨ts, bad, h1, h2, h3, ?_⟩
  simp only [findAndDelete, h4]
  by_cases hb : bad = []
  · simp only [hb, if_true]
    subst hb
    have := findAndDelete_loop (script := s) (sig := sig) ts 0 0 [] true (by simpa using h2) (Nat.le_refl _)
    simp only at this
    rw [this]; simp
  · simp only [hb, if_false]

theorem prefix_tok {t u : Tok} {r : Bytes} (ht : t.Ok) (hu : u.Ok) : u.bytes <+: t.bytes ++ r ↔ u = t := by
  constructor
  · rintro ⟨r', h⟩
    exact (tok_append_inj hu ht h).1
  · rintro rfl
    exact ⟨r, rfl⟩

theorem keepOps_tok {u : Tok} (hu : u.Ok) : ∀ {ts : List Tok}, WFToks ts → keepOps u.bytes ts = scriptOf (ts.filter fun t => t ≠ u)
  | [], _ => rfl
  | t :: ts, h => by
    have ih := keepOps_tok hu (ts := ts) (fun x hx => h x (by simp [hx]))
    have e : scriptOf (t :: ts) = t.bytes ++ scriptOf ts := rfl
    rw [keepOps, ih, e]
    by_cases htu : t = u
    · rw [if_pos ((prefix_tok (h t (by simp)) hu).mpr htu.symm)]; simp [htu]
    · rw [if_neg (fun hh => htu ((prefix_tok (h t (by simp)) hu).mp hh).symm)]; simp [htu, scriptOf]

theorem Deleted.det {b : Bytes} (hb : b ≠ []) {s r r' : Bytes} (h : Deleted b s r) : Deleted b s r' → r = r' := by
  induction h generalizing r' with
  | erase _ ih =>
    rename_i s r _
    intro h'
    generalize hx : b ++ s = x at h'
    cases h' with
    | erase h2 => exact ih (by rw [List.append_cancel_left hx]; exact h2)
    | keep hn => exact absurd ⟨s, hx⟩ hn
    | stop hn => exact absurd ⟨s, hx⟩ hn
  | keep hn ht _ ih =>
    rename_i t s r _
    intro h'
    generalize hx : t.bytes ++ s = x at h'
    cases h' with
    | erase h2 => exact absurd ⟨_, hx.symm⟩ hn
    | keep hn' ht' h2 =>
      obtain ⟨rfl, rfl⟩ := tok_append_inj ht ht' hx
      rw [ih h2]
    | stop hn' hs => exact absurd hx.symm (hs _ _ ht)
  | stop hn hs =>
    rename_i s
    intro h'
    generalize hx : s = x at h'
    cases h' with
    | erase h2 => exact absurd ⟨_, hx.symm⟩ hn
    | keep hn' ht' h2 => exact absurd hx (hs _ _ ht')
    | stop => rfl

theorem Deleted.filter {u : Tok} (hu : u.Ok) : ∀ {ts : List Tok}, WFToks ts → Deleted u.bytes (scriptOf ts) (scriptOf (ts.filter fun t => t ≠ u))
  | [], _ => by
    have hp := u.bytes_length_pos
    refine Deleted.stop ?_ ?_
    · rintro ⟨r, h⟩
      have : u.bytes = [] := (List.append_eq_nil_iff.mp h).1
      simp [this] at hp
    · intro t r _ h
      have hp := t.bytes_length_pos
      have : t.bytes = [] := (List.append_eq_nil_iff.mp h.symm).1
      simp [this] at hp
  | t :: ts, h => by
    have ih := Deleted.filter hu (ts := ts) (fun x hx => h x (by simp [hx]))
    have e : scriptOf (t :: ts) = t.bytes ++ scriptOf ts := rfl
    rw [e]
    by_cases htu : t = u
    · subst htu
      simpa using Deleted.erase ih
    · have := Deleted.keep (fun hh => htu ((prefix_tok (h t (by simp)) hu).mp hh).symm) (h t (by simp)) ih
      simpa [htu, scriptOf] using this

/-! ## Signature checks -/

theorem opcode_eq {t : Tok} (h : t.Ok) {b : Byte} (hb : 0x4e < b.toNat) : t.opcode = b ↔ t = .op b := by
  rcases t with o | ⟨e, d⟩
  · simp [Tok.opcode]
  · have := opcode_push h
    constructor
    · intro h; rw [h] at this; omega
    · intro h; cases h

/-- The opcode before the first one. -/
def lastOp (before : Option Tok) : Byte := (before.map Tok.opcode).getD 0xff#8

theorem sigOp_step (accurate : Bool) (before : Option Tok) (hbf : ∀ t, before = some t → t.Ok) (t : Tok) (h : t.Ok) (n i : Nat) (os : List RawOp) :
    sigOpLoop accurate n (lastOp before) (⟨t.opcode, t.data, i⟩ :: os) =
      if accurate = true ∧ (t = .op 0xae#8 ∨ t = .op 0xaf#8) ∧ (∃ o, before = some (.op o) ∧ 0x51 ≤ o.toNat ∧ o.toNat ≤ 0x60) then .error .attributeError
      else sigOpLoop accurate (n + sigOps accurate before t) t.opcode os := by
  have hlast : (0x51 ≤ (lastOp before).toNat ∧ (lastOp before).toNat ≤ 0x60) ↔ ∃ o, before = some (.op o) ∧ 0x51 ≤ o.toNat ∧ o.toNat ≤ 0x60 := by
    rcases before with _ | t'
    · simp [lastOp]
    · have ht' := hbf t' rfl
      rcases t' with o | ⟨e, d⟩
      · simp [lastOp, Tok.opcode]
      · have := opcode_push ht'
        simp [lastOp]
        omega
  simp only [sigOpLoop, OP_CHECKSIG, OP_CHECKSIGVERIFY, OP_CHECKMULTISIG, OP_CHECKMULTISIGVERIFY, opcode_eq h (b := 0xac#8) (by decide),
    opcode_eq h (b := 0xad#8) (by decide), opcode_eq h (b := 0xae#8) (by decide), opcode_eq h (b := 0xaf#8) (by decide), hlast]
  by_cases h1 : t = .op 0xac#8 ∨ t = .op 0xad#8
  · rw [if_pos h1, if_neg]
    · simp only [sigOps, if_pos h1]
    · rintro ⟨-, h2, -⟩
      rcases h1 with rfl | rfl <;> simp at h2
  · rw [if_neg h1]
    by_cases h2 : t = .op 0xae#8 ∨ t = .op 0xaf#8
    · rw [if_pos h2]
      by_cases h3 : accurate = true ∧ ∃ o, before = some (.op o) ∧ 0x51 ≤ o.toNat ∧ o.toNat ≤ 0x60
      · rw [if_pos h3, if_pos ⟨h3.1, h2, h3.2⟩]
      · rw [if_neg h3, if_neg (fun h => h3 ⟨h.1, h.2.2⟩)]
        simp only [sigOps, if_neg h1, if_pos h2]
        congr 2
        split
        · next o => rw [if_neg (fun h => h3 ⟨h.1, o, rfl, h.2⟩)]
        · rfl
    · rw [if_neg h2, if_neg (fun h => h2 h.2.1)]
      simp only [sigOps, if_neg h1, if_neg h2, Nat.add_zero]

/-- `CountedMultisig`, with the operation before. -/
def CountedFrom (before : Option Tok) : List Tok → Prop
  | [] => False
  | t :: ts => ((t = .op 0xae#8 ∨ t = .op 0xaf#8) ∧ (∃ o, before = some (.op o) ∧ 0x51 ≤ o.toNat ∧ o.toNat ≤ 0x60)) ∨ CountedFrom (some t) ts

theorem countedFrom_iff : ∀ (ts : List Tok) (before : Option Tok), CountedFrom before ts ↔ CountedMultisig (before.toList ++ ts)
  | [], before => by
    simp only [CountedFrom, false_iff]
    rintro ⟨a, b, o, m, h, -⟩
    have := congrArg List.length h
    rcases before with _ | t <;> simp at this
    omega
  | t :: ts, before => by
    have ih := countedFrom_iff ts (some t)
    simp only [Option.toList_some, List.cons_append, List.nil_append] at ih
    rw [CountedFrom, ih]
    constructor
    · rintro (⟨h1, o, rfl, h2, h3⟩ | ⟨a, b, o, m, h, h'⟩)
      · rcases h1 with rfl | rfl
        · exact ⟨[], ts, o, _, rfl, h2, h3, .inl rfl⟩
        · exact ⟨[], ts, o, _, rfl, h2, h3, .inr rfl⟩
      · exact ⟨before.toList ++ a, b, o, m, by rw [h, List.append_assoc], h'⟩
    · rintro ⟨a, b, o, m, h, h2, h3, h4⟩
      rcases before with _ | t0
      · exact .inr ⟨a, b, o, m, by simpa using h, h2, h3, h4⟩
      · simp only [Option.toList_some, List.cons_append, List.nil_append] at h
        rcases a with _ | ⟨x, a⟩
        · simp only [List.nil_append, List.cons.injEq] at h
          obtain ⟨rfl, rfl, rfl⟩ := h
          refine .inl ⟨?_, o, rfl, h2, h3⟩
          rcases h4 with rfl | rfl <;> simp
        · simp only [List.cons_append, List.cons.injEq] at h
          exact .inr ⟨a, b, o, m, h.2, h2, h3, h4⟩

theorem sigOpLoop_eq (accurate : Bool) : ∀ (ts : List Tok) (before : Option Tok), (∀ t, before = some t → t.Ok) → WFToks ts → ∀ n i,
    (accurate = true ∧ CountedFrom before ts → sigOpLoop accurate n (lastOp before) (located i ts) = .error .attributeError) ∧
    (¬ (accurate = true ∧ CountedFrom before ts) → sigOpLoop accurate n (lastOp before) (located i ts) = .ok (n + sigOpSum accurate before ts))
  | [], before, _, _, n, i => ⟨fun h => h.2.elim, fun _ => rfl⟩
  | t :: ts, before, hbf, hwf, n, i => by
    have ht := hwf t (by simp)
    obtain ⟨ih1, ih2⟩ := sigOpLoop_eq accurate ts (some t) (by rintro _ ⟨⟩; exact ht) (fun x hx => hwf x (by simp [hx])) (n + sigOps accurate before t) (i + t.bytes.length)
    rw [located, sigOp_step accurate before hbf t ht]
    rw [show t.opcode = lastOp (some t) from rfl, CountedFrom]
    constructor
    · rintro ⟨ha, h | h⟩
      · rw [if_pos ⟨ha, h⟩]
      · split
        · rfl
        · exact ih1 ⟨ha, h⟩
    · intro h
      rw [if_neg (fun hh => h ⟨hh.1, .inl hh.2⟩), ih2 (fun hh => h ⟨hh.1, .inr hh.2⟩), sigOpSum, Nat.add_assoc]

end Verif.Btc
