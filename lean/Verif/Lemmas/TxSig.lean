import Verif.Lemmas.TxCopy
/-!
# Signature hashes of transactions as objects
-/
namespace Verif.Btc.Objs
open Verif

section
variable {h : Heap} {a : Addr}

theorem readIn_run {x : CTxIn} (s : ShowsIn h a x) : readIn a h = (.ok x, h) := by
  obtain ⟨m, p, h1, m', h2⟩ := s
  have e : readOutPoint p h = (.ok x.prevout, h) := by
    unfold readOutPoint
    rw [TH.bind_ok (cell_some h2)]
    rfl
  have e2 : readIn a h = (readOutPoint p >>= fun y => pure ⟨y, x.scriptSig, x.nSequence⟩) h := by
    unfold readIn
    rw [TH.bind_ok (cell_some h1)]
  rw [e2, TH.bind_ok e]
  rfl

theorem readOut_run {x : CTxOut} (s : ShowsOut h a x) : readOut a h = (.ok x, h) := by
  obtain ⟨m, h1⟩ := s
  unfold readOut
  rw [TH.bind_ok (cell_some h1)]
  rfl

theorem each_read {α : Type} {R : Addr → α → Prop} {f : Addr → TH α} (hf : ∀ b x, R b x → f b h = (.ok x, h)) : ∀ {bs : List Addr} {xs : List α},
    List.Forall₂ R bs xs → TH.each f bs h = (.ok xs, h)
  | [], [], _ => rfl
  | b :: bs, x :: xs, .cons s ss => by
    have e : TH.each f (b :: bs) h = (f b >>= fun y => TH.each f bs >>= fun ys => pure (y :: ys)) h := rfl
    rw [e, TH.bind_ok (hf b x s), TH.bind_ok (each_read hf ss)]
    rfl

theorem readTx_run {t : CTransaction} (s : Shows h a t) : readTx a h = (.ok t, h) := by
  obtain ⟨m, i, o, c, h1, ⟨b1, is, h2, h3⟩, b2, os, h4, h5⟩ := s
  have e : readTx a h = (items i >>= fun xs => TH.each readIn xs >>= fun is => items o >>= fun ys => TH.each readOut ys >>= fun os =>
      pure ⟨t.nVersion, is, os, t.nLockTime⟩) h := by
    unfold readTx
    rw [TH.bind_ok (cell_some h1)]
  rw [e, TH.bind_ok (items_seq h2), TH.bind_ok (each_read (f := readIn) (fun _ _ => readIn_run) h3), TH.bind_ok (items_seq h4), TH.bind_ok (each_read (f := readOut) (fun _ _ => readOut_run) h5)]
  rfl

theorem serialize_run {t : CTransaction} (s : Shows h a t) : serialize a h = (t.ser, h) := by
  unfold serialize
  rw [TH.bind_ok (readTx_run s)]
  rfl
end

section
variable {h0 h : Heap} {a : Addr} {L : Lay} {t : CTransaction}

/-- A loop over the inputs. -/
theorem Own.loop {ι : Type} {f : ι → TH Unit} {g : Nat → CTxIn → CTxIn} : ∀ {js : List ι} {k : Nat} {h : Heap} {t : CTransaction},
    (∀ i j, js[i]? = some j → ∀ h t, Own h0 h a L t → k + i < t.vin.length → ∃ h', f j h = (.ok (), h') ∧ Own h0 h' a L { t with vin := t.vin.modify (k + i) (g (k + i)) }) →
    k + js.length = t.vin.length → Own h0 h a L t →
    ∃ h', TH.loop f js h = (.ok (), h') ∧ Own h0 h' a L { t with vin := t.vin.mapIdx fun i x => if k ≤ i then g i x else x }
  | [], k, h, t, _, hl, w => by
    refine ⟨h, rfl, ?_⟩
    have : t.vin.mapIdx (fun i x => if k ≤ i then g i x else x) = t.vin := by
      apply List.ext_getElem?
      intro i
      rw [List.getElem?_mapIdx]
      by_cases hi : i < t.vin.length
      · have : ¬ k ≤ i := by simp only [List.length_nil] at hl; omega
        simp [hi, this]
      · simp [hi]
    rw [this]
    exact w
  | j :: js, k, h, t, hf, hl, w => by
    simp only [List.length_cons] at hl
    obtain ⟨h1, e1, w1⟩ := hf 0 j rfl h t w (by omega)
    obtain ⟨h2, e2, w2⟩ := Own.loop (js := js) (k := k + 1) (g := g) (t := { t with vin := t.vin.modify (k + 0) (g (k + 0)) })
      (fun i j hj h t w hi => by
        have := hf (i + 1) j (by simpa using hj) h t w (by omega)
        rwa [show k + (i + 1) = k + 1 + i by omega] at this)
      (by simp only [List.length_modify]; omega) w1
    refine ⟨h2, ?_, ?_⟩
    · show (f j >>= fun _ => TH.loop f js) h = _
      rw [TH.bind_ok e1]
      exact e2
    · have : t.vin.mapIdx (fun i x => if k ≤ i then g i x else x) =
          (t.vin.modify (k + 0) (g (k + 0))).mapIdx (fun i x => if k + 1 ≤ i then g i x else x) := by
        apply List.ext_getElem?
        intro i
        rw [List.getElem?_mapIdx, List.getElem?_mapIdx, List.getElem?_modify]
        cases t.vin[i]? with
        | none => rfl
        | some x =>
          simp only [Option.map_eq_map, Option.map_some, Nat.add_zero]
          by_cases hi : k = i
          · subst hi
            rw [if_pos (Nat.le_refl k), if_neg (by omega), if_pos rfl]
          · by_cases hk : k ≤ i
            · rw [if_pos hk, if_neg hi, if_pos (by omega)]
            · rw [if_neg hk, if_neg hi, if_neg (by omega)]
      rw [this]
      exact w2

theorem mapIdx_true {α : Type} (xs : List α) (g : Nat → α → α) : xs.mapIdx (fun i x => if 0 ≤ i then g i x else x) = xs.mapIdx g := by
  simp

theorem mapIdx_const {α : Type} (xs : List α) (f : α → α) : xs.mapIdx (fun _ x => f x) = xs.map f := by
  apply List.ext_getElem?
  intro i
  simp

theorem Own.blank (w : Own h0 h a L t) : ∃ h', TH.loop (fun x => setScriptSig x []) (L.ins.map Prod.fst) h = (.ok (), h') ∧
    Own h0 h' a L { t with vin := t.vin.map fun i => { i with scriptSig := [] } } := by
  obtain ⟨h', e, w'⟩ := Own.loop (f := fun x => setScriptSig x []) (g := fun _ x => { x with scriptSig := [] }) (js := L.ins.map Prod.fst) (k := 0)
    (fun i j hj h t w hi => by
      rw [List.getElem?_map] at hj
      obtain ⟨p, hp, rfl⟩ := Option.map_eq_some_iff.mp hj
      rw [Nat.zero_add]
      exact w.runScriptSig hp [])
    (by simpa using w.lenIn) w
  refine ⟨h', e, ?_⟩
  rw [mapIdx_true, mapIdx_const] at w'
  exact w'

theorem Own.zero (w : Own h0 h a L t) (n : Int) : ∃ h', zeroSeqs a n h = (.ok (), h') ∧ Own h0 h' a L { t with vin := zeroSequences t.vin n } := by
  have e : zeroSeqs a n h = (Objs.vinOf a >>= fun l => items l >>= fun xs => TH.loop (fun (i : Nat) =>
      if (i : Int) ≠ n then (Objs.vinOf a >>= fun l => itemAt l i >>= fun x => setSequence x 0) else TH.pure ()) (List.range xs.length)) h := rfl
  rw [e, TH.bind_ok w.vinOf, TH.bind_ok (items_seq w.vin)]
  obtain ⟨h', e, w'⟩ := Own.loop (f := fun (i : Nat) => if (i : Int) ≠ n then (Objs.vinOf a >>= fun l => itemAt l i >>= fun x => setSequence x 0) else TH.pure ())
    (g := fun i x => if (i : Int) ≠ n then { x with nSequence := 0 } else x) (js := List.range (L.ins.map Prod.fst).length) (k := 0)
    (fun i j hj h t w hi => by
      rw [Nat.zero_add] at hi ⊢
      obtain ⟨hj1, hj2⟩ := List.getElem?_eq_some_iff.mp hj
      rw [List.getElem_range] at hj2
      subst hj2
      by_cases hn : (i : Int) ≠ n
      · rw [if_pos hn, TH.bind_ok w.vinOf]
        rcases w.inAt i with ⟨h1, h2⟩ | ⟨j, p, x, h1, h2, h3, h4⟩
        · unfold place at h1
          rw [if_pos (by omega)] at h1
          cases h1
        · have : j = i := by
            unfold place at h1
            rw [if_pos (by omega)] at h1
            cases h1
            simp
          subst this
          rw [TH.bind_ok h4]
          simp only [if_pos hn]
          exact w.runSequence h2 0
      · rw [if_neg hn]
        refine ⟨h, rfl, ?_⟩
        simp only [if_neg hn]
        have : t.vin.modify i (fun x => x) = t.vin := List.modify_id _ _
        rw [this]
        exact w)
    (by simpa using w.lenIn) w
  refine ⟨h', e, ?_⟩
  rw [mapIdx_true] at w'
  exact w'

/-- The end of `rawSignatureHash`. -/
def pureFinish (H : HashFns) (t : CTransaction) (inIdx hashtype : Int) : Py (Bytes × Bool) := do
  let vin ← (if hashtype / 128 % 2 ≠ 0 then do
      let tmp ← pyGetItem t.vin inIdx
      return [tmp]
     else pure t.vin)
  let s ← (CTransaction.mk t.nVersion vin t.vout t.nLockTime).ser
  let u ← packU 4 hashtype
  return (H.hash256 (s ++ u), false)

theorem Own.finish (w : Own h0 h a L t) (H : HashFns) (i ty : Int) : ∃ h', sigFinish H a i ty h = (pureFinish H t i ty, h') ∧ Kept h0 h' := by
  have last : ∀ {h L t}, Own h0 h a L t → (serialize a >>= fun s => TH.lift (packU 4 ty) >>= fun u => pure (H.hash256 (s ++ u), false)) h =
      ((t.ser >>= fun s => packU 4 ty >>= fun u => pure (H.hash256 (s ++ u), false)), h) := by
    intro h L t w
    have e := serialize_run w.shows
    cases hs : t.ser with
    | error e' => rw [hs] at e; rw [TH.bind_error e]; rfl
    | ok b =>
      rw [hs] at e
      rw [TH.bind_ok e]
      cases hp : packU 4 ty with
      | error e' => rw [TH.bind_error (TH.lift_run _ _)]; rfl
      | ok u => rw [TH.bind_ok (TH.lift_run _ _)]; rfl
  unfold pureFinish
  by_cases hc : ty / 128 % 2 ≠ 0
  · have e : sigFinish H a i ty h = (Objs.vinOf a >>= fun l => itemAt l i >>= fun tmp => Objs.alloc (.seq true []) >>= fun l => setVin a l >>= fun _ =>
        Objs.vinOf a >>= fun l => append l tmp >>= fun _ => serialize a >>= fun s => TH.lift (packU 4 ty) >>= fun u => pure (H.hash256 (s ++ u), false)) h := by
      unfold sigFinish
      rw [if_pos hc]
    rw [e, if_pos hc, TH.bind_ok w.vinOf]
    rcases w.inAt i with ⟨h1, h2⟩ | ⟨j, p, x, h1, h2, h3, h4⟩
    · rw [TH.bind_error h2]
      refine ⟨h, ?_, w.kept⟩
      rcases pyGetItem_place t.vin i with ⟨_, g⟩ | ⟨j, x, g, _⟩
      · rw [g]
        rfl
      · rw [h1] at g
        cases g
    · rw [TH.bind_ok h4]
      have hg : pyGetItem t.vin i = .ok x := by
        rcases pyGetItem_place t.vin i with ⟨g, _⟩ | ⟨j', x', g, g2, g3⟩
        · rw [h1] at g
          cases g
        · rw [h1] at g
          cases g
          rw [h3] at g2
          cases g2
          exact g3
      rw [hg]
      -- the new list
      have w' := w.alloc (.seq true [])
      obtain ⟨c, hcell⟩ := w'.tx
      have w2 := w'.setVinTo (l := h.length) (ps := []) (xs := []) (new_append _) w.kept.length (Nat.ne_of_gt (lt_of w.vout)) rfl (by simp) (by simp) (by simp) (by simp) c
      have e2 : (setVin a h.length) (h ++ [Cell.seq true []]) = (.ok (), (h ++ [Cell.seq true []]).set a (.tx true t.nVersion h.length L.vout t.nLockTime c)) := by
        unfold setVin
        rw [TH.bind_ok (cell_some hcell)]
        rfl
      rw [TH.bind_ok (show Objs.alloc (.seq true []) h = (.ok h.length, h ++ [.seq true []]) from rfl), TH.bind_ok e2]
      obtain ⟨q1, q2⟩ := w.ins j p x h2 h3
      have ne : ∀ {b : Addr} {d : Cell}, h[b]? = some d → (∀ m v i o l c, d ≠ .tx m v i o l c) →
          ((h ++ [Cell.seq true []]).set a (.tx true t.nVersion h.length L.vout t.nLockTime c))[b]? = some d := by
        intro b d hb hd
        rw [set_other]
        · exact old_append hb
        · rintro rfl
          rw [old_append hb] at hcell
          exact hd _ _ _ _ _ _ (Option.some.inj hcell)
      obtain ⟨h', e3, w3⟩ := w2.appendIn (p := p) (x := x) (ne q1 (by simp)) (ne q2 (by simp)) (by simp) (by simp) (w.newIns p (List.mem_of_getElem? h2))
      refine ⟨h', ?_, w3.kept⟩
      have e4 : ∀ (k : Unit → TH (Bytes × Bool)) (s : Heap), (Objs.vinOf a >>= fun l => append l p.1 >>= k) s = ((Objs.vinOf a >>= fun l => append l p.1) >>= k) s := by
        intro k s
        show TH.bind _ _ _ = TH.bind (TH.bind _ _) _ _
        unfold TH.bind
        cases Objs.vinOf a s with
        | mk r s1 => cases r <;> rfl
      rw [e4, TH.bind_ok e3, last w3]
      rfl
  · have e : sigFinish H a i ty h = (serialize a >>= fun s => TH.lift (packU 4 ty) >>= fun u => pure (H.hash256 (s ++ u), false)) h := by
      unfold sigFinish
      rw [if_neg hc]
    rw [e, if_neg hc, last w]
    exact ⟨h, rfl, w.kept⟩

/-- The blank outputs of `SIGHASH_SINGLE`. -/
theorem Own.blanks : ∀ {js : List Nat} {h : Heap} {L : Lay} {t : CTransaction}, Own h0 h a L t → ∃ h' L',
    TH.loop (fun (_ : Nat) => do
      let d ← newTxOut false (-1) []
      append (← Objs.voutOf a) d) js h = (.ok (), h') ∧ Own h0 h' a L' { t with vout := t.vout ++ List.replicate js.length ⟨-1, []⟩ } ∧
      (∀ p ∈ L'.outs, p ∈ L.outs ∨ h.length ≤ p.1) ∧ (∀ (b : Addr) m v s, h[b]? = some (.txout m v s) → h'[b]? = some (.txout m v s))
  | [], h, L, t, w => ⟨h, L, rfl, by simpa using w, fun p hp => .inl hp, fun _ _ _ _ e => e⟩
  | j :: js, h, L, t, w => by
    have w1 := w.alloc (.txout false (-1) [])
    have b3 : ∀ p ∈ L.outs, p.1 < h.length := by
      intro r hr
      obtain ⟨j, hj⟩ := List.getElem?_of_mem hr
      have hjl : j < t.vout.length := by rw [← w.lenOut]; exact (List.getElem?_eq_some_iff.mp hj).1
      exact lt_of (w.outs j r t.vout[j] hj (by simp))
    obtain ⟨h1, e1, w2, f1⟩ := w1.appendOut (p := (h.length, false)) (x := ⟨-1, []⟩) (new_append _)
      (not_mem_map fun r hr e => by have := b3 r hr; simp only at e; omega) w.kept.length
    obtain ⟨h2, L2, e2, w3, f2, f3⟩ := Own.blanks (js := js) w2
    have hlen : h.length ≤ h1.length := by
      have := lt_of (f1 h.length false (-1) [] (new_append _))
      omega
    refine ⟨h2, L2, ?_, ?_, ?_, ?_⟩
    · show ((newTxOut false (-1) [] >>= fun d => Objs.voutOf a >>= fun l => append l d) >>= fun _ => TH.loop _ js) h = _
      rw [TH.bind_ok (s' := h1) (a := ())]
      · exact e2
      · rw [TH.bind_ok (show newTxOut false (-1) [] h = (.ok h.length, h ++ [.txout false (-1) []]) from rfl)]
        exact e1
    · have : t.vout ++ List.replicate (j :: js).length ⟨-1, []⟩ = t.vout ++ [⟨-1, []⟩] ++ List.replicate js.length ⟨-1, []⟩ := by
        rw [List.length_cons, List.replicate_succ, List.append_assoc]
        rfl
      rw [this]
      exact w3
    · intro p hp
      rcases f2 p hp with hp | hp
      · rcases List.mem_append.mp hp with hp | hp
        · exact .inl hp
        · rw [List.mem_singleton] at hp
          subst hp
          exact .inr (Nat.le_refl _)
      · exact .inr (by omega)
    · intro b m v s hb
      exact f3 _ _ _ _ (f1 _ _ _ _ (old_append hb))
end

theorem Except.map_ok_iff {α β ε : Type} {f : α → β} {x : Except ε α} {b : β} (h : x.map f = .ok b) : ∃ a, x = .ok a ∧ f a = b := by
  cases x with
  | error e => cases h
  | ok a => exact ⟨a, rfl, Except.ok.inj h⟩

/-- `RawSignatureHash` gives what it gives for the content, and leaves all objects as they are. -/
theorem rawSigHash_run (H : HashFns) {h : Heap} {a : Addr} {t : CTransaction} (s : Shows h a t) (script : Bytes) (i ty : Int) :
    ∃ h', rawSigHash H script a i ty h = (rawSignatureHash H script t i ty, h') ∧ Kept h h' := by
  obtain ⟨m, vi, vo, c, h1, ⟨b1, is, h2, h3⟩, b2, os, h4, h5⟩ := id s
  have hl : is.length = t.vin.length := h3.length_eq
  unfold rawSigHash rawSignatureHash
  rw [TH.bind_ok (vinOf_tx h1), TH.bind_ok (items_seq h2), hl]
  by_cases hr : i ≥ t.vin.length
  · rw [if_pos hr, if_pos hr]
    exact ⟨h, rfl, Kept.refl h⟩
  · rw [if_neg hr, if_neg hr]
    rcases copyTx_run s with ⟨e, h', g1, g2, g3⟩ | ⟨g1, b, L, h', g2, w, _⟩
    · exact ⟨h', by rw [TH.bind_error g2, g1]; rfl, g3⟩
    rw [TH.bind_ok g2, g1, Except.bind_ok, TH.bind_ok w.vinOf, TH.bind_ok (items_seq w.vin)]
    obtain ⟨ha, e1, w1⟩ := w.blank
    rw [TH.bind_ok e1]
    simp only
    cases hsep : mkScript [.op OP_CODESEPARATOR] with
    | error e => exact ⟨ha, by rw [TH.bind_error (TH.lift_run _ _)]; rfl, w1.kept⟩
    | ok sep =>
    rw [TH.bind_ok (TH.lift_run _ _), Except.bind_ok]
    cases hcode : findAndDelete script sep with
    | error e => exact ⟨ha, by rw [TH.bind_error (TH.lift_run _ _)]; rfl, w1.kept⟩
    | ok code =>
    rw [TH.bind_ok (TH.lift_run _ _), Except.bind_ok, TH.bind_ok w1.vinOf, changeAt_pySetItem]
    unfold changeAt
    rcases w1.inAt i with ⟨g3, g4⟩ | ⟨j, p, x, g3, g4, g5, g6⟩
    · simp only at g3
      rw [TH.bind_error g4, g3]
      exact ⟨ha, rfl, w1.kept⟩
    simp only at g3
    rw [TH.bind_ok g6, g3, Except.bind_ok]
    obtain ⟨hb, e2, w2⟩ := w1.runScriptSig g4 code
    rw [TH.bind_ok e2]
    simp only at w2 ⊢
    generalize (List.map (fun i : CTxIn => { i with scriptSig := [] }) t.vin).modify j (fun x => { x with scriptSig := code }) = vin at w2 ⊢
    by_cases c2 : ty % 32 = 2
    · rw [if_pos c2, if_neg (by omega)]
      obtain ⟨hc, e3, w3, _⟩ := w2.clearVout
      have e3' : ∀ k : Unit → TH (Bytes × Bool), (alloc (.seq true []) >>= fun l => setVout b l >>= k) hb = k () hc := by
        intro k
        have : (alloc (.seq true []) >>= fun l => setVout b l >>= k) hb = ((alloc (.seq true []) >>= fun l => setVout b l) >>= k) hb := rfl
        rw [this, TH.bind_ok e3]
      rw [e3']
      obtain ⟨hd, e4, w4⟩ := w3.zero i
      rw [TH.bind_ok e4]
      obtain ⟨he, e5, k5⟩ := w4.finish H i ty
      refine ⟨he, ?_, k5⟩
      rw [e5, if_pos c2, if_pos (show ty % 32 = 2 ∨ ty % 32 = 3 from .inl c2)]
      rfl
    · rw [if_neg c2]
      by_cases c3 : ty % 32 = 3
      · rw [if_pos c3, TH.bind_ok w2.voutOf, TH.bind_ok (items_seq w2.vout)]
        have hol : (L.outs.map Prod.fst).length = t.vout.length := by simpa using w2.lenOut
        rw [hol]
        by_cases hr2 : i ≥ t.vout.length
        · rw [if_pos hr2, if_pos ⟨c3, hr2⟩]
          exact ⟨hb, rfl, w2.kept⟩
        rw [if_neg hr2, if_neg (fun g => hr2 g.2), if_neg c2, if_pos c3, TH.bind_ok w2.voutOf, if_pos (show ty % 32 = 2 ∨ ty % 32 = 3 from .inr c3)]
        rcases w2.outAt i with ⟨g7, g8⟩ | ⟨j2, p2, y, g7, g8, g9, g10⟩
        · rw [TH.bind_error g8]
          refine ⟨hb, ?_, w2.kept⟩
          rcases pyGetItem_place t.vout i with ⟨_, g⟩ | ⟨j, x, g, _⟩
          · rw [g]
            rfl
          · simp only at g7
            rw [g7] at g
            cases g
        rw [TH.bind_ok g10]
        have hg : pyGetItem t.vout i = .ok y := by
          simp only at g7 g9
          rcases pyGetItem_place t.vout i with ⟨g, _⟩ | ⟨j', x', g, g2, g3⟩
          · rw [g7] at g
            cases g
          · rw [g7] at g
            cases g
            rw [g9] at g2
            cases g2
            exact g3
        rw [hg]
        obtain ⟨hc, e3, w3, f3⟩ := w2.clearVout
        have e3' : ∀ k : Unit → TH (Bytes × Bool), (alloc (.seq true []) >>= fun l => setVout b l >>= k) hb = k () hc := by
          intro k
          have : (alloc (.seq true []) >>= fun l => setVout b l >>= k) hb = ((alloc (.seq true []) >>= fun l => setVout b l) >>= k) hb := rfl
          rw [this, TH.bind_ok e3]
        rw [e3']
        have hy := w2.outs j2 p2 y g8 g9
        obtain ⟨hd, L4, e4, w4, f4, f5⟩ := Own.blanks (js := List.range i.toNat) w3
        rw [TH.bind_ok e4]
        have hlt : p2.1 < hc.length := lt_of (f3 _ _ _ _ hy)
        obtain ⟨he, e5, w5, _⟩ := w4.appendOut (p := p2) (x := y) (f5 _ _ _ _ (f3 _ _ _ _ hy))
          (not_mem_map fun r hr e => by
            rcases f4 r hr with hr | hr
            · exact absurd hr (by simp)
            · omega) (w2.newOuts p2 (List.mem_of_getElem? g8))
        have e5' : ∀ k : Unit → TH (Bytes × Bool), (voutOf b >>= fun l => append l p2.1 >>= k) hd = k () he := by
          intro k
          have : (voutOf b >>= fun l => append l p2.1 >>= k) hd = ((voutOf b >>= fun l => append l p2.1) >>= k) hd := by
            rw [TH.bind_ok w4.voutOf, TH.bind_ok (x := voutOf b >>= fun l => append l p2.1) e5]
            rw [TH.bind_ok w4.voutOf] at e5
            rw [TH.bind_ok e5]
          rw [this, TH.bind_ok e5]
        rw [e5']
        obtain ⟨hf, e6, w6⟩ := w5.zero i
        rw [TH.bind_ok e6]
        obtain ⟨hg, e7, k7⟩ := w6.finish H i ty
        refine ⟨hg, ?_, k7⟩
        rw [e7]
        simp only [List.length_range, List.nil_append]
        rfl
      · rw [if_neg c3, if_neg (fun g => c3 g.1), if_neg c2, if_neg c3, if_neg (show ¬ (ty % 32 = 2 ∨ ty % 32 = 3) by omega)]
        obtain ⟨he, e5, k5⟩ := w2.finish H i ty
        refine ⟨he, ?_, k5⟩
        rw [e5]
        rfl

end Verif.Btc.Objs
