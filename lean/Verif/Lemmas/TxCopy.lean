import Verif.Lemmas.TxHeap
import Verif.Lemmas.SigHash
/-!
# Copies of transactions as objects, and edits of them
-/
namespace Verif.Btc.Objs
open Verif

/-! ## Copies -/

section
variable {h : Heap} {a : Addr}

theorem copyOutPoint_run {x : COutPoint} (s : ShowsPrev h a x) :
    (∃ e, mutOutPoint x = .error e ∧ copyOutPoint a h = (.error e, h)) ∨
    (mutOutPoint x = .ok x ∧ copyOutPoint a h = (.ok h.length, h ++ [.outpoint true x.hash x.n])) := by
  obtain ⟨m, hc⟩ := s
  have e : copyOutPoint a h = newOutPoint true x.hash x.n h := by
    unfold copyOutPoint
    rw [TH.bind_ok (cell_some hc)]
  rw [e]
  unfold mutOutPoint newOutPoint
  cases hn : COutPoint.new x.hash x.n with
  | error e => exact .inl ⟨e, rfl, by rw [TH.bind_error (by rw [TH.lift_run])]⟩
  | ok y =>
    have hy : y = x := by
      unfold COutPoint.new at hn
      split at hn
      · cases hn
      · split at hn
        · cases hn
        · cases hn; rfl
    subst hy
    exact .inr ⟨rfl, by rw [TH.bind_ok (TH.lift_run _ _)]; rfl⟩

theorem copyIn_run {x : CTxIn} (s : ShowsIn h a x) :
    (∃ e h', mutTxIn x = .error e ∧ copyIn a h = (.error e, h') ∧ Kept h h') ∨
    (mutTxIn x = .ok x ∧ copyIn a h = (.ok (h.length + 1), h ++ [.outpoint true x.prevout.hash x.prevout.n, .txin true h.length x.scriptSig x.nSequence])) := by
  obtain ⟨m, p, hc, hp⟩ := s
  have e : copyIn a h = (copyOutPoint p >>= fun p' => newTxIn true p' x.scriptSig x.nSequence) h := by
    unfold copyIn
    rw [TH.bind_ok (cell_some hc)]
  rw [e]
  unfold mutTxIn
  rcases copyOutPoint_run hp with ⟨e, h1, h2⟩ | ⟨h1, h2⟩
  · exact .inl ⟨e, h, by rw [h1]; rfl, by rw [TH.bind_error h2], Kept.refl h⟩
  · rw [h1, TH.bind_ok h2, Except.bind_ok]
    unfold CTxIn.new newTxIn
    by_cases hq : 0 ≤ x.nSequence ∧ x.nSequence ≤ 0xffffffff
    · rw [if_neg (not_not.mpr hq), if_pos hq]
      refine .inr ⟨rfl, ?_⟩
      unfold alloc
      simp
    · rw [if_pos hq, if_neg hq]
      exact .inl ⟨_, _, rfl, rfl, Kept.append _ _⟩

theorem copyOut_run {x : CTxOut} (s : ShowsOut h a x) : copyOut a h = (.ok h.length, h ++ [.txout true x.nValue x.scriptPubKey]) := by
  obtain ⟨m, hc⟩ := s
  unfold copyOut
  rw [TH.bind_ok (cell_some hc)]
  rfl

theorem ShowsIn.kept {h h' : Heap} (k : Kept h h') {a x} (s : ShowsIn h a x) : ShowsIn h' a x := by
  obtain ⟨m, p, h1, m', h2⟩ := s
  exact ⟨m, p, k _ _ h1, m', k _ _ h2⟩

theorem ShowsOut.kept {h h' : Heap} (k : Kept h h') {a x} (s : ShowsOut h a x) : ShowsOut h' a x := by
  obtain ⟨m, h1⟩ := s
  exact ⟨m, k _ _ h1⟩

/-- The inputs at `ps` are new objects with the content `xs`. -/
structure NewIns (h0 h : Heap) (ps : List (Addr × Addr)) (xs : List CTxIn) : Prop where
  len : ps.length = xs.length
  ins : ∀ (i : Nat) (p : Addr × Addr) (x : CTxIn), ps[i]? = some p → xs[i]? = some x →
    h[p.1]? = some (.txin true p.2 x.scriptSig x.nSequence) ∧ h[p.2]? = some (.outpoint true x.prevout.hash x.prevout.n)
  nodupIn : (ps.map Prod.fst).Nodup
  nodupPrev : (ps.map Prod.snd).Nodup
  news : ∀ p ∈ ps, h0.length ≤ p.1 ∧ h0.length ≤ p.2

theorem copyIns_run : ∀ {as : List Addr} {xs : List CTxIn} {h : Heap}, List.Forall₂ (ShowsIn h) as xs →
    (∃ e h', xs.mapM mutTxIn = .error e ∧ TH.each copyIn as h = (.error e, h') ∧ Kept h h') ∨
    (xs.mapM mutTxIn = .ok xs ∧ ∃ ps h', TH.each copyIn as h = (.ok (ps.map Prod.fst), h') ∧ Kept h h' ∧ NewIns h h' ps xs)
  | [], [], h, _ => .inr ⟨rfl, [], h, rfl, Kept.refl h, ⟨rfl, by simp, by simp, by simp, by simp⟩⟩
  | a :: as, x :: xs, h, .cons s ss => by
    have e : TH.each copyIn (a :: as) h = (copyIn a >>= fun y => TH.each copyIn as >>= fun ys => pure (y :: ys)) h := rfl
    rw [e, List.mapM_cons]
    rcases copyIn_run s with ⟨e, h', h1, h2, h3⟩ | ⟨h1, h2⟩
    · exact .inl ⟨e, h', by rw [h1]; rfl, by rw [TH.bind_error h2], h3⟩
    · rw [h1, TH.bind_ok h2, Except.bind_ok]
      have k := Kept.append h [.outpoint true x.prevout.hash x.prevout.n, .txin true h.length x.scriptSig x.nSequence]
      generalize hh : h ++ [.outpoint true x.prevout.hash x.prevout.n, .txin true h.length x.scriptSig x.nSequence] = h1 at k
      have hl : h1.length = h.length + 2 := by rw [← hh]; simp
      have c1 : h1[h.length]? = some (.outpoint true x.prevout.hash x.prevout.n) := by rw [← hh]; simp
      have c2 : h1[h.length + 1]? = some (.txin true h.length x.scriptSig x.nSequence) := by rw [← hh]; simp
      rcases copyIns_run (ss.imp fun _ _ => ShowsIn.kept k) with ⟨e, h', h3, h4, h5⟩ | ⟨h3, ps, h', h4, h5, w⟩
      · exact .inl ⟨e, h', by rw [h3]; rfl, by rw [TH.bind_error h4], k.trans h5⟩
      · rw [h3, TH.bind_ok h4]
        refine .inr ⟨rfl, (h.length + 1, h.length) :: ps, h', rfl, k.trans h5, ⟨by simpa using w.len, ?_, ?_, ?_, ?_⟩⟩
        · intro i p y hp hy
          cases i with
          | zero =>
            simp only [List.getElem?_cons_zero, Option.some.injEq] at hp hy
            subst hp hy
            exact ⟨h5 _ _ c2, h5 _ _ c1⟩
          | succ i => exact w.ins i p y (by simpa using hp) (by simpa using hy)
        · rw [List.map_cons, List.nodup_cons]
          refine ⟨not_mem_map fun p hp e => ?_, w.nodupIn⟩
          have := (w.news p hp).1
          omega
        · rw [List.map_cons, List.nodup_cons]
          refine ⟨not_mem_map fun p hp e => ?_, w.nodupPrev⟩
          have := (w.news p hp).2
          omega
        · intro p hp
          rcases List.mem_cons.mp hp with rfl | hp
          · exact ⟨by simp, by simp⟩
          · have := w.news p hp
            omega

/-- The outputs at `ps` are new objects with the content `xs`. -/
structure NewOuts (h0 h : Heap) (ps : List (Addr × Bool)) (xs : List CTxOut) : Prop where
  len : ps.length = xs.length
  outs : ∀ (i : Nat) (p : Addr × Bool) (x : CTxOut), ps[i]? = some p → xs[i]? = some x → h[p.1]? = some (.txout p.2 x.nValue x.scriptPubKey)
  nodup : (ps.map Prod.fst).Nodup
  news : ∀ p ∈ ps, h0.length ≤ p.1 ∧ p.2 = true

theorem copyOuts_run : ∀ {as : List Addr} {xs : List CTxOut} {h : Heap}, List.Forall₂ (ShowsOut h) as xs →
    xs.mapM mutTxOut = .ok xs ∧ ∃ ps h', TH.each copyOut as h = (.ok (ps.map Prod.fst), h') ∧ Kept h h' ∧ NewOuts h h' ps xs
  | [], [], h, _ => ⟨rfl, [], h, rfl, Kept.refl h, ⟨rfl, by simp, by simp, by simp⟩⟩
  | a :: as, x :: xs, h, .cons s ss => by
    have e : TH.each copyOut (a :: as) h = (copyOut a >>= fun y => TH.each copyOut as >>= fun ys => pure (y :: ys)) h := rfl
    rw [e, List.mapM_cons, TH.bind_ok (copyOut_run s)]
    have k := Kept.append h [.txout true x.nValue x.scriptPubKey]
    have hl : (h ++ [.txout true x.nValue x.scriptPubKey] : Heap).length = h.length + 1 := by simp
    obtain ⟨h3, ps, h', h4, h5, w⟩ := copyOuts_run (ss.imp fun _ _ => ShowsOut.kept k)
    have h1 : mutTxOut x = .ok x := rfl
    rw [h1, Except.bind_ok, h3, TH.bind_ok h4]
    refine ⟨rfl, (h.length, true) :: ps, h', rfl, k.trans h5, ⟨by simpa using w.len, ?_, ?_, ?_⟩⟩
    · intro i p y hp hy
      cases i with
      | zero =>
        simp only [List.getElem?_cons_zero, Option.some.injEq] at hp hy
        subst hp hy
        exact h5 _ _ (new_append _)
      | succ i => exact w.outs i p y (by simpa using hp) (by simpa using hy)
    · rw [List.map_cons, List.nodup_cons]
      refine ⟨not_mem_map fun p hp e => ?_, w.nodup⟩
      have := (w.news p hp).1
      simp only at e
      omega
    · intro p hp
      rcases List.mem_cons.mp hp with rfl | hp
      · exact ⟨by simp, rfl⟩
      · have := w.news p hp
        exact ⟨by omega, this.2⟩

/-- `CMutableTransaction.from_tx`: nothing of the copy is shared, neither with other objects nor within the copy. -/
theorem copyTx_run {t : CTransaction} (s : Shows h a t) :
    (∃ e h', mutTx t = .error e ∧ copyTx a h = (.error e, h') ∧ Kept h h') ∨
    (mutTx t = .ok t ∧ ∃ b L h', copyTx a h = (.ok b, h') ∧ Own h h' b L t ∧ ∀ p ∈ L.outs, p.2 = true) := by
  obtain ⟨m, i, o, c, h1, ⟨b1, is, h2, h3⟩, b2, os, h4, h5⟩ := s
  have e : copyTx a h = (items i >>= fun xs => TH.each copyIn xs >>= fun is => alloc (.seq true is) >>= fun i' => items o >>= fun ys =>
      TH.each copyOut ys >>= fun os => alloc (.seq true os) >>= fun o' => newMutTx i' o' t.nLockTime t.nVersion) h := by
    unfold copyTx
    rw [TH.bind_ok (cell_some h1)]
  rw [e, TH.bind_ok (items_seq h2)]
  unfold mutTx
  rcases copyIns_run h3 with ⟨e, h', h6, h7, h8⟩ | ⟨h6, ps, ha, h7, h8, w⟩
  · exact .inl ⟨e, h', by rw [h6]; rfl, by rw [TH.bind_error h7], h8⟩
  · rw [h6, TH.bind_ok h7, Except.bind_ok, TH.bind_ok (show alloc (.seq true (ps.map Prod.fst)) ha = (.ok ha.length, ha ++ [.seq true (ps.map Prod.fst)]) from rfl)]
    have k1 := Kept.append ha [.seq true (ps.map Prod.fst)]
    have g1 := new_append (h := ha) (.seq true (ps.map Prod.fst))
    have l1 : (ha ++ [.seq true (ps.map Prod.fst)] : Heap).length = ha.length + 1 := by simp
    generalize ha ++ [.seq true (ps.map Prod.fst)] = hb at k1 g1 l1
    have k2 : Kept h hb := h8.trans k1
    rw [TH.bind_ok (items_seq (k2 _ _ h4))]
    obtain ⟨h9, qs, hc, h10, h11, v⟩ := copyOuts_run (h5.imp fun _ _ => ShowsOut.kept k2)
    rw [h9, TH.bind_ok h10, Except.bind_ok, TH.bind_ok (show alloc (.seq true (qs.map Prod.fst)) hc = (.ok hc.length, hc ++ [.seq true (qs.map Prod.fst)]) from rfl)]
    have k3 := Kept.append hc [.seq true (qs.map Prod.fst)]
    have g2 := new_append (h := hc) (.seq true (qs.map Prod.fst))
    have l2 : (hc ++ [.seq true (qs.map Prod.fst)] : Heap).length = hc.length + 1 := by simp
    generalize hc ++ [.seq true (qs.map Prod.fst)] = hd at k3 g2 l2
    have k4 : Kept hb hd := h11.trans k3
    unfold CTransaction.new newMutTx
    by_cases hq : 0 ≤ t.nLockTime ∧ t.nLockTime ≤ 0xffffffff
    · rw [if_neg (not_not.mpr hq), if_pos hq]
      have k5 := Kept.append hd [.tx true t.nVersion ha.length hc.length t.nLockTime none]
      have b1 := h8.length
      have b2 := h11.length
      refine .inr ⟨rfl, hd.length, ⟨ha.length, hc.length, ps, qs⟩, _, rfl, ?_, fun p hp => (v.news p hp).2⟩
      exact {
        kept := (k2.trans k4).trans k5
        tx := ⟨none, new_append _⟩
        vin := k5 _ _ (k4 _ _ g1)
        vout := k5 _ _ g2
        lenIn := w.len
        lenOut := v.len
        ins := fun j p y hp hy => ⟨k5 _ _ (k4 _ _ (k1 _ _ (w.ins j p y hp hy).1)), k5 _ _ (k4 _ _ (k1 _ _ (w.ins j p y hp hy).2))⟩
        outs := fun j p y hp hy => k5 _ _ (k3 _ _ (v.outs j p y hp hy))
        lists := by show ha.length ≠ hc.length; omega
        nodupIn := w.nodupIn
        nodupPrev := w.nodupPrev
        nodupOut := v.nodup
        newTx := by show h.length ≤ hd.length; omega
        newVin := by show h.length ≤ ha.length; omega
        newVout := by show h.length ≤ hc.length; omega
        newIns := w.news
        newOuts := fun p hp => by have := (v.news p hp).1; omega }
    · rw [if_pos hq, if_neg hq]
      exact .inl ⟨_, _, rfl, rfl, k2.trans k4⟩
end

/-! ## Edits -/

theorem pyGetItem_place {α : Type} (xs : List α) (i : Int) :
    (place xs.length i = none ∧ pyGetItem xs i = .error .indexError) ∨ ∃ j x, place xs.length i = some j ∧ xs[j]? = some x ∧ pyGetItem xs i = .ok x := by
  unfold place pyGetItem
  by_cases h0 : i < 0
  · simp only [if_pos h0]
    rw [if_neg (by omega)]
    by_cases h1 : i + xs.length < 0
    · rw [if_neg (by omega), if_pos h1]
      exact .inl ⟨rfl, rfl⟩
    · rw [if_pos (by omega), if_neg h1]
      have : (i + xs.length).toNat < xs.length := by omega
      refine .inr ⟨_, xs[(i + xs.length).toNat], rfl, by simp, by simp [this]⟩
  · simp only [if_neg h0]
    by_cases h1 : i < xs.length
    · rw [if_pos (by omega)]
      have : i.toNat < xs.length := by omega
      refine .inr ⟨_, xs[i.toNat], rfl, by simp, by simp [this]⟩
    · rw [if_neg (by omega), if_neg (by omega)]
      refine .inl ⟨rfl, ?_⟩
      have : xs[i.toNat]? = none := by
        rw [List.getElem?_eq_none_iff]
        omega
      rw [this]

theorem changeAt_pySetItem {α : Type} (xs : List α) (i : Int) (f : α → α) : pySetItem xs i f = changeAt xs i f := by
  unfold pySetItem changeAt
  rcases pyGetItem_place xs i with ⟨h1, h2⟩ | ⟨j, x, h1, h2, h3⟩
  · rw [h1, h2]
    rfl
  · rw [h1, h3]
    have : (if i < 0 then i + (xs.length : Int) else i).toNat = j := by
      unfold place at h1
      split at h1
      · cases h1
        rw [if_neg (by omega)]
      · split at h1
        · cases h1
          rw [if_pos (by omega)]
        · cases h1
    rw [Except.bind_ok, this]
    rfl

section
variable {h0 h : Heap} {a : Addr} {L : Lay} {t : CTransaction}

theorem Own.vinOf (w : Own h0 h a L t) : Objs.vinOf a h = (.ok L.vin, h) := by
  obtain ⟨c, hc⟩ := w.tx
  exact vinOf_tx hc

theorem Own.voutOf (w : Own h0 h a L t) : Objs.voutOf a h = (.ok L.vout, h) := by
  obtain ⟨c, hc⟩ := w.tx
  exact voutOf_tx hc

/-- `tx.vin[i]`. -/
theorem Own.inAt (w : Own h0 h a L t) (i : Int) :
    (place t.vin.length i = none ∧ itemAt L.vin i h = (.error .indexError, h)) ∨
    ∃ j p x, place t.vin.length i = some j ∧ L.ins[j]? = some p ∧ t.vin[j]? = some x ∧ itemAt L.vin i h = (.ok p.1, h) := by
  unfold itemAt
  rw [TH.bind_ok (items_seq w.vin), TH.lift_run]
  have hl : (L.ins.map Prod.fst).length = t.vin.length := by simpa using w.lenIn
  rcases pyGetItem_place (L.ins.map Prod.fst) i with ⟨h1, h2⟩ | ⟨j, x, h1, h2, h3⟩
  · rw [hl] at h1
    exact .inl ⟨h1, by rw [h2]⟩
  · rw [hl] at h1
    rw [List.getElem?_map] at h2
    obtain ⟨p, hp, rfl⟩ := Option.map_eq_some_iff.mp h2
    have hj : j < t.vin.length := by
      have := (List.getElem?_eq_some_iff.mp hp).1
      rw [w.lenIn] at this
      exact this
    exact .inr ⟨j, p, t.vin[j], h1, hp, by simp, by rw [h3]⟩

/-- `tx.vout[i]`. -/
theorem Own.outAt (w : Own h0 h a L t) (i : Int) :
    (place t.vout.length i = none ∧ itemAt L.vout i h = (.error .indexError, h)) ∨
    ∃ j p x, place t.vout.length i = some j ∧ L.outs[j]? = some p ∧ t.vout[j]? = some x ∧ itemAt L.vout i h = (.ok p.1, h) := by
  unfold itemAt
  rw [TH.bind_ok (items_seq w.vout), TH.lift_run]
  have hl : (L.outs.map Prod.fst).length = t.vout.length := by simpa using w.lenOut
  rcases pyGetItem_place (L.outs.map Prod.fst) i with ⟨h1, h2⟩ | ⟨j, x, h1, h2, h3⟩
  · rw [hl] at h1
    exact .inl ⟨h1, by rw [h2]⟩
  · rw [hl] at h1
    rw [List.getElem?_map] at h2
    obtain ⟨p, hp, rfl⟩ := Option.map_eq_some_iff.mp h2
    have hj : j < t.vout.length := by
      have := (List.getElem?_eq_some_iff.mp hp).1
      rw [w.lenOut] at this
      exact this
    exact .inr ⟨j, p, t.vout[j], h1, hp, by simp, by rw [h3]⟩

theorem Own.runScriptSig (w : Own h0 h a L t) {i : Nat} {p : Addr × Addr} (hp : L.ins[i]? = some p) (s : Bytes) :
    ∃ h', setScriptSig p.1 s h = (.ok (), h') ∧ Own h0 h' a L { t with vin := t.vin.modify i fun x => { x with scriptSig := s } } := by
  have hi : i < t.vin.length := by rw [← w.lenIn]; exact (List.getElem?_eq_some_iff.mp hp).1
  have hx : t.vin[i]? = some t.vin[i] := by simp
  refine ⟨h.set p.1 (.txin true p.2 s t.vin[i].nSequence), ?_, ?_⟩
  · unfold setScriptSig
    rw [TH.bind_ok (cell_some (w.ins i p _ hp hx).1)]
    rfl
  · exact w.setIn hp hx (fun x => { x with scriptSig := s }) rfl

theorem Own.runSequence (w : Own h0 h a L t) {i : Nat} {p : Addr × Addr} (hp : L.ins[i]? = some p) (q : Int) :
    ∃ h', setSequence p.1 q h = (.ok (), h') ∧ Own h0 h' a L { t with vin := t.vin.modify i fun x => { x with nSequence := q } } := by
  have hi : i < t.vin.length := by rw [← w.lenIn]; exact (List.getElem?_eq_some_iff.mp hp).1
  have hx : t.vin[i]? = some t.vin[i] := by simp
  refine ⟨h.set p.1 (.txin true p.2 t.vin[i].scriptSig q), ?_, ?_⟩
  · unfold setSequence
    rw [TH.bind_ok (cell_some (w.ins i p _ hp hx).1)]
    rfl
  · exact w.setIn hp hx (fun x => { x with nSequence := q }) rfl

theorem Own.clearVin (w : Own h0 h a L t) : ∃ h', (Objs.alloc (.seq true []) >>= fun l => setVin a l) h = (.ok (), h') ∧
    Own h0 h' a { L with vin := h.length, ins := [] } { t with vin := [] } := by
  have w' := w.alloc (.seq true [])
  obtain ⟨c, hc⟩ := w'.tx
  refine ⟨(h ++ [Cell.seq true []]).set a (.tx true t.nVersion h.length L.vout t.nLockTime c), ?_, ?_⟩
  · rw [TH.bind_ok (show Objs.alloc (.seq true []) h = (.ok h.length, h ++ [.seq true []]) from rfl)]
    unfold setVin
    rw [TH.bind_ok (cell_some hc)]
    rfl
  · refine w'.setVinTo (ps := []) (xs := []) (new_append _) w.kept.length ?_ rfl (by simp) (by simp) (by simp) (by simp) c
    have := lt_of w.vout
    exact Nat.ne_of_gt this

theorem Own.clearVout (w : Own h0 h a L t) : ∃ h', (Objs.alloc (.seq true []) >>= fun l => setVout a l) h = (.ok (), h') ∧
    Own h0 h' a { L with vout := h.length, outs := [] } { t with vout := [] } ∧ ∀ (b : Addr) m v s, h[b]? = some (.txout m v s) → h'[b]? = some (.txout m v s) := by
  have w' := w.alloc (.seq true [])
  obtain ⟨c, hc⟩ := w'.tx
  refine ⟨(h ++ [Cell.seq true []]).set a (.tx true t.nVersion L.vin h.length t.nLockTime c), ?_, ?_, ?_⟩
  · rw [TH.bind_ok (show Objs.alloc (.seq true []) h = (.ok h.length, h ++ [.seq true []]) from rfl)]
    unfold setVout
    rw [TH.bind_ok (cell_some hc)]
    rfl
  · refine w'.setVoutTo (ps := []) (xs := []) (new_append _) w.kept.length ?_ rfl (by simp) (by simp) (by simp) c
    have := lt_of w.vin
    exact Nat.ne_of_gt this
  · intro b m v s hd
    rw [set_other]
    · exact old_append hd
    · rintro rfl
      rw [old_append hd] at hc
      cases hc

theorem Own.appendIn (w : Own h0 h a L t) {p : Addr × Addr} {x : CTxIn} (h1 : h[p.1]? = some (.txin true p.2 x.scriptSig x.nSequence))
    (h2 : h[p.2]? = some (.outpoint true x.prevout.hash x.prevout.n)) (h3 : p.1 ∉ L.ins.map Prod.fst) (h4 : p.2 ∉ L.ins.map Prod.snd)
    (h5 : h0.length ≤ p.1 ∧ h0.length ≤ p.2) :
    ∃ h', (Objs.vinOf a >>= fun l => append l p.1) h = (.ok (), h') ∧ Own h0 h' a { L with ins := L.ins ++ [p] } { t with vin := t.vin ++ [x] } := by
  refine ⟨_, ?_, w.pushIn h1 h2 h3 h4 h5⟩
  rw [TH.bind_ok w.vinOf]
  unfold append
  rw [TH.bind_ok (cell_some w.vin), List.map_append]
  rfl

theorem Own.appendOut (w : Own h0 h a L t) {p : Addr × Bool} {x : CTxOut} (h1 : h[p.1]? = some (.txout p.2 x.nValue x.scriptPubKey))
    (h3 : p.1 ∉ L.outs.map Prod.fst) (h5 : h0.length ≤ p.1) :
    ∃ h', (Objs.voutOf a >>= fun l => append l p.1) h = (.ok (), h') ∧ Own h0 h' a { L with outs := L.outs ++ [p] } { t with vout := t.vout ++ [x] } ∧
      ∀ (b : Addr) m v s, h[b]? = some (.txout m v s) → h'[b]? = some (.txout m v s) := by
  refine ⟨h.set L.vout (.seq true ((L.outs ++ [p]).map Prod.fst)), ?_, w.pushOut h1 h3 h5, ?_⟩
  · rw [TH.bind_ok w.voutOf]
    unfold append
    rw [TH.bind_ok (cell_some w.vout), List.map_append]
    rfl
  · intro b m v s hb
    rw [set_other]
    · exact hb
    · rintro rfl
      rw [w.vout] at hb
      cases hb

/-- Edits do what they do to the content, and change nothing that was there before the copy. -/
theorem Own.edit (w : Own h0 h a L t) (hm : ∀ p ∈ L.outs, p.2 = true) (e : Edit) :
    (∃ err h', e.apply t = .error err ∧ e.run a h = (.error err, h') ∧ Kept h0 h') ∨
    ∃ t' L' h', e.apply t = .ok t' ∧ e.run a h = (.ok (), h') ∧ Own h0 h' a L' t' ∧ ∀ p ∈ L'.outs, p.2 = true := by
  obtain ⟨c, hc⟩ := w.tx
  cases e with
  | version v =>
    refine .inr ⟨_, L, _, rfl, ?_, w.setTx v t.nLockTime c, hm⟩
    show setVersion a v h = _
    unfold setVersion
    rw [TH.bind_ok (cell_some hc)]
    rfl
  | lockTime v =>
    refine .inr ⟨_, L, _, rfl, ?_, w.setTx t.nVersion v c, hm⟩
    show setLockTime a v h = _
    unfold setLockTime
    rw [TH.bind_ok (cell_some hc)]
    rfl
  | scriptSig i v =>
    show (∃ err h', (changeAt t.vin i _).map _ = .error err ∧ (Objs.vinOf a >>= fun l => itemAt l i >>= fun x => setScriptSig x v) h = _ ∧ _) ∨
      ∃ t' L' h', (changeAt t.vin i _).map _ = .ok t' ∧ (Objs.vinOf a >>= fun l => itemAt l i >>= fun x => setScriptSig x v) h = _ ∧ _
    rw [TH.bind_ok w.vinOf]
    unfold changeAt
    rcases w.inAt i with ⟨h1, h2⟩ | ⟨j, p, x, h1, h2, h3, h4⟩
    · rw [h1, TH.bind_error h2]
      exact .inl ⟨_, _, rfl, rfl, w.kept⟩
    · rw [h1, TH.bind_ok h4]
      obtain ⟨h', h5, h6⟩ := w.runScriptSig h2 v
      exact .inr ⟨_, L, h', rfl, h5, h6, hm⟩
  | sequence i v =>
    show (∃ err h', (changeAt t.vin i _).map _ = .error err ∧ (Objs.vinOf a >>= fun l => itemAt l i >>= fun x => setSequence x v) h = _ ∧ _) ∨
      ∃ t' L' h', (changeAt t.vin i _).map _ = .ok t' ∧ (Objs.vinOf a >>= fun l => itemAt l i >>= fun x => setSequence x v) h = _ ∧ _
    rw [TH.bind_ok w.vinOf]
    unfold changeAt
    rcases w.inAt i with ⟨h1, h2⟩ | ⟨j, p, x, h1, h2, h3, h4⟩
    · rw [h1, TH.bind_error h2]
      exact .inl ⟨_, _, rfl, rfl, w.kept⟩
    · rw [h1, TH.bind_ok h4]
      obtain ⟨h', h5, h6⟩ := w.runSequence h2 v
      exact .inr ⟨_, L, h', rfl, h5, h6, hm⟩
  | prevHash i v =>
    show (∃ err h', (changeAt t.vin i _).map _ = .error err ∧ (Objs.vinOf a >>= fun l => itemAt l i >>= fun x => prevoutOf x >>= fun p => setHash p v) h = _ ∧ _) ∨
      ∃ t' L' h', (changeAt t.vin i _).map _ = .ok t' ∧ (Objs.vinOf a >>= fun l => itemAt l i >>= fun x => prevoutOf x >>= fun p => setHash p v) h = _ ∧ _
    rw [TH.bind_ok w.vinOf]
    unfold changeAt
    rcases w.inAt i with ⟨h1, h2⟩ | ⟨j, p, x, h1, h2, h3, h4⟩
    · rw [h1, TH.bind_error h2]
      exact .inl ⟨_, _, rfl, rfl, w.kept⟩
    · rw [h1, TH.bind_ok h4, TH.bind_ok (prevoutOf_in (w.ins j p x h2 h3).1)]
      have := w.setPrev h2 h3 (fun x => { x with prevout := { x.prevout with hash := v } }) ⟨rfl, rfl⟩
      refine .inr ⟨_, L, _, rfl, ?_, this, hm⟩
      unfold setHash
      rw [TH.bind_ok (cell_some (w.ins j p x h2 h3).2)]
      rfl
  | prevN i v =>
    show (∃ err h', (changeAt t.vin i _).map _ = .error err ∧ (Objs.vinOf a >>= fun l => itemAt l i >>= fun x => prevoutOf x >>= fun p => setN p v) h = _ ∧ _) ∨
      ∃ t' L' h', (changeAt t.vin i _).map _ = .ok t' ∧ (Objs.vinOf a >>= fun l => itemAt l i >>= fun x => prevoutOf x >>= fun p => setN p v) h = _ ∧ _
    rw [TH.bind_ok w.vinOf]
    unfold changeAt
    rcases w.inAt i with ⟨h1, h2⟩ | ⟨j, p, x, h1, h2, h3, h4⟩
    · rw [h1, TH.bind_error h2]
      exact .inl ⟨_, _, rfl, rfl, w.kept⟩
    · rw [h1, TH.bind_ok h4, TH.bind_ok (prevoutOf_in (w.ins j p x h2 h3).1)]
      have := w.setPrev h2 h3 (fun x => { x with prevout := { x.prevout with n := v } }) ⟨rfl, rfl⟩
      refine .inr ⟨_, L, _, rfl, ?_, this, hm⟩
      unfold setN
      rw [TH.bind_ok (cell_some (w.ins j p x h2 h3).2)]
      rfl
  | value i v =>
    show (∃ err h', (changeAt t.vout i _).map _ = .error err ∧ (Objs.voutOf a >>= fun l => itemAt l i >>= fun x => setValue x v) h = _ ∧ _) ∨
      ∃ t' L' h', (changeAt t.vout i _).map _ = .ok t' ∧ (Objs.voutOf a >>= fun l => itemAt l i >>= fun x => setValue x v) h = _ ∧ _
    rw [TH.bind_ok w.voutOf]
    unfold changeAt
    rcases w.outAt i with ⟨h1, h2⟩ | ⟨j, p, x, h1, h2, h3, h4⟩
    · rw [h1, TH.bind_error h2]
      exact .inl ⟨_, _, rfl, rfl, w.kept⟩
    · rw [h1, TH.bind_ok h4]
      have := w.setOut h2 h3 fun x => { x with nValue := v }
      refine .inr ⟨_, L, _, rfl, ?_, this, hm⟩
      have ho := w.outs j p x h2 h3
      rw [hm p (List.mem_of_getElem? h2)] at ho ⊢
      unfold setValue
      rw [TH.bind_ok (cell_some ho)]
      rfl
  | scriptPubKey i v =>
    show (∃ err h', (changeAt t.vout i _).map _ = .error err ∧ (Objs.voutOf a >>= fun l => itemAt l i >>= fun x => setScriptPubKey x v) h = _ ∧ _) ∨
      ∃ t' L' h', (changeAt t.vout i _).map _ = .ok t' ∧ (Objs.voutOf a >>= fun l => itemAt l i >>= fun x => setScriptPubKey x v) h = _ ∧ _
    rw [TH.bind_ok w.voutOf]
    unfold changeAt
    rcases w.outAt i with ⟨h1, h2⟩ | ⟨j, p, x, h1, h2, h3, h4⟩
    · rw [h1, TH.bind_error h2]
      exact .inl ⟨_, _, rfl, rfl, w.kept⟩
    · rw [h1, TH.bind_ok h4]
      have := w.setOut h2 h3 fun x => { x with scriptPubKey := v }
      refine .inr ⟨_, L, _, rfl, ?_, this, hm⟩
      have ho := w.outs j p x h2 h3
      rw [hm p (List.mem_of_getElem? h2)] at ho ⊢
      unfold setScriptPubKey
      rw [TH.bind_ok (cell_some ho)]
      rfl
  | clearIns =>
    obtain ⟨h', h1, h2⟩ := w.clearVin
    exact .inr ⟨_, _, h', rfl, h1, h2, hm⟩
  | clearOuts =>
    obtain ⟨h', h1, h2, _⟩ := w.clearVout
    exact .inr ⟨_, _, h', rfl, h1, h2, by simp⟩
  | addIn p s q =>
    have er : Edit.run a (.addIn p s q) h = (newOutPoint true p.hash p.n >>= fun o => newTxIn true o s q >>= fun x => Objs.vinOf a >>= fun l => append l x) h := rfl
    have ea : Edit.apply t (.addIn p s q) = if p.hash.length = 32 ∧ (0 ≤ p.n ∧ p.n ≤ 0xffffffff) ∧ (0 ≤ q ∧ q ≤ 0xffffffff) then
      .ok { t with vin := t.vin ++ [⟨p, s, q⟩] } else .error .valueError := rfl
    rw [er, ea]
    have e1 : newOutPoint true p.hash p.n h = if p.hash.length = 32 ∧ 0 ≤ p.n ∧ p.n ≤ 0xffffffff then (.ok h.length, h ++ [.outpoint true p.hash p.n]) else (.error .valueError, h) := by
      unfold newOutPoint COutPoint.new
      by_cases g1 : p.hash.length = 32
      · by_cases g2 : 0 ≤ p.n ∧ p.n ≤ 0xffffffff
        · rw [if_neg (not_not.mpr g1), if_neg (not_not.mpr g2), if_pos ⟨g1, g2⟩]
          rfl
        · rw [if_neg (not_not.mpr g1), if_pos g2, if_neg (fun g => g2 g.2)]
          rfl
      · rw [if_pos g1, if_neg (fun g => g1 g.1)]
        rfl
    by_cases g1 : p.hash.length = 32 ∧ 0 ≤ p.n ∧ p.n ≤ 0xffffffff
    · rw [if_pos g1] at e1
      rw [TH.bind_ok e1]
      unfold newTxIn
      by_cases g2 : 0 ≤ q ∧ q ≤ 0xffffffff
      · rw [if_pos g2, if_pos ⟨g1.1, g1.2, g2⟩]
        have w1 := w.alloc (.outpoint true p.hash p.n)
        have g3 := new_append (h := h) (.outpoint true p.hash p.n)
        have l3 : (h ++ [.outpoint true p.hash p.n] : Heap).length = h.length + 1 := by simp
        have b3 : ∀ p ∈ L.ins, p.1 < h.length ∧ p.2 < h.length := by
          intro r hr
          obtain ⟨j, hj⟩ := List.getElem?_of_mem hr
          have hjl : j < t.vin.length := by rw [← w.lenIn]; exact (List.getElem?_eq_some_iff.mp hj).1
          have := w.ins j r t.vin[j] hj (by simp)
          exact ⟨lt_of this.1, lt_of this.2⟩
        generalize h ++ [.outpoint true p.hash p.n] = h1 at w1 g3 l3
        rw [TH.bind_ok (show Objs.alloc (.txin true h.length s q) h1 = (.ok h1.length, h1 ++ [.txin true h.length s q]) from rfl)]
        have w2 := w1.alloc (.txin true h.length s q)
        have k := w.kept.length
        obtain ⟨h', h5, h6⟩ := w2.appendIn (p := (h1.length, h.length)) (x := ⟨p, s, q⟩) (new_append _) (old_append g3)
          (not_mem_map fun r hr e => by have := (b3 r hr).1; simp only at e; omega) (not_mem_map fun r hr e => by have := (b3 r hr).2; simp only at e; omega)
          ⟨by simp only; omega, k⟩
        exact .inr ⟨_, _, h', rfl, h5, h6, hm⟩
      · rw [if_neg g2, if_neg (fun g => g2 g.2.2), TH.bind_error (show TH.raise .valueError _ = _ from rfl)]
        exact .inl ⟨_, _, rfl, rfl, w.kept.trans (Kept.append _ _)⟩
    · rw [if_neg g1] at e1
      rw [TH.bind_error e1, if_neg (fun g => g1 ⟨g.1, g.2.1⟩)]
      exact .inl ⟨_, _, rfl, rfl, w.kept⟩
  | addOut v s =>
    have w1 := w.alloc (.txout true v s)
    have b3 : ∀ p ∈ L.outs, p.1 < h.length := by
      intro r hr
      obtain ⟨j, hj⟩ := List.getElem?_of_mem hr
      have hjl : j < t.vout.length := by rw [← w.lenOut]; exact (List.getElem?_eq_some_iff.mp hj).1
      exact lt_of (w.outs j r t.vout[j] hj (by simp))
    obtain ⟨h', h5, h6, _⟩ := w1.appendOut (p := (h.length, true)) (x := ⟨v, s⟩) (new_append _)
      (not_mem_map fun r hr e => by have := b3 r hr; simp only at e; omega) w.kept.length
    refine .inr ⟨_, _, h', rfl, ?_, h6, ?_⟩
    · show (newTxOut true v s >>= fun x => Objs.voutOf a >>= fun l => append l x) h = _
      rw [TH.bind_ok (show newTxOut true v s h = (.ok h.length, h ++ [.txout true v s]) from rfl)]
      exact h5
    · intro r hr
      rcases List.mem_append.mp hr with hr | hr
      · exact hm r hr
      · rw [List.mem_singleton] at hr
        subst hr
        rfl
end

end Verif.Btc.Objs
