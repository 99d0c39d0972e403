import Verif.Spec.TxHeap
import Mathlib.Data.List.Forall2
/-!
# Lemmas about transactions as objects
-/
namespace Verif.Btc.Objs
open Verif

namespace TH
variable {α β : Type}
theorem bind_ok {x : TH α} {f : α → TH β} {s s' : Heap} {a : α} (h : x s = (.ok a, s')) : (x >>= f) s = f a s' := by
  show TH.bind x f s = _
  unfold TH.bind
  rw [h]

theorem bind_error {x : TH α} {f : α → TH β} {s s' : Heap} {e : PyErr} (h : x s = (.error e, s')) : (x >>= f) s = (.error e, s') := by
  show TH.bind x f s = _
  unfold TH.bind
  rw [h]

theorem pure_run (a : α) (s : Heap) : (Pure.pure a : TH α) s = (.ok a, s) := rfl
theorem lift_run (x : Py α) (s : Heap) : TH.lift x s = (x, s) := rfl
end TH

section
variable {h : Heap} {a : Addr}

theorem cell_some {c : Cell} (e : h[a]? = some c) : cell a h = (.ok c, h) := by
  unfold cell
  rw [e]

theorem items_seq {b : Bool} {xs : List Addr} (e : h[a]? = some (.seq b xs)) : items a h = (.ok xs, h) := by
  unfold items
  rw [TH.bind_ok (cell_some e)]
  rfl

theorem vinOf_tx {m v i o l c} (e : h[a]? = some (.tx m v i o l c)) : vinOf a h = (.ok i, h) := by
  unfold vinOf
  rw [TH.bind_ok (cell_some e)]
  rfl

theorem voutOf_tx {m v i o l c} (e : h[a]? = some (.tx m v i o l c)) : voutOf a h = (.ok o, h) := by
  unfold voutOf
  rw [TH.bind_ok (cell_some e)]
  rfl

theorem prevoutOf_in {m p s q} (e : h[a]? = some (.txin m p s q)) : prevoutOf a h = (.ok p, h) := by
  unfold prevoutOf
  rw [TH.bind_ok (cell_some e)]
  rfl

theorem lt_of {h : List Cell} {a : Nat} {c : Cell} (e : h[a]? = some c) : a < h.length := (List.getElem?_eq_some_iff.mp e).1

theorem old_append {c : Cell} {t : List Cell} (e : h[a]? = some c) : (h ++ t)[a]? = some c := by
  rw [List.getElem?_append_left (lt_of e)]
  exact e

theorem new_append (c : Cell) : (h ++ [c])[h.length]? = some c := by simp

theorem set_self {c c' : Cell} (e : h[a]? = some c) : (h.set a c')[a]? = some c' := by
  rw [List.getElem?_set_self (lt_of e)]

theorem set_other {b : Addr} {c : Cell} (n : a ≠ b) : (h.set a c)[b]? = h[b]? := List.getElem?_set_ne n

theorem Kept.refl (h : Heap) : Kept h h := fun _ _ e => e
theorem Kept.trans {h h' h'' : Heap} (e : Kept h h') (e' : Kept h' h'') : Kept h h'' := fun a c x => e' a c (e a c x)
theorem Kept.append (h t : Heap) : Kept h (h ++ t) := fun _ _ e => old_append e
theorem Kept.length {h h' : Heap} (e : Kept h h') : h.length ≤ h'.length := by
  cases hn : h.length with
  | zero => omega
  | succ n =>
    have h1 : h[n]? = some h[n] := by simp
    have := lt_of (e n _ h1)
    omega

/-- Objects that are new may be changed. -/
theorem Kept.set {h0 h : Heap} (e : Kept h0 h) (hb : h0.length ≤ a) (c : Cell) : Kept h0 (h.set a c) := by
  intro b d x
  have hlt : b < h0.length := lt_of x
  rw [set_other (Nat.ne_of_gt (Nat.lt_of_lt_of_le hlt hb))]
  exact e b d x

theorem Kept.shows {h h' : Heap} (e : Kept h h') {t : CTransaction} (s : Shows h a t) : Shows h' a t := by
  obtain ⟨m, i, o, c, h1, ⟨b1, is, h2, h3⟩, b2, os, h4, h5⟩ := s
  have key1 : ∀ {x y}, ShowsIn h x y → ShowsIn h' x y := by
    rintro x y ⟨m, p, h1, m', h2⟩
    exact ⟨m, p, e _ _ h1, m', e _ _ h2⟩
  have key2 : ∀ {x y}, ShowsOut h x y → ShowsOut h' x y := by
    rintro x y ⟨m, h1⟩
    exact ⟨m, e _ _ h1⟩
  refine ⟨m, i, o, c, e _ _ h1, ⟨b1, is, e _ _ h2, ?_⟩, b2, os, e _ _ h4, ?_⟩
  · exact h3.imp fun _ _ => key1
  · exact h5.imp fun _ _ => key2
end

/-! ## Transactions that share nothing -/

/-- Where the parts are. -/
structure Lay where
  vin : Addr
  vout : Addr
  ins : List (Addr × Addr)
  outs : List (Addr × Bool)

/-- A mutable transaction whose parts are all newer than `h0` and different from each other. -/
structure Own (h0 h : Heap) (a : Addr) (L : Lay) (t : CTransaction) : Prop where
  kept : Kept h0 h
  tx : ∃ c, h[a]? = some (.tx true t.nVersion L.vin L.vout t.nLockTime c)
  vin : h[L.vin]? = some (.seq true (L.ins.map Prod.fst))
  vout : h[L.vout]? = some (.seq true (L.outs.map Prod.fst))
  lenIn : L.ins.length = t.vin.length
  lenOut : L.outs.length = t.vout.length
  ins : ∀ (i : Nat) (p : Addr × Addr) (x : CTxIn), L.ins[i]? = some p → t.vin[i]? = some x → h[p.1]? = some (.txin true p.2 x.scriptSig x.nSequence) ∧ h[p.2]? = some (.outpoint true x.prevout.hash x.prevout.n)
  outs : ∀ (i : Nat) (p : Addr × Bool) (x : CTxOut), L.outs[i]? = some p → t.vout[i]? = some x → h[p.1]? = some (.txout p.2 x.nValue x.scriptPubKey)
  lists : L.vin ≠ L.vout
  nodupIn : (L.ins.map Prod.fst).Nodup
  nodupPrev : (L.ins.map Prod.snd).Nodup
  nodupOut : (L.outs.map Prod.fst).Nodup
  newTx : h0.length ≤ a
  newVin : h0.length ≤ L.vin
  newVout : h0.length ≤ L.vout
  newIns : ∀ p ∈ L.ins, h0.length ≤ p.1 ∧ h0.length ≤ p.2
  newOuts : ∀ p ∈ L.outs, h0.length ≤ p.1

theorem forall2_of {α β : Type} {R : α → β → Prop} : ∀ {xs : List α} {ys : List β}, xs.length = ys.length →
    (∀ (i : Nat) x y, xs[i]? = some x → ys[i]? = some y → R x y) → List.Forall₂ R xs ys
  | [], [], _, _ => .nil
  | x :: xs, y :: ys, hl, h => .cons (h 0 x y rfl rfl) (forall2_of (by simpa using hl) fun i a b ha hb => h (i + 1) a b (by simpa using ha) (by simpa using hb))

section
variable {h0 h : Heap} {a : Addr} {L : Lay} {t : CTransaction}

theorem Own.shows (w : Own h0 h a L t) : Shows h a t := by
  obtain ⟨c, hc⟩ := w.tx
  refine ⟨true, L.vin, L.vout, c, hc, ⟨true, _, w.vin, ?_⟩, true, _, w.vout, ?_⟩
  · refine forall2_of (by simpa using w.lenIn) fun i x y hx hy => ?_
    rw [List.getElem?_map] at hx
    obtain ⟨p, hp, rfl⟩ := Option.map_eq_some_iff.mp hx
    obtain ⟨h1, h2⟩ := w.ins i p y hp hy
    exact ⟨true, p.2, h1, true, h2⟩
  · refine forall2_of (by simpa using w.lenOut) fun i x y hx hy => ?_
    rw [List.getElem?_map] at hx
    obtain ⟨p, hp, rfl⟩ := Option.map_eq_some_iff.mp hx
    exact ⟨p.2, w.outs i p y hp hy⟩

theorem idx_inj {α β : Type} {f : α → β} {xs : List α} (hn : (xs.map f).Nodup) {i j : Nat} {x y : α} (hi : xs[i]? = some x) (hj : xs[j]? = some y) (e : f x = f y) : i = j := by
  have h1 : (xs.map f)[i]? = some (f x) := by rw [List.getElem?_map, hi]; rfl
  have h2 : (xs.map f)[j]? = some (f y) := by rw [List.getElem?_map, hj]; rfl
  exact (List.getElem?_inj (List.getElem?_eq_some_iff.mp h1).1 hn).mp (by rw [h1, h2, e])

/-- Assignments to an input. -/
theorem Own.setIn (w : Own h0 h a L t) {i : Nat} {p : Addr × Addr} {x : CTxIn} (hp : L.ins[i]? = some p) (hx : t.vin[i]? = some x) (f : CTxIn → CTxIn)
    (hf : (f x).prevout = x.prevout) : Own h0 (h.set p.1 (.txin true p.2 (f x).scriptSig (f x).nSequence)) a L { t with vin := t.vin.modify i f } := by
  obtain ⟨h1, h2⟩ := w.ins i p x hp hx
  have ne : ∀ {b : Addr} {c : Cell}, h[b]? = some c → (∀ m p s q, c ≠ .txin m p s q) → (h.set p.1 (.txin true p.2 (f x).scriptSig (f x).nSequence))[b]? = some c := by
    intro b c hb hc
    rw [set_other]
    · exact hb
    · rintro rfl
      rw [hb] at h1
      exact hc _ _ _ _ (Option.some.inj h1)
  refine { w with
    kept := w.kept.set (w.newIns p (List.mem_of_getElem? hp)).1 _, tx := ?_, vin := ne w.vin (by simp), vout := ne w.vout (by simp), lenIn := (by simpa using w.lenIn),
    ins := ?_, outs := ?_ }
  · obtain ⟨c, hc⟩ := w.tx
    exact ⟨c, ne hc (by simp)⟩
  · intro j p' y hp' hy
    simp only [List.getElem?_modify] at hy
    obtain ⟨z, hz, hy⟩ := Option.map_eq_some_iff.mp hy
    obtain ⟨h3, h4⟩ := w.ins j p' z hp' hz
    by_cases hij : i = j
    · subst hij
      rw [hp] at hp'
      cases hp'
      simp only [if_pos] at hy
      rw [hx] at hz
      cases hz
      subst hy
      rw [hf]
      exact ⟨set_self h1, ne h4 (by simp)⟩
    · rw [if_neg hij] at hy
      subst hy
      refine ⟨?_, ne h4 (by simp)⟩
      rw [set_other]
      · exact h3
      · exact fun e => hij (idx_inj w.nodupIn hp hp' e)
  · intro j p' y hp' hy
    exact ne (w.outs j p' y hp' hy) (by simp)

/-- Assignments to the outpoint of an input. -/
theorem Own.setPrev (w : Own h0 h a L t) {i : Nat} {p : Addr × Addr} {x : CTxIn} (hp : L.ins[i]? = some p) (hx : t.vin[i]? = some x) (f : CTxIn → CTxIn)
    (hf : (f x).scriptSig = x.scriptSig ∧ (f x).nSequence = x.nSequence) :
    Own h0 (h.set p.2 (.outpoint true (f x).prevout.hash (f x).prevout.n)) a L { t with vin := t.vin.modify i f } := by
  obtain ⟨h1, h2⟩ := w.ins i p x hp hx
  have ne : ∀ {b : Addr} {c : Cell}, h[b]? = some c → (∀ m s q, c ≠ .outpoint m s q) → (h.set p.2 (.outpoint true (f x).prevout.hash (f x).prevout.n))[b]? = some c := by
    intro b c hb hc
    rw [set_other]
    · exact hb
    · rintro rfl
      rw [hb] at h2
      exact hc _ _ _ (Option.some.inj h2)
  refine { w with
    kept := w.kept.set (w.newIns p (List.mem_of_getElem? hp)).2 _, tx := ?_, vin := ne w.vin (by simp), vout := ne w.vout (by simp), lenIn := (by simpa using w.lenIn),
    ins := ?_, outs := ?_ }
  · obtain ⟨c, hc⟩ := w.tx
    exact ⟨c, ne hc (by simp)⟩
  · intro j p' y hp' hy
    simp only [List.getElem?_modify] at hy
    obtain ⟨z, hz, hy⟩ := Option.map_eq_some_iff.mp hy
    obtain ⟨h3, h4⟩ := w.ins j p' z hp' hz
    by_cases hij : i = j
    · subst hij
      rw [hp] at hp'
      cases hp'
      simp only [if_pos] at hy
      rw [hx] at hz
      cases hz
      subst hy
      rw [hf.1, hf.2]
      exact ⟨ne h3 (by simp), set_self h2⟩
    · rw [if_neg hij] at hy
      subst hy
      refine ⟨ne h3 (by simp), ?_⟩
      rw [set_other]
      · exact h4
      · exact fun e => hij (idx_inj w.nodupPrev hp hp' e)
  · intro j p' y hp' hy
    exact ne (w.outs j p' y hp' hy) (by simp)

/-- Assignments to an output. -/
theorem Own.setOut (w : Own h0 h a L t) {i : Nat} {p : Addr × Bool} {x : CTxOut} (hp : L.outs[i]? = some p) (hx : t.vout[i]? = some x) (f : CTxOut → CTxOut) :
    Own h0 (h.set p.1 (.txout p.2 (f x).nValue (f x).scriptPubKey)) a L { t with vout := t.vout.modify i f } := by
  have h1 := w.outs i p x hp hx
  have ne : ∀ {b : Addr} {c : Cell}, h[b]? = some c → (∀ m s q, c ≠ .txout m s q) → (h.set p.1 (.txout p.2 (f x).nValue (f x).scriptPubKey))[b]? = some c := by
    intro b c hb hc
    rw [set_other]
    · exact hb
    · rintro rfl
      rw [hb] at h1
      exact hc _ _ _ (Option.some.inj h1)
  refine { w with
    kept := w.kept.set (w.newOuts p (List.mem_of_getElem? hp)) _, tx := ?_, vin := ne w.vin (by simp), vout := ne w.vout (by simp), lenOut := (by simpa using w.lenOut),
    ins := ?_, outs := ?_ }
  · obtain ⟨c, hc⟩ := w.tx
    exact ⟨c, ne hc (by simp)⟩
  · intro j p' y hp' hy
    obtain ⟨h3, h4⟩ := w.ins j p' y hp' hy
    exact ⟨ne h3 (by simp), ne h4 (by simp)⟩
  · intro j p' y hp' hy
    simp only [List.getElem?_modify] at hy
    obtain ⟨z, hz, hy⟩ := Option.map_eq_some_iff.mp hy
    have h3 := w.outs j p' z hp' hz
    by_cases hij : i = j
    · subst hij
      rw [hp] at hp'
      cases hp'
      simp only [if_pos] at hy
      rw [hx] at hz
      cases hz
      subst hy
      exact set_self h1
    · rw [if_neg hij] at hy
      subst hy
      rw [set_other]
      · exact h3
      · exact fun e => hij (idx_inj w.nodupOut hp hp' e)

/-- Assignments of numbers to the transaction. -/
theorem Own.setTx (w : Own h0 h a L t) (v l : Int) (c : Option Bytes) : Own h0 (h.set a (.tx true v L.vin L.vout l c)) a L { t with nVersion := v, nLockTime := l } := by
  obtain ⟨c0, h1⟩ := w.tx
  have ne : ∀ {b : Addr} {d : Cell}, h[b]? = some d → (∀ m v i o l c, d ≠ .tx m v i o l c) → (h.set a (.tx true v L.vin L.vout l c))[b]? = some d := by
    intro b c hb hc
    rw [set_other]
    · exact hb
    · rintro rfl
      rw [hb] at h1
      exact hc _ _ _ _ _ _ (Option.some.inj h1)
  exact { w with
    kept := w.kept.set w.newTx _, tx := ⟨c, set_self h1⟩, vin := ne w.vin (by simp), vout := ne w.vout (by simp),
    ins := fun j p y hp hy => ⟨ne (w.ins j p y hp hy).1 (by simp), ne (w.ins j p y hp hy).2 (by simp)⟩,
    outs := fun j p y hp hy => ne (w.outs j p y hp hy) (by simp) }

/-- More objects. -/
theorem Own.alloc (w : Own h0 h a L t) (c : Cell) : Own h0 (h ++ [c]) a L t := by
  obtain ⟨c0, h1⟩ := w.tx
  exact { w with
    kept := w.kept.trans (Kept.append _ _), tx := ⟨c0, old_append h1⟩, vin := old_append w.vin, vout := old_append w.vout,
    ins := fun j p y hp hy => ⟨old_append (w.ins j p y hp hy).1, old_append (w.ins j p y hp hy).2⟩,
    outs := fun j p y hp hy => old_append (w.outs j p y hp hy) }

/-- `tx.vin = […]` with a list of inputs it had. -/
theorem Own.setVinTo (w : Own h0 h a L t) {l : Addr} {ps : List (Addr × Addr)} {xs : List CTxIn} (hl : h[l]? = some (.seq true (ps.map Prod.fst))) (hn : h0.length ≤ l)
    (hv : l ≠ L.vout) (hlen : ps.length = xs.length) (hi : ∀ (i : Nat) p x, ps[i]? = some p → xs[i]? = some x →
      h[p.1]? = some (.txin true p.2 x.scriptSig x.nSequence) ∧ h[p.2]? = some (.outpoint true x.prevout.hash x.prevout.n))
    (h1 : (ps.map Prod.fst).Nodup) (h2 : (ps.map Prod.snd).Nodup) (h3 : ∀ p ∈ ps, h0.length ≤ p.1 ∧ h0.length ≤ p.2) (c : Option Bytes) :
    Own h0 (h.set a (.tx true t.nVersion l L.vout t.nLockTime c)) a { L with vin := l, ins := ps } { t with vin := xs } := by
  obtain ⟨c0, hc⟩ := w.tx
  have ne : ∀ {b : Addr} {d : Cell}, h[b]? = some d → (∀ m v i o l c, d ≠ .tx m v i o l c) → (h.set a (.tx true t.nVersion l L.vout t.nLockTime c))[b]? = some d := by
    intro b c hb hd
    rw [set_other]
    · exact hb
    · rintro rfl
      rw [hb] at hc
      exact hd _ _ _ _ _ _ (Option.some.inj hc)
  exact { w with
    kept := w.kept.set w.newTx _, tx := ⟨c, set_self hc⟩, vin := ne hl (by simp), vout := ne w.vout (by simp), lenIn := hlen,
    ins := fun j p y hp hy => ⟨ne (hi j p y hp hy).1 (by simp), ne (hi j p y hp hy).2 (by simp)⟩,
    outs := fun j p y hp hy => ne (w.outs j p y hp hy) (by simp), lists := hv, nodupIn := h1, nodupPrev := h2, newVin := hn, newIns := h3 }

/-- `tx.vout = […]` with a list of outputs it had. -/
theorem Own.setVoutTo (w : Own h0 h a L t) {l : Addr} {ps : List (Addr × Bool)} {xs : List CTxOut} (hl : h[l]? = some (.seq true (ps.map Prod.fst))) (hn : h0.length ≤ l)
    (hv : l ≠ L.vin) (hlen : ps.length = xs.length) (hi : ∀ (i : Nat) p x, ps[i]? = some p → xs[i]? = some x → h[p.1]? = some (.txout p.2 x.nValue x.scriptPubKey))
    (h1 : (ps.map Prod.fst).Nodup) (h3 : ∀ p ∈ ps, h0.length ≤ p.1) (c : Option Bytes) :
    Own h0 (h.set a (.tx true t.nVersion L.vin l t.nLockTime c)) a { L with vout := l, outs := ps } { t with vout := xs } := by
  obtain ⟨c0, hc⟩ := w.tx
  have ne : ∀ {b : Addr} {d : Cell}, h[b]? = some d → (∀ m v i o l c, d ≠ .tx m v i o l c) → (h.set a (.tx true t.nVersion L.vin l t.nLockTime c))[b]? = some d := by
    intro b c hb hd
    rw [set_other]
    · exact hb
    · rintro rfl
      rw [hb] at hc
      exact hd _ _ _ _ _ _ (Option.some.inj hc)
  exact { w with
    kept := w.kept.set w.newTx _, tx := ⟨c, set_self hc⟩, vin := ne w.vin (by simp), vout := ne hl (by simp), lenOut := hlen,
    ins := fun j p y hp hy => ⟨ne (w.ins j p y hp hy).1 (by simp), ne (w.ins j p y hp hy).2 (by simp)⟩,
    outs := fun j p y hp hy => ne (hi j p y hp hy) (by simp), lists := fun e => hv e.symm, nodupOut := h1, newVout := hn, newOuts := h3 }

theorem not_mem_map {α β : Type} {f : α → β} {xs : List α} {b : β} (h : ∀ x ∈ xs, f x ≠ b) : b ∉ xs.map f := by
  rintro hm
  obtain ⟨x, hx, e⟩ := List.mem_map.mp hm
  exact h x hx e

theorem nodup_snoc {α : Type} {xs : List α} {x : α} (h : xs.Nodup) (hx : x ∉ xs) : (xs ++ [x]).Nodup := by
  rw [List.nodup_append]
  refine ⟨h, by simp, ?_⟩
  rintro y hy z hz rfl
  rw [List.mem_singleton] at hz
  subst hz
  exact hx hy

/-- `tx.vin.append(x)` with an input that it does not have. -/
theorem Own.pushIn (w : Own h0 h a L t) {p : Addr × Addr} {x : CTxIn} (h1 : h[p.1]? = some (.txin true p.2 x.scriptSig x.nSequence))
    (h2 : h[p.2]? = some (.outpoint true x.prevout.hash x.prevout.n)) (h3 : p.1 ∉ L.ins.map Prod.fst) (h4 : p.2 ∉ L.ins.map Prod.snd)
    (h5 : h0.length ≤ p.1 ∧ h0.length ≤ p.2) :
    Own h0 (h.set L.vin (.seq true ((L.ins ++ [p]).map Prod.fst))) a { L with ins := L.ins ++ [p] } { t with vin := t.vin ++ [x] } := by
  have hv := w.vin
  have ne : ∀ {b : Addr} {d : Cell}, h[b]? = some d → (∀ m v, d ≠ .seq m v) → (h.set L.vin (.seq true ((L.ins ++ [p]).map Prod.fst)))[b]? = some d := by
    intro b c hb hd
    rw [set_other]
    · exact hb
    · rintro rfl
      rw [hb] at hv
      exact hd _ _ (Option.some.inj hv)
  obtain ⟨c0, hc⟩ := w.tx
  refine { w with
    kept := w.kept.set w.newVin _, tx := ⟨c0, ne hc (by simp)⟩, vin := set_self hv, vout := ?_, lenIn := (by simpa using w.lenIn), ins := ?_,
    outs := fun j p y hp hy => ne (w.outs j p y hp hy) (by simp), nodupIn := ?_, nodupPrev := ?_, newIns := ?_ }
  · rw [set_other w.lists]
    exact w.vout
  · intro j q y hq hy
    simp only at hq hy
    by_cases hj : j < L.ins.length
    · rw [List.getElem?_append_left hj] at hq
      rw [List.getElem?_append_left (by rw [← w.lenIn]; exact hj)] at hy
      exact ⟨ne (w.ins j q y hq hy).1 (by simp), ne (w.ins j q y hq hy).2 (by simp)⟩
    · rw [List.getElem?_append_right (by omega)] at hq
      rw [List.getElem?_append_right (by have := w.lenIn; omega)] at hy
      have e1 : j - L.ins.length = 0 := by
        have := (List.getElem?_eq_some_iff.mp hq).1
        simp only [List.length_singleton] at this
        omega
      rw [e1] at hq
      rw [← w.lenIn, e1] at hy
      simp only [List.getElem?_cons_zero, Option.some.injEq] at hq hy
      subst hq hy
      exact ⟨ne h1 (by simp), ne h2 (by simp)⟩
  · rw [List.map_append]
    exact nodup_snoc w.nodupIn h3
  · rw [List.map_append]
    exact nodup_snoc w.nodupPrev h4
  · intro q hq
    rcases List.mem_append.mp hq with hq | hq
    · exact w.newIns q hq
    · rw [List.mem_singleton] at hq
      subst hq
      exact h5

/-- `tx.vout.append(x)` with an output that it does not have. -/
theorem Own.pushOut (w : Own h0 h a L t) {p : Addr × Bool} {x : CTxOut} (h1 : h[p.1]? = some (.txout p.2 x.nValue x.scriptPubKey))
    (h3 : p.1 ∉ L.outs.map Prod.fst) (h5 : h0.length ≤ p.1) :
    Own h0 (h.set L.vout (.seq true ((L.outs ++ [p]).map Prod.fst))) a { L with outs := L.outs ++ [p] } { t with vout := t.vout ++ [x] } := by
  have hv := w.vout
  have ne : ∀ {b : Addr} {d : Cell}, h[b]? = some d → (∀ m v, d ≠ .seq m v) → (h.set L.vout (.seq true ((L.outs ++ [p]).map Prod.fst)))[b]? = some d := by
    intro b c hb hd
    rw [set_other]
    · exact hb
    · rintro rfl
      rw [hb] at hv
      exact hd _ _ (Option.some.inj hv)
  obtain ⟨c0, hc⟩ := w.tx
  refine { w with
    kept := w.kept.set w.newVout _, tx := ⟨c0, ne hc (by simp)⟩, vout := set_self hv, vin := ?_, lenOut := (by simpa using w.lenOut), outs := ?_,
    ins := fun j p y hp hy => ⟨ne (w.ins j p y hp hy).1 (by simp), ne (w.ins j p y hp hy).2 (by simp)⟩, nodupOut := ?_, newOuts := ?_ }
  · rw [set_other fun e => w.lists e.symm]
    exact w.vin
  · intro j q y hq hy
    simp only at hq hy
    by_cases hj : j < L.outs.length
    · rw [List.getElem?_append_left hj] at hq
      rw [List.getElem?_append_left (by rw [← w.lenOut]; exact hj)] at hy
      exact ne (w.outs j q y hq hy) (by simp)
    · rw [List.getElem?_append_right (by omega)] at hq
      rw [List.getElem?_append_right (by have := w.lenOut; omega)] at hy
      have e1 : j - L.outs.length = 0 := by
        have := (List.getElem?_eq_some_iff.mp hq).1
        simp only [List.length_singleton] at this
        omega
      rw [e1] at hq
      rw [← w.lenOut, e1] at hy
      simp only [List.getElem?_cons_zero, Option.some.injEq] at hq hy
      subst hq hy
      exact ne h1 (by simp)
  · rw [List.map_append]
    exact nodup_snoc w.nodupOut h3
  · intro q hq
    rcases List.mem_append.mp hq with hq | hq
    · exact w.newOuts q hq
    · rw [List.mem_singleton] at hq
      subst hq
      exact h5
end

end Verif.Btc.Objs
