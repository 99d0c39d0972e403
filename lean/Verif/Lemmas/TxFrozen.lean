import Verif.Lemmas.TxSig
import Verif.Lemmas.BtcDeser
/-!
# Transactions nothing can change
-/
namespace Verif.Btc.Objs
open Verif

/-- The class has no attributes that can be assigned to. -/
def Cell.Fixed : Cell → Prop
  | .outpoint m _ _ => m = false
  | .txin m _ _ _ => m = false
  | .txout m _ _ => m = false
  | .seq l _ => l = false
  | .tx m _ _ _ _ _ => m = false

/-- What is remembered is the hash. -/
def CacheRight (H : HashFns) (h : Heap) (a : Addr) (t : CTransaction) : Prop :=
  ∀ m v i o l d, h[a]? = some (.tx m v i o l (some d)) → m = false → ∃ b, t.ser = .ok b ∧ d = H.hash256 b

/-- What there is to keep about a transaction. -/
def Stays (H : HashFns) (h h' : Heap) : Prop :=
  ∀ a t, Frozen h a → Shows h a t → CacheRight H h a t → Frozen h' a ∧ Shows h' a t ∧ CacheRight H h' a t

theorem Stays.refl (H : HashFns) (h : Heap) : Stays H h h := fun _ _ f s c => ⟨f, s, c⟩

theorem Stays.trans {H : HashFns} {h h' h'' : Heap} (e : Stays H h h') (e' : Stays H h' h'') : Stays H h h'' := by
  intro a t f s c
  obtain ⟨f', s', c'⟩ := e a t f s c
  exact e' a t f' s' c'

/-- The transaction at `a` is in the new heap if everything below it is, and the transaction itself but for what is remembered. -/
theorem frozen_copy {h h' : Heap} {a : Addr} {t : CTransaction} (f : Frozen h a) (s : Shows h a t)
    (k : ∀ (b : Addr) (c : Cell), h[b]? = some c → c.Fixed → (∀ m v i o l d, c ≠ .tx m v i o l d) → h'[b]? = some c)
    (ka : ∀ v i o l d, h[a]? = some (.tx false v i o l d) → ∃ d', h'[a]? = some (.tx false v i o l d')) : Frozen h' a ∧ Shows h' a t := by
  obtain ⟨v, i, o, l, d, h1, ⟨xs, h2, h3⟩, ys, h4, h5⟩ := f
  obtain ⟨m, i', o', c, g1, ⟨b1, is, g2, g3⟩, b2, os, g4, g5⟩ := s
  obtain ⟨d', h1'⟩ := ka v i o l d h1
  rw [h1] at g1
  cases g1
  rw [h2] at g2
  cases g2
  rw [h4] at g4
  cases g4
  have kin : ∀ x ∈ xs, ∃ p s q, h[x]? = some (.txin false p s q) ∧ h'[x]? = some (.txin false p s q) ∧ ∃ y n, h[p]? = some (.outpoint false y n) ∧ h'[p]? = some (.outpoint false y n) := by
    intro x hx
    obtain ⟨p, s, q, e1, y, n, e2⟩ := h3 x hx
    exact ⟨p, s, q, e1, k _ _ e1 rfl (by simp), y, n, e2, k _ _ e2 rfl (by simp)⟩
  have kout : ∀ x ∈ ys, ∃ v s, h[x]? = some (.txout false v s) ∧ h'[x]? = some (.txout false v s) := by
    intro x hx
    obtain ⟨v, s, e1⟩ := h5 x hx
    exact ⟨v, s, e1, k _ _ e1 rfl (by simp)⟩
  have i2 := k _ _ h2 rfl (by simp)
  have i4 := k _ _ h4 rfl (by simp)
  refine ⟨⟨_, _, _, _, d', h1', ⟨xs, i2, fun x hx => ?_⟩, ys, i4, fun x hx => ?_⟩, ⟨false, _, _, d', h1', ⟨false, xs, i2, ?_⟩, false, ys, i4, ?_⟩⟩
  · obtain ⟨p, s, q, _, e1, y, n, _, e2⟩ := kin x hx
    exact ⟨p, s, q, e1, y, n, e2⟩
  · obtain ⟨v, s, _, e1⟩ := kout x hx
    exact ⟨v, s, e1⟩
  · refine forall2_of g3.length_eq fun j x y hx hy => ?_
    obtain ⟨p, s, q, e0, e1, u, n, e2, e3⟩ := kin x (List.mem_of_getElem? hx)
    obtain ⟨m, p', e4, m', e5⟩ := g3.get (i := j) (List.getElem?_eq_some_iff.mp hx).1 (List.getElem?_eq_some_iff.mp hy).1
    rw [List.get_eq_getElem, (List.getElem?_eq_some_iff.mp hx).2, e0] at e4
    cases e4
    rw [e2] at e5
    injection e5 with e5
    injection e5 with e6 e7 e8
    have hy' := (List.getElem?_eq_some_iff.mp hy).2
    rw [List.get_eq_getElem, hy'] at e7 e8 e1
    exact ⟨false, p, e1, false, by rw [e3, e7, e8]⟩
  · refine forall2_of g5.length_eq fun j x y hx hy => ?_
    obtain ⟨v, s, e0, e1⟩ := kout x (List.mem_of_getElem? hx)
    obtain ⟨m, e4⟩ := g5.get (i := j) (List.getElem?_eq_some_iff.mp hx).1 (List.getElem?_eq_some_iff.mp hy).1
    rw [List.get_eq_getElem, (List.getElem?_eq_some_iff.mp hx).2, e0] at e4
    injection e4 with e4
    injection e4 with e6 e7 e8
    have hy' := (List.getElem?_eq_some_iff.mp hy).2
    rw [List.get_eq_getElem, hy'] at e7 e8
    exact ⟨false, by rw [e1, e7, e8]⟩

theorem Stays.of_fixed {H : HashFns} {h h' : Heap} (k : ∀ (b : Addr) (c : Cell), h[b]? = some c → c.Fixed → h'[b]? = some c) : Stays H h h' := by
  intro a t f s c
  obtain ⟨v, i, o, l, d, h1, _⟩ := id f
  have h1' := k _ _ h1 rfl
  obtain ⟨f', s'⟩ := frozen_copy (h' := h') f s (fun b c hb hc _ => k b c hb hc) (fun v i o l d e => ⟨d, k _ _ e rfl⟩)
  refine ⟨f', s', ?_⟩
  intro m v' i' o' l' d' e hm
  rw [h1'] at e
  cases e
  exact c _ _ _ _ _ _ h1 rfl

theorem Stays.of_kept {H : HashFns} {h h' : Heap} (k : Kept h h') : Stays H h h' := Stays.of_fixed fun b c e _ => k b c e

/-- Code that keeps them. -/
def Good {α : Type} (H : HashFns) (m : TH α) : Prop := ∀ h, Stays H h (m h).2

section
variable {α β : Type} {H : HashFns}

theorem good_pure (a : α) : Good H (pure a : TH α) := fun h => Stays.refl H h
theorem good_pure' (a : α) : Good H (TH.pure a : TH α) := fun h => Stays.refl H h
theorem good_raise (e : PyErr) : Good H (TH.raise e : TH α) := fun h => Stays.refl H h
theorem good_lift (x : Py α) : Good H (TH.lift x : TH α) := fun h => Stays.refl H h
theorem good_alloc (c : Cell) : Good H (alloc c) := fun h => Stays.of_kept (Kept.append h [c])
theorem good_bind {x : TH α} {f : α → TH β} (hx : Good H x) (hf : ∀ a, Good H (f a)) : Good H (x >>= f) := by
  intro h
  have h1 := hx h
  show Stays H h (TH.bind x f h).2
  unfold TH.bind
  rcases e : x h with ⟨_ | a, h'⟩
  · rw [e] at h1
    exact h1
  · rw [e] at h1
    exact h1.trans (hf a h')
theorem good_each {f : α → TH β} (hf : ∀ a, Good H (f a)) : ∀ xs, Good H (TH.each f xs)
  | [] => good_pure' _
  | x :: xs => good_bind (hf x) fun _ => good_bind (good_each hf xs) fun _ => good_pure _
theorem good_loop {f : α → TH Unit} (hf : ∀ a, Good H (f a)) : ∀ xs, Good H (TH.loop f xs)
  | [] => good_pure' _
  | x :: xs => good_bind (hf x) fun _ => good_loop hf xs
theorem good_ite {c : Prop} [Decidable c] {x y : TH α} (hx : Good H x) (hy : Good H y) : Good H (if c then x else y) := by
  split
  · exact hx
  · exact hy
theorem good_cell_bind {a : Addr} {f : Cell → TH β} (hf : ∀ c h, h[a]? = some c → Stays H h (f c h).2) : Good H (cell a >>= f) := by
  intro h
  cases e : h[a]? with
  | some c =>
    rw [TH.bind_ok (cell_some e)]
    exact hf c h e
  | none =>
    have : cell a h = (.error .attributeError, h) := by
      unfold cell
      rw [e]
    rw [TH.bind_error this]
    exact Stays.refl H h
theorem good_cell_bind' {a : Addr} {f : Cell → TH β} (hf : ∀ c, Good H (f c)) : Good H (cell a >>= f) := good_cell_bind fun c h _ => hf c h

theorem stays_store {h : Heap} {a : Addr} {c c' : Cell} (e : h[a]? = some c) (hc : ¬ c.Fixed) : Stays H h (store a c' h).2 := by
  refine Stays.of_fixed fun b d hb hd => ?_
  have : a ≠ b := by
    rintro rfl
    rw [e] at hb
    cases hb
    exact hc hd
  show (h.set a c')[b]? = _
  rw [set_other this]
  exact hb

theorem good_items (a : Addr) : Good H (items a) := good_cell_bind' fun c => by cases c <;> first | exact good_pure _ | exact good_raise _
theorem good_vinOf (a : Addr) : Good H (vinOf a) := good_cell_bind' fun c => by cases c <;> first | exact good_pure _ | exact good_raise _
theorem good_voutOf (a : Addr) : Good H (voutOf a) := good_cell_bind' fun c => by cases c <;> first | exact good_pure _ | exact good_raise _
theorem good_prevoutOf (a : Addr) : Good H (prevoutOf a) := good_cell_bind' fun c => by cases c <;> first | exact good_pure _ | exact good_raise _
theorem good_itemAt (a : Addr) (i : Int) : Good H (itemAt a i) := good_bind (good_items a) fun _ => good_lift _

/-- An assignment. -/
macro "setter" : tactic => `(tactic| (
  refine good_cell_bind fun c h e => ?_
  rcases c with ⟨_ | _, _, _⟩ | ⟨_ | _, _, _, _⟩ | ⟨_ | _, _, _⟩ | ⟨_ | _, _⟩ | ⟨_ | _, _, _, _, _, _⟩ <;>
    first | exact Stays.refl _ _ | exact stays_store e (by simp [Cell.Fixed])))

theorem good_append (a x : Addr) : Good H (append a x) := by unfold append; setter
theorem good_setHash (a : Addr) (v : Bytes) : Good H (setHash a v) := by unfold setHash; setter
theorem good_setN (a : Addr) (v : Int) : Good H (setN a v) := by unfold setN; setter
theorem good_setPrevout (a v : Addr) : Good H (setPrevout a v) := by unfold setPrevout; setter
theorem good_setScriptSig (a : Addr) (v : Bytes) : Good H (setScriptSig a v) := by unfold setScriptSig; setter
theorem good_setSequence (a : Addr) (v : Int) : Good H (setSequence a v) := by unfold setSequence; setter
theorem good_setValue (a : Addr) (v : Int) : Good H (setValue a v) := by unfold setValue; setter
theorem good_setScriptPubKey (a : Addr) (v : Bytes) : Good H (setScriptPubKey a v) := by unfold setScriptPubKey; setter
theorem good_setVersion (a : Addr) (v : Int) : Good H (setVersion a v) := by unfold setVersion; setter
theorem good_setLockTime (a : Addr) (v : Int) : Good H (setLockTime a v) := by unfold setLockTime; setter
theorem good_setVin (a v : Addr) : Good H (setVin a v) := by unfold setVin; setter
theorem good_setVout (a v : Addr) : Good H (setVout a v) := by unfold setVout; setter

theorem good_newOutPoint (m : Bool) (x : Bytes) (n : Int) : Good H (newOutPoint m x n) := good_bind (good_lift _) fun _ => good_alloc _
theorem good_newTxIn (m : Bool) (p : Addr) (s : Bytes) (q : Int) : Good H (newTxIn m p s q) := good_ite (good_alloc _) (good_raise _)
theorem good_newTxOut (m : Bool) (v : Int) (s : Bytes) : Good H (newTxOut m v s) := good_alloc _

theorem good_immIn (a : Addr) : Good H (immIn a) := good_cell_bind' fun c => by
  rcases c with ⟨_ | _, _, _⟩ | ⟨_ | _, _, _, _⟩ | ⟨_ | _, _, _⟩ | ⟨_ | _, _⟩ | ⟨_ | _, _, _, _, _, _⟩ <;> first | exact good_pure _ | exact good_raise _
theorem good_immOut (a : Addr) : Good H (immOut a) := good_cell_bind' fun c => by
  rcases c with ⟨_ | _, _, _⟩ | ⟨_ | _, _, _, _⟩ | ⟨_ | _, _, _⟩ | ⟨_ | _, _⟩ | ⟨_ | _, _, _, _, _, _⟩ <;> first | exact good_pure _ | exact good_raise _ | exact good_newTxOut _ _ _

theorem good_newTx (i o : Addr) (l v : Int) : Good H (newTx i o l v) :=
  good_ite (good_bind (good_items _) fun _ => good_bind (good_each good_immIn _) fun _ => good_bind (good_alloc _) fun _ =>
    good_bind (good_items _) fun _ => good_bind (good_each good_immOut _) fun _ => good_bind (good_alloc _) fun _ => good_alloc _) (good_raise _)

theorem good_newMutTx (i o : Addr) (l v : Int) : Good H (newMutTx i o l v) := good_ite (good_alloc _) (good_raise _)

theorem good_copyOutPoint (a : Addr) : Good H (copyOutPoint a) := good_cell_bind' fun c => by
  cases c <;> first | exact good_raise _ | exact good_newOutPoint _ _ _
theorem good_copyIn (a : Addr) : Good H (copyIn a) := good_cell_bind' fun c => by
  cases c <;> first | exact good_raise _ | exact good_bind (good_copyOutPoint _) fun _ => good_newTxIn _ _ _ _
theorem good_copyOut (a : Addr) : Good H (copyOut a) := good_cell_bind' fun c => by
  cases c <;> first | exact good_raise _ | exact good_newTxOut _ _ _
theorem good_copyTx (a : Addr) : Good H (copyTx a) := good_cell_bind' fun c => by
  cases c <;> first
    | exact good_raise _
    | exact good_bind (good_items _) fun _ => good_bind (good_each good_copyIn _) fun _ => good_bind (good_alloc _) fun _ =>
        good_bind (good_items _) fun _ => good_bind (good_each good_copyOut _) fun _ => good_bind (good_alloc _) fun _ => good_newMutTx _ _ _ _
theorem good_immTx (a : Addr) : Good H (immTx a) := good_cell_bind' fun c => by
  rcases c with ⟨_ | _, _, _⟩ | ⟨_ | _, _, _, _⟩ | ⟨_ | _, _, _⟩ | ⟨_ | _, _⟩ | ⟨_ | _, _, _, _, _, _⟩ <;> first | exact good_pure _ | exact good_raise _ | exact good_newTx _ _ _ _

theorem good_loadIn (x : CTxIn) : Good H (loadIn x) := good_bind (good_newOutPoint _ _ _) fun _ => good_newTxIn _ _ _ _
theorem good_loadTx (b : Bytes) : Good H (loadTx b) :=
  good_bind (good_lift _) fun _ => good_bind (good_each good_loadIn _) fun _ => good_bind (good_alloc _) fun _ =>
    good_bind (good_each (fun _ => good_newTxOut _ _ _) _) fun _ => good_bind (good_alloc _) fun _ => good_newTx _ _ _ _

theorem good_readOutPoint (a : Addr) : Good H (readOutPoint a) := good_cell_bind' fun c => by cases c <;> first | exact good_pure _ | exact good_raise _
theorem good_readIn (a : Addr) : Good H (readIn a) := good_cell_bind' fun c => by
  cases c <;> first | exact good_raise _ | exact good_bind (good_readOutPoint _) fun _ => good_pure _
theorem good_readOut (a : Addr) : Good H (readOut a) := good_cell_bind' fun c => by cases c <;> first | exact good_pure _ | exact good_raise _
theorem good_readTx (a : Addr) : Good H (readTx a) := good_cell_bind' fun c => by
  cases c <;> first
    | exact good_raise _
    | exact good_bind (good_items _) fun _ => good_bind (good_each good_readIn _) fun _ => good_bind (good_items _) fun _ =>
        good_bind (good_each good_readOut _) fun _ => good_pure _
theorem good_serialize (a : Addr) : Good H (serialize a) := good_bind (good_readTx a) fun _ => good_lift _

/-! Reading changes nothing, so what is stored with the hash is what is there. -/

/-- Code that changes nothing. -/
def Reads {α : Type} (m : TH α) : Prop := ∀ h, (m h).2 = h

theorem reads_bind {x : TH α} {f : α → TH β} (hx : Reads x) (hf : ∀ a, Reads (f a)) : Reads (x >>= f) := by
  intro h
  have h1 := hx h
  show (TH.bind x f h).2 = h
  unfold TH.bind
  rcases e : x h with ⟨_ | a, h'⟩
  · rw [e] at h1
    exact h1
  · rw [e] at h1
    cases h1
    exact hf a _
theorem reads_cell (a : Addr) : Reads (cell a) := by
  intro h
  unfold cell
  split <;> rfl
theorem reads_each {f : α → TH β} (hf : ∀ a, Reads (f a)) : ∀ xs, Reads (TH.each f xs)
  | [] => fun _ => rfl
  | x :: xs => reads_bind (hf x) fun _ => reads_bind (reads_each hf xs) fun _ _ => rfl
theorem reads_items (a : Addr) : Reads (items a) := reads_bind (reads_cell a) fun c => by cases c <;> intro _ <;> rfl
theorem reads_outPoint (a : Addr) : Reads (readOutPoint a) := reads_bind (reads_cell a) fun c => by cases c <;> intro _ <;> rfl
theorem reads_in (a : Addr) : Reads (readIn a) := reads_bind (reads_cell a) fun c => by
  cases c <;> first | exact (fun _ => rfl) | exact reads_bind (reads_outPoint _) fun _ _ => rfl
theorem reads_out (a : Addr) : Reads (readOut a) := reads_bind (reads_cell a) fun c => by cases c <;> intro _ <;> rfl
theorem reads_tx (a : Addr) : Reads (readTx a) := reads_bind (reads_cell a) fun c => by
  cases c <;> first
    | exact (fun _ => rfl)
    | exact reads_bind (reads_items _) fun _ => reads_bind (reads_each reads_in _) fun _ => reads_bind (reads_items _) fun _ =>
        reads_bind (reads_each reads_out _) fun _ _ => rfl
theorem reads_serialize (a : Addr) : Reads (serialize a) := reads_bind (reads_tx a) fun _ _ => rfl

theorem good_getHash (a : Addr) : Good H (getHash H a) := by
  refine good_cell_bind fun c h e => ?_
  rcases c with ⟨_ | _, _, _⟩ | ⟨_ | _, _, _, _⟩ | ⟨_ | _, _, _⟩ | ⟨_ | _, _⟩ | ⟨_ | _, v, i, o, l, _ | d⟩
  all_goals try exact Stays.refl _ _
  · show Stays H h ((serialize a >>= fun b => store a (.tx false v i o l (some (H.hash256 b))) >>= fun _ => pure (H.hash256 b)) h).2
    rcases es : serialize a h with ⟨_ | b, h'⟩
    · rw [TH.bind_error es]
      have := reads_serialize a h
      rw [es] at this
      cases this
      exact Stays.refl _ _
    · rw [TH.bind_ok es]
      have := reads_serialize a h
      rw [es] at this
      have hh : h' = h := this
      rw [hh] at es ⊢
      show Stays H h (h.set a _)
      intro a' t f s c
      have key : ∀ (k : Addr) (c : Cell), h[k]? = some c → c.Fixed → (∀ m v i o l d, c ≠ .tx m v i o l d) → (h.set a (.tx false v i o l (some (H.hash256 b))))[k]? = some c := by
        intro b' c hb _ hc
        rw [set_other]
        · exact hb
        · rintro rfl
          rw [e] at hb
          cases hb
          exact hc _ _ _ _ _ _ rfl
      by_cases ha : a = a'
      · subst ha
        obtain ⟨f', s'⟩ := frozen_copy (h' := h.set a (.tx false v i o l (some (H.hash256 b)))) f s key (fun v' i' o' l' d' e' => by
          rw [e] at e'
          cases e'
          exact ⟨_, set_self e⟩)
        refine ⟨f', s', ?_⟩
        intro m v' i' o' l' d' e' _
        rw [set_self e] at e'
        cases e'
        rw [serialize_run s] at es
        exact ⟨b, congrArg Prod.fst es, rfl⟩
      · obtain ⟨f', s'⟩ := frozen_copy (h' := h.set a (.tx false v i o l (some (H.hash256 b)))) f s key (fun v' i' o' l' d' e' => by
          exact ⟨d', by rw [set_other ha]; exact e'⟩)
        refine ⟨f', s', ?_⟩
        intro m v' i' o' l' d' e' hm
        rw [set_other ha] at e'
        exact c _ _ _ _ _ _ e' hm
  · exact good_bind (good_serialize a) (fun _ => good_pure _) h
  · exact good_bind (good_serialize a) (fun _ => good_pure _) h

theorem good_zeroSeqs (a : Addr) (i : Int) : Good H (zeroSeqs a i) :=
  good_bind (good_vinOf a) fun _ => good_bind (good_items _) fun _ => good_loop (fun _ => good_ite
    (good_bind (good_vinOf a) fun _ => good_bind (good_itemAt _ _) fun _ => good_setSequence _ _) (good_pure' _)) _

theorem good_sigFinish (a : Addr) (i ty : Int) : Good H (sigFinish H a i ty) := by
  unfold sigFinish
  refine good_ite ?_ ?_
  · exact good_bind (good_vinOf a) fun _ => good_bind (good_itemAt _ _) fun _ => good_bind (good_alloc _) fun _ => good_bind (good_setVin _ _) fun _ =>
      good_bind (good_vinOf a) fun _ => good_bind (good_append _ _) fun _ => good_bind (good_serialize a) fun _ => good_bind (good_lift _) fun _ => good_pure _
  · exact good_bind (good_serialize a) fun _ => good_bind (good_lift _) fun _ => good_pure _

theorem good_rawSigHash (script : Bytes) (a : Addr) (i ty : Int) : Good H (rawSigHash H script a i ty) := by
  unfold rawSigHash
  refine good_bind (good_vinOf a) fun _ => good_bind (good_items _) fun _ => good_ite (good_pure _) ?_
  refine good_bind (good_copyTx a) fun tmp => good_bind (good_vinOf tmp) fun _ => good_bind (good_items _) fun _ =>
    good_bind (good_loop (fun _ => good_setScriptSig _ _) _) fun _ => good_bind (good_lift _) fun _ => good_bind (good_lift _) fun _ =>
    good_bind (good_vinOf tmp) fun _ => good_bind (good_itemAt _ _) fun _ => good_bind (good_setScriptSig _ _) fun _ => good_ite ?_ (good_ite ?_ (good_sigFinish _ _ _))
  · exact good_bind (good_alloc _) fun _ => good_bind (good_setVout _ _) fun _ => good_bind (good_zeroSeqs _ _) fun _ => good_sigFinish _ _ _
  · refine good_bind (good_voutOf tmp) fun _ => good_bind (good_items _) fun _ => good_ite (good_pure _) ?_
    exact good_bind (good_voutOf tmp) fun _ => good_bind (good_itemAt _ _) fun _ => good_bind (good_alloc _) fun _ => good_bind (good_setVout _ _) fun _ =>
      good_bind (good_loop (fun _ => good_bind (good_newTxOut _ _ _) fun _ => good_bind (good_voutOf tmp) fun _ => good_append _ _) _) fun _ =>
      good_bind (good_voutOf tmp) fun _ => good_bind (good_append _ _) fun _ => good_bind (good_zeroSeqs _ _) fun _ => good_sigFinish _ _ _

theorem good_sigHash (script : Bytes) (a : Addr) (i ty : Int) : Good H (sigHash H script a i ty) :=
  good_bind (good_rawSigHash _ _ _ _) fun _ => good_ite (good_raise _) (good_pure _)

theorem good_stmt (s : Stmt) : Good H (s.run H) := by
  cases s with
  | setHash a v => exact good_setHash a v
  | setN a v => exact good_setN a v
  | setPrevout a v => exact good_setPrevout a v
  | setScriptSig a v => exact good_setScriptSig a v
  | setSequence a v => exact good_setSequence a v
  | setValue a v => exact good_setValue a v
  | setScriptPubKey a v => exact good_setScriptPubKey a v
  | setVersion a v => exact good_setVersion a v
  | setLockTime a v => exact good_setLockTime a v
  | setVin a v => exact good_setVin a v
  | setVout a v => exact good_setVout a v
  | append a x => exact good_append a x
  | setItem a i x =>
    refine good_cell_bind fun c h e => ?_
    rcases c with ⟨_ | _, _, _⟩ | ⟨_ | _, _, _, _⟩ | ⟨_ | _, _, _⟩ | ⟨_ | _, xs⟩ | ⟨_ | _, _, _, _, _, _⟩
    all_goals try exact Stays.refl _ _
    show Stays H h ((if i < xs.length then store a (.seq true (xs.set i x)) else TH.raise .indexError) h).2
    split
    · exact stays_store e (by simp [Cell.Fixed])
    · exact Stays.refl _ _
  | clear a => unfold Stmt.run; setter
  | newList xs => exact good_bind (good_alloc _) fun _ => good_pure _
  | newTuple xs => exact good_bind (good_alloc _) fun _ => good_pure _
  | newOutPoint m x n => exact good_bind (good_newOutPoint _ _ _) fun _ => good_pure _
  | newTxIn m p s q => exact good_bind (good_newTxIn _ _ _ _) fun _ => good_pure _
  | newTxOut m v s => exact good_bind (good_newTxOut _ _ _) fun _ => good_pure _
  | newTx i o l v => exact good_bind (good_newTx _ _ _ _) fun _ => good_pure _
  | newMutTx i o l v => exact good_bind (good_newMutTx _ _ _ _) fun _ => good_pure _
  | copyTx a => exact good_bind (good_copyTx _) fun _ => good_pure _
  | immTx a => exact good_bind (good_immTx _) fun _ => good_pure _
  | loadTx b => exact good_bind (good_loadTx _) fun _ => good_pure _
  | serialize a => exact good_bind (good_serialize _) fun _ => good_pure _
  | getHash a => exact good_bind (good_getHash _) fun _ => good_pure _
  | sigHash s a i ty => exact good_bind (good_sigHash _ _ _ _) fun _ => good_pure _

theorem stays_stmts : ∀ (ss : List Stmt) (h : Heap), Stays H h (runStmts H ss h)
  | [], h => Stays.refl H h
  | s :: ss, h => (good_stmt s h).trans (stays_stmts ss _)

/-- `GetHash()` of such a transaction. -/
theorem getHash_run {h : Heap} {a : Addr} {t : CTransaction} (s : Shows h a t) (c : CacheRight H h a t) :
    (getHash H a h).1 = t.ser.map H.hash256 := by
  obtain ⟨m, i, o, d, h1, _⟩ := id s
  unfold getHash
  rw [TH.bind_ok (cell_some h1)]
  rcases m with _ | _
  · rcases d with _ | d
    · show ((serialize a >>= fun b => store a _ >>= fun _ => pure (H.hash256 b)) h).1 = _
      cases e : t.ser with
      | error x => rw [TH.bind_error (s' := h) (e := x) (by rw [serialize_run s, e])]; rfl
      | ok b => rw [TH.bind_ok (s' := h) (a := b) (by rw [serialize_run s, e])]; rfl
    · obtain ⟨b, hb, rfl⟩ := c _ _ _ _ _ _ h1 rfl
      rw [hb]
      rfl
  · show ((serialize a >>= fun b => pure (H.hash256 b)) h).1 = _
    cases e : t.ser with
    | error x => rw [TH.bind_error (s' := h) (e := x) (by rw [serialize_run s, e])]; rfl
    | ok b => rw [TH.bind_ok (s' := h) (a := b) (by rw [serialize_run s, e])]; rfl

/-! ## What the constructors give -/

theorem each_immIn_inv : ∀ {xs is : List Addr} {h h' : Heap}, TH.each immIn xs h = (.ok is, h') →
    is = xs ∧ h' = h ∧ ∀ x ∈ xs, ∃ p s q, h[x]? = some (.txin false p s q)
  | [], is, h, h', e => by
    cases e
    exact ⟨rfl, rfl, by simp⟩
  | x :: xs, is, h, h', e => by
    have hx : ∀ r h1, immIn x h = (r, h1) → h1 = h ∧ ∀ y, r = .ok y → y = x ∧ ∃ p s q, h[x]? = some (.txin false p s q) := by
      intro r h1 e1
      unfold immIn at e1
      cases hc : h[x]? with
      | none =>
        rw [TH.bind_error (s' := h) (e := .attributeError) (by unfold cell; rw [hc])] at e1
        cases e1
        exact ⟨rfl, by simp⟩
      | some c =>
        rw [TH.bind_ok (cell_some hc)] at e1
        rcases c with ⟨_ | _, _, _⟩ | ⟨_ | _, _, _, _⟩ | ⟨_ | _, _, _⟩ | ⟨_ | _, _⟩ | ⟨_ | _, _, _, _, _, _⟩ <;> cases e1 <;>
          refine ⟨rfl, fun y hy => ?_⟩ <;> cases hy
        exact ⟨rfl, _, _, _, rfl⟩
    have e' : (immIn x >>= fun y => TH.each immIn xs >>= fun ys => pure (y :: ys)) h = (.ok is, h') := e
    rcases e1 : immIn x h with ⟨_ | y, h1⟩
    · rw [TH.bind_error e1] at e'
      cases e'
    · rw [TH.bind_ok e1] at e'
      obtain ⟨rfl, hy⟩ := hx _ _ e1
      obtain ⟨rfl, hc⟩ := hy y rfl
      rcases e2 : TH.each immIn xs h1 with ⟨_ | ys, h2⟩
      · rw [TH.bind_error e2] at e'
        cases e'
      · rw [TH.bind_ok e2] at e'
        obtain ⟨rfl, rfl, k⟩ := each_immIn_inv e2
        cases e'
        refine ⟨rfl, rfl, fun z hz => ?_⟩
        rcases List.mem_cons.mp hz with rfl | hz
        · exact hc
        · exact k z hz

theorem each_immOut_inv : ∀ {xs os : List Addr} {h h' : Heap}, TH.each immOut xs h = (.ok os, h') →
    Kept h h' ∧ List.Forall₂ (fun x y => ∃ m v s, h'[x]? = some (.txout m v s) ∧ h'[y]? = some (.txout false v s)) xs os
  | [], os, h, h', e => by
    cases e
    exact ⟨Kept.refl _, .nil⟩
  | x :: xs, os, h, h', e => by
    have hx : ∀ y h1, immOut x h = (.ok y, h1) → Kept h h1 ∧ ∃ m v s, h[x]? = some (.txout m v s) ∧ h1[y]? = some (.txout false v s) := by
      intro y h1 e1
      unfold immOut at e1
      cases hc : h[x]? with
      | none =>
        rw [TH.bind_error (s' := h) (e := .attributeError) (by unfold cell; rw [hc])] at e1
        cases e1
      | some c =>
        rw [TH.bind_ok (cell_some hc)] at e1
        rcases c with ⟨_ | _, _, _⟩ | ⟨_ | _, _, _, _⟩ | ⟨_ | _, _, _⟩ | ⟨_ | _, _⟩ | ⟨_ | _, _, _, _, _, _⟩ <;> cases e1
        · exact ⟨Kept.refl _, _, _, _, rfl, hc⟩
        · exact ⟨Kept.append _ _, _, _, _, rfl, new_append _⟩
    have e' : (immOut x >>= fun y => TH.each immOut xs >>= fun ys => pure (y :: ys)) h = (.ok os, h') := e
    rcases e1 : immOut x h with ⟨_ | y, h1⟩
    · rw [TH.bind_error e1] at e'
      cases e'
    · rw [TH.bind_ok e1] at e'
      obtain ⟨k1, m, v, s, hc, hy⟩ := hx _ _ e1
      rcases e2 : TH.each immOut xs h1 with ⟨_ | ys, h2⟩
      · rw [TH.bind_error e2] at e'
        cases e'
      · rw [TH.bind_ok e2] at e'
        obtain ⟨k2, q⟩ := each_immOut_inv e2
        cases e'
        exact ⟨k1.trans k2, .cons ⟨m, v, s, k2 _ _ (k1 _ _ hc), k2 _ _ hy⟩ q⟩

/-- What `CTransaction(…)` makes. -/
theorem newTx_inv {i o a : Addr} {l v : Int} {h h' : Heap} (e : newTx i o l v h = (.ok a, h')) :
    (0 ≤ l ∧ l ≤ 0xffffffff) ∧ Kept h h' ∧ ∃ I O b is b' ys os, h'[a]? = some (.tx false v I O l none) ∧ h'[i]? = some (.seq b is) ∧ h'[I]? = some (.seq false is) ∧
      h'[o]? = some (.seq b' ys) ∧ h'[O]? = some (.seq false os) ∧ (∀ x ∈ is, ∃ p s q, h'[x]? = some (.txin false p s q)) ∧
      List.Forall₂ (fun x y => ∃ m v s, h'[x]? = some (.txout m v s) ∧ h'[y]? = some (.txout false v s)) ys os := by
  unfold newTx at e
  split at e
  case isFalse => cases e
  case isTrue hl =>
    have inv : ∀ (a : Addr) (h : Heap) r h', items a h = (r, h') → h' = h ∧ ∀ xs, r = .ok xs → ∃ b, h[a]? = some (.seq b xs) := by
      intro a h r h' e
      unfold items at e
      cases hc : h[a]? with
      | none =>
        rw [TH.bind_error (s' := h) (e := .attributeError) (by unfold cell; rw [hc])] at e
        cases e
        exact ⟨rfl, by simp⟩
      | some c =>
        rw [TH.bind_ok (cell_some hc)] at e
        cases c <;> cases e <;> refine ⟨rfl, fun xs hx => ?_⟩ <;> cases hx
        exact ⟨_, rfl⟩
    rcases e1 : items i h with ⟨_ | is, h1⟩
    · rw [TH.bind_error e1] at e
      cases e
    rw [TH.bind_ok e1] at e
    obtain ⟨rfl, k1⟩ := inv _ _ _ _ e1
    obtain ⟨b, k1⟩ := k1 is rfl
    rcases e2 : TH.each immIn is h1 with ⟨_ | is', h2⟩
    · rw [TH.bind_error e2] at e
      cases e
    rw [TH.bind_ok e2] at e
    obtain ⟨rfl, rfl, k2⟩ := each_immIn_inv e2
    rw [TH.bind_ok (show alloc (.seq false is') h2 = (.ok h2.length, h2 ++ [.seq false is']) from rfl)] at e
    rcases e3 : items o (h2 ++ [.seq false is']) with ⟨_ | ys, h3⟩
    · rw [TH.bind_error e3] at e
      cases e
    rw [TH.bind_ok e3] at e
    obtain ⟨rfl, k3⟩ := inv _ _ _ _ e3
    obtain ⟨b', k3⟩ := k3 ys rfl
    rcases e4 : TH.each immOut ys (h2 ++ [.seq false is']) with ⟨_ | os, h4⟩
    · rw [TH.bind_error e4] at e
      cases e
    rw [TH.bind_ok e4] at e
    obtain ⟨k4, q⟩ := each_immOut_inv e4
    rw [TH.bind_ok (show alloc (.seq false os) h4 = (.ok h4.length, h4 ++ [.seq false os]) from rfl)] at e
    have e5 : ((.ok (h4 ++ [Cell.seq false os]).length, h4 ++ [Cell.seq false os] ++ [.tx false v h2.length h4.length l none]) : Py Addr × Heap) = (.ok a, h') := e
    cases e5
    have k5 : Kept h4 (h4 ++ [Cell.seq false os] ++ [.tx false v h2.length h4.length l none]) := (Kept.append _ _).trans (Kept.append _ _)
    have k6 := (Kept.append h2 [Cell.seq false is']).trans (k4.trans k5)
    refine ⟨hl, k6, h2.length, h4.length, b, is', b', ys, os, new_append _, k6 _ _ k1, k5 _ _ (k4 _ _ (new_append _)), k5 _ _ (k4 _ _ k3), old_append (new_append _), ?_, ?_⟩
    · intro x hx
      obtain ⟨p, s, q, hp⟩ := k2 x hx
      exact ⟨p, s, q, k6 _ _ hp⟩
    · refine q.imp fun x y hxy => ?_
      obtain ⟨m, v, s, h1, h2⟩ := hxy
      exact ⟨m, v, s, k5 _ _ h1, k5 _ _ h2⟩

/-- An immutable input with this content. -/
def FIn (h : Heap) (a : Addr) (x : CTxIn) : Prop :=
  ∃ p, h[a]? = some (.txin false p x.scriptSig x.nSequence) ∧ h[p]? = some (.outpoint false x.prevout.hash x.prevout.n)
/-- An immutable output with this content. -/
def FOut (h : Heap) (a : Addr) (x : CTxOut) : Prop := h[a]? = some (.txout false x.nValue x.scriptPubKey)

theorem FIn.kept {h h' : Heap} (k : Kept h h') {a x} (s : FIn h a x) : FIn h' a x := by
  obtain ⟨p, h1, h2⟩ := s
  exact ⟨p, k _ _ h1, k _ _ h2⟩
theorem FOut.kept {h h' : Heap} (k : Kept h h') {a x} (s : FOut h a x) : FOut h' a x := k _ _ s

theorem loadIn_run {x : CTxIn} (hx : x.Valid) (h : Heap) : ∃ a h', loadIn x h = (.ok a, h') ∧ Kept h h' ∧ FIn h' a x := by
  obtain ⟨h1, h2, h3⟩ := hx
  have e : COutPoint.new x.prevout.hash x.prevout.n = .ok x.prevout := mutOutPoint_ok h1
  have e1 : newOutPoint false x.prevout.hash x.prevout.n h = (.ok h.length, h ++ [.outpoint false x.prevout.hash x.prevout.n]) := by
    unfold newOutPoint
    rw [e]
    rfl
  refine ⟨(h ++ [Cell.outpoint false x.prevout.hash x.prevout.n]).length,
    h ++ [.outpoint false x.prevout.hash x.prevout.n] ++ [.txin false h.length x.scriptSig x.nSequence], ?_, (Kept.append _ _).trans (Kept.append _ _),
    h.length, new_append _, old_append (new_append _)⟩
  unfold loadIn
  rw [TH.bind_ok e1]
  unfold newTxIn
  rw [if_pos ⟨h2, h3⟩]
  rfl

theorem each_new {f : α → TH Addr} {R : Heap → Addr → α → Prop} (mono : ∀ {h h' : Heap} {a x}, Kept h h' → R h a x → R h' a x) :
    ∀ {xs : List α}, (∀ x ∈ xs, ∀ h, ∃ a h', f x h = (.ok a, h') ∧ Kept h h' ∧ R h' a x) →
      ∀ h, ∃ as h', TH.each f xs h = (.ok as, h') ∧ Kept h h' ∧ List.Forall₂ (R h') as xs
  | [], _, h => ⟨[], h, rfl, Kept.refl h, .nil⟩
  | x :: xs, hf, h => by
    obtain ⟨a, h1, e1, k1, r⟩ := hf x (by simp) h
    obtain ⟨as, h2, e2, k2, rs⟩ := each_new (f := f) (R := R) mono (xs := xs) (fun y hy => hf y (List.mem_cons_of_mem _ hy)) h1
    refine ⟨a :: as, h2, ?_, k1.trans k2, .cons (mono k2 r) rs⟩
    show (f x >>= fun y => TH.each f xs >>= fun ys => pure (y :: ys)) h = _
    rw [TH.bind_ok e1, TH.bind_ok e2]
    rfl

theorem each_self {f : Addr → TH Addr} {h : Heap} : ∀ {xs : List Addr}, (∀ x ∈ xs, f x h = (.ok x, h)) → TH.each f xs h = (.ok xs, h)
  | [], _ => rfl
  | x :: xs, hf => by
    show (f x >>= fun y => TH.each f xs >>= fun ys => pure (y :: ys)) h = _
    rw [TH.bind_ok (hf x (by simp)), TH.bind_ok (each_self fun y hy => hf y (by simp [hy]))]
    rfl

theorem mem_forall2 {β : Type} {R : α → β → Prop} : ∀ {xs : List α} {ys : List β}, List.Forall₂ R xs ys → ∀ x ∈ xs, ∃ y, R x y
  | _, _, .cons r rs, x, hx => by
    rcases List.mem_cons.mp hx with rfl | hx
    · exact ⟨_, r⟩
    · exact mem_forall2 rs x hx

/-- `CTransaction.deserialize(b)` gives a transaction nothing can change. -/
theorem loadTx_run {b : Bytes} {t : CTransaction} (ht : deserializeAll CTransaction.deser b = .ok t) (h : Heap) :
    ∃ a h', loadTx b h = (.ok a, h') ∧ Kept h h' ∧ Frozen h' a ∧ Shows h' a t ∧ CacheRight H h' a t := by
  have hv : t.Valid := by
    unfold deserializeAll at ht
    rcases e : CTransaction.deser b with _ | ⟨u, rest⟩
    · rw [e] at ht
      cases ht
    · rw [e] at ht
      simp only at ht
      split at ht
      · cases ht
      · cases ht
        exact (CTransaction.deser_valid e).1
  obtain ⟨v1, v2⟩ := hv
  obtain ⟨is, h1, e1, k1, r1⟩ := each_new (f := loadIn) (R := FIn) (fun k => FIn.kept k) (fun x hx => loadIn_run (v1 x hx)) h
  obtain ⟨os, h2, e2, k2, r2⟩ := each_new (f := fun (x : CTxOut) => newTxOut false x.nValue x.scriptPubKey) (R := FOut) (fun k => FOut.kept k)
    (xs := t.vout) (fun x _ h => ⟨h.length, h ++ [Cell.txout false x.nValue x.scriptPubKey], rfl, Kept.append _ _,
      show (h ++ [Cell.txout false x.nValue x.scriptPubKey])[h.length]? = _ from new_append _⟩) (h1 ++ [.seq true is])
  have k12 : Kept h1 h2 := (Kept.append _ _).trans k2
  let g := h2 ++ [Cell.seq true os]
  let g1 := g ++ [Cell.seq false is]
  let g2 := g1 ++ [Cell.seq false os]
  let g3 := g2 ++ [Cell.tx false t.nVersion g.length g1.length t.nLockTime none]
  have kg : Kept h2 g := Kept.append _ _
  have kg1 : Kept g g1 := Kept.append _ _
  have kg2 : Kept g1 g2 := Kept.append _ _
  have kg3 : Kept g2 g3 := Kept.append _ _
  have ci : g[h1.length]? = some (.seq true is) := kg _ _ (k2 _ _ (new_append _))
  have co : g1[h2.length]? = some (.seq true os) := kg1 _ _ (new_append _)
  have ri : List.Forall₂ (FIn g) is t.vin := r1.imp fun _ _ => FIn.kept (k12.trans kg)
  have ro : List.Forall₂ (FOut g1) os t.vout := r2.imp fun _ _ => FOut.kept (kg.trans kg1)
  have run : loadTx b h = (.ok g2.length, g3) := by
    unfold loadTx
    rw [ht, TH.bind_ok (TH.lift_run _ _), TH.bind_ok e1, TH.bind_ok (show alloc (.seq true is) h1 = (.ok h1.length, h1 ++ [.seq true is]) from rfl), TH.bind_ok e2,
      TH.bind_ok (show alloc (.seq true os) h2 = (.ok h2.length, g) from rfl)]
    unfold newTx
    rw [if_pos v2, TH.bind_ok (items_seq ci), TH.bind_ok (each_self (f := immIn) fun x hx => by
      obtain ⟨y, p, hp, _⟩ := mem_forall2 ri x hx
      unfold immIn
      rw [TH.bind_ok (cell_some hp)]
      rfl), TH.bind_ok (show alloc (.seq false is) g = (.ok g.length, g1) from rfl), TH.bind_ok (items_seq co), TH.bind_ok (each_self (f := immOut) fun x hx => by
      obtain ⟨y, hp⟩ := mem_forall2 ro x hx
      unfold immOut
      rw [TH.bind_ok (cell_some hp)]
      rfl), TH.bind_ok (show alloc (.seq false os) g1 = (.ok g1.length, g2) from rfl)]
    rfl
  have ri' : List.Forall₂ (FIn g3) is t.vin := ri.imp fun _ _ => FIn.kept (kg1.trans (kg2.trans kg3))
  have ro' : List.Forall₂ (FOut g3) os t.vout := ro.imp fun _ _ => FOut.kept (kg2.trans kg3)
  have c1 : g3[g2.length]? = some (.tx false t.nVersion g.length g1.length t.nLockTime none) := new_append _
  have c2 : g3[g.length]? = some (.seq false is) := kg3 _ _ (kg2 _ _ (new_append _))
  have c3 : g3[g1.length]? = some (.seq false os) := kg3 _ _ (new_append _)
  refine ⟨g2.length, g3, run, k1.trans (k12.trans (kg.trans (kg1.trans (kg2.trans kg3)))), ⟨_, _, _, _, _, c1, ⟨is, c2, fun x hx => ?_⟩, os, c3, fun x hx => ?_⟩,
    ⟨false, _, _, _, c1, ⟨false, is, c2, ri'.imp fun x y hxy => ?_⟩, false, os, c3, ro'.imp fun x y hxy => ?_⟩, ?_⟩
  · obtain ⟨y, p, hp, hq⟩ := mem_forall2 ri' x hx
    exact ⟨p, _, _, hp, _, _, hq⟩
  · obtain ⟨y, hp⟩ := mem_forall2 ro' x hx
    exact ⟨_, _, hp⟩
  · obtain ⟨p, hp, hq⟩ := hxy
    exact ⟨false, p, hp, false, hq⟩
  · exact ⟨false, hxy⟩
  · intro m v i o l d e _
    rw [c1] at e
    cases e

end
end Verif.Btc.Objs
