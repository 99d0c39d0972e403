import Verif.Lemmas.TxFrozen
import Verif.Model.Sha256
/-!
# Transactions that are copied, changed, signed and hashed: C124, C125
-/
namespace Verif.Btc.Objs
open Verif

/-! ## C124 -/

/-- C124: the signature hash is the one of the content, and making it changes no object at all: the transaction, its parts and everything else is as
before, whatever is shared, even if an exception is raised. -/
theorem C124_sighash (H : HashFns) {h : Heap} {a : Addr} {t : CTransaction} (s : Shows h a t) (script : Bytes) (i ty : Int) :
    (rawSigHash H script a i ty h).1 = rawSignatureHash H script t i ty ∧ (sigHash H script a i ty h).1 = signatureHash H script t i ty ∧
    Kept h (rawSigHash H script a i ty h).2 ∧ Kept h (sigHash H script a i ty h).2 := by
  obtain ⟨h', e, k⟩ := rawSigHash_run H s script i ty
  rw [e]
  refine ⟨rfl, ?_, k, ?_⟩
  all_goals
    unfold sigHash
    cases hr : rawSignatureHash H script t i ty with
    | error x =>
      rw [hr] at e
      rw [TH.bind_error e]
      first
        | exact k
        | (unfold signatureHash; rw [hr]; rfl)
    | ok r =>
      rw [hr] at e
      rw [TH.bind_ok e]
      obtain ⟨d, b⟩ := r
      cases b
      all_goals
        first
          | exact k
          | (unfold signatureHash; rw [hr]; rfl)

/-- C124: a mutable copy can be made of every transaction whose parts the constructors accept, the copy has the same content, and whatever is then done
to the copy is what the content says, up to the first exception, while nothing that was there before the copy changes. -/
theorem C124_edits {h : Heap} {a : Addr} {t : CTransaction} (s : Shows h a t) (hv : t.Valid) :
    ∃ b h1, copyTx a h = (.ok b, h1) ∧ Kept h h1 ∧ Shows h1 b t ∧
      ∀ es : List Edit, ∃ h2, Kept h h2 ∧
        ((∃ t', applyAll t es = .ok t' ∧ TH.loop (Edit.run b) es h1 = (.ok (), h2) ∧ Shows h2 b t') ∨
          ∃ e, applyAll t es = .error e ∧ TH.loop (Edit.run b) es h1 = (.error e, h2)) := by
  rcases copyTx_run s with ⟨e, h', hm, _⟩ | ⟨_, b, L, h1, hc, w, ho⟩
  · rw [mutTx_ok hv] at hm
    cases hm
  · refine ⟨b, h1, hc, w.kept, w.shows, fun es => ?_⟩
    have key : ∀ (es : List Edit) (L : Lay) (t : CTransaction) (h1 : Heap), Own h h1 b L t → (∀ p ∈ L.outs, p.2 = true) →
        ∃ h2, Kept h h2 ∧ ((∃ t', applyAll t es = .ok t' ∧ TH.loop (Edit.run b) es h1 = (.ok (), h2) ∧ Shows h2 b t') ∨
          ∃ e, applyAll t es = .error e ∧ TH.loop (Edit.run b) es h1 = (.error e, h2)) := by
      intro es
      induction es with
      | nil => exact fun L t h1 w ho => ⟨h1, w.kept, .inl ⟨t, rfl, rfl, w.shows⟩⟩
      | cons e es ih =>
        intro L t h1 w ho
        have el : TH.loop (Edit.run b) (e :: es) h1 = (e.run b >>= fun _ => TH.loop (Edit.run b) es) h1 := rfl
        have ea : applyAll t (e :: es) = (e.apply t >>= fun t' => applyAll t' es) := rfl
        rcases w.edit ho e with ⟨x, h2, g1, g2, g3⟩ | ⟨t', L', h2, g1, g2, w', ho'⟩
        · exact ⟨h2, g3, .inr ⟨x, by rw [ea, g1]; rfl, by rw [el, TH.bind_error g2]⟩⟩
        · rw [el, TH.bind_ok g2, ea, g1, Except.bind_ok]
          exact ih L' t' h2 w' ho'
    exact key es L t h1 w ho

/-- C124: nor does anything that is done to older objects change the copy. -/
theorem C124_original {h : Heap} {a b : Addr} {t : CTransaction} (s : Shows h a t) {h1 : Heap} (e : copyTx a h = (.ok b, h1)) (h2 : Heap)
    (k : ∀ (c : Addr), h.length ≤ c → h2[c]? = h1[c]?) : Shows h2 b t := by
  rcases copyTx_run s with ⟨x, h', _, hm, _⟩ | ⟨_, b', L, h1', hc, w, ho⟩
  · rw [e] at hm
    cases hm
  · rw [e] at hc
    cases hc
    obtain ⟨c, hc⟩ := w.tx
    refine ⟨true, L.vin, L.vout, c, by rw [k _ w.newTx]; exact hc, ⟨true, _, by rw [k _ w.newVin]; exact w.vin, ?_⟩, true, _, by rw [k _ w.newVout]; exact w.vout, ?_⟩
    · refine forall2_of (by simpa using w.lenIn) fun i x y hx hy => ?_
      rw [List.getElem?_map] at hx
      obtain ⟨p, hp, rfl⟩ := Option.map_eq_some_iff.mp hx
      obtain ⟨g1, g2⟩ := w.ins i p y hp hy
      obtain ⟨n1, n2⟩ := w.newIns p (List.mem_of_getElem? hp)
      exact ⟨true, p.2, by rw [k _ n1]; exact g1, true, by rw [k _ n2]; exact g2⟩
    · refine forall2_of (by simpa using w.lenOut) fun i x y hx hy => ?_
      rw [List.getElem?_map] at hx
      obtain ⟨p, hp, rfl⟩ := Option.map_eq_some_iff.mp hx
      exact ⟨p.2, by rw [k _ (w.newOuts p (List.mem_of_getElem? hp))]; exact w.outs i p y hp hy⟩

/-- A mutable transaction that has the same input object twice. -/
def shared : Heap :=
  [.outpoint true (List.replicate 32 7#8) 3, .txin true 0 [0x51#8] 5, .seq true [1, 1], .txout true 9 [], .seq true [3], .tx true 1 2 4 0 none]
def sharedContent : CTransaction := ⟨1, [⟨⟨List.replicate 32 7#8, 3⟩, [0x51#8], 5⟩, ⟨⟨List.replicate 32 7#8, 3⟩, [0x51#8], 5⟩], [⟨9, []⟩], 0⟩

theorem shared_shows : Shows shared 5 sharedContent := by
  have hi : ShowsIn shared 1 ⟨⟨List.replicate 32 7#8, 3⟩, [0x51#8], 5⟩ := ⟨true, 0, rfl, true, rfl⟩
  exact ⟨true, 2, 4, none, rfl, ⟨true, [1, 1], rfl, .cons hi (.cons hi .nil)⟩, true, [3], rfl, .cons ⟨true, rfl⟩ .nil⟩

/-- Assignment through one reference to the shared input is seen through the other … -/
example : (readTx 5 (Edit.run 5 (.sequence 0 8) shared).2).1 =
    .ok ⟨1, [⟨⟨List.replicate 32 7#8, 3⟩, [0x51#8], 8⟩, ⟨⟨List.replicate 32 7#8, 3⟩, [0x51#8], 8⟩], [⟨9, []⟩], 0⟩ := by decide +kernel
/-- … but not in a copy, where the two are different objects, … -/
example : ∃ b h1, copyTx 5 shared = (.ok b, h1) ∧ (Edit.run b (.sequence 0 8) h1).1 = .ok () ∧
    (readTx b (Edit.run b (.sequence 0 8) h1).2).1 = .ok ⟨1, [⟨⟨List.replicate 32 7#8, 3⟩, [0x51#8], 8⟩, ⟨⟨List.replicate 32 7#8, 3⟩, [0x51#8], 5⟩], [⟨9, []⟩], 0⟩ ∧
    (readTx 5 (Edit.run b (.sequence 0 8) h1).2).1 = .ok sharedContent := by
  obtain ⟨b, h1, e, _⟩ := C124_edits shared_shows (by decide)
  refine ⟨_, _, rfl, ?_⟩
  decide +kernel
/-- … and the theorems apply to it. -/
example (H : HashFns) (ty : Int) : Kept shared (sigHash H [0x51#8] 5 0 ty shared).2 := (C124_sighash H shared_shows _ _ _).2.2.2

/-! ## C125 -/

/-- C125: "a transaction that is not of a mutable class never changes": whatever is done after `CTransaction(…)`, the content is the one it was made with,
and `GetHash()` is the hash of `serialize()`. -/
def C125_statement (H : HashFns) : Prop :=
  ∀ (h : Heap) (i o : Addr) (l v : Int) (a : Addr) (h' : Heap) (t : CTransaction), newTx i o l v h = (.ok a, h') → Shows h' a t →
    ∀ ss : List Stmt, Shows (runStmts H ss h') a t ∧ (getHash H a (runStmts H ss h')).1 = t.ser.map H.hash256

/-- A `CMutableOutPoint`, a `CTxIn` made with it, the lists of inputs and outputs. -/
def mutablePrev : Heap := [.outpoint true (List.replicate 32 7#8) 3, .txin false 0 [] 5, .seq false [1], .seq false []]

/-- C125 fails for inputs made with a `CMutableOutPoint`, which neither `CTxIn` nor `CTransaction` copies. -/
theorem C125_refuted (H : HashFns) : ¬ C125_statement H := by
  intro c
  have := c mutablePrev 2 3 0 1 6 (newTx 2 3 0 1 mutablePrev).2 ⟨1, [⟨⟨List.replicate 32 7#8, 3⟩, [], 5⟩], [], 0⟩ rfl
    ⟨false, 4, 5, none, rfl, ⟨false, [1], rfl, .cons ⟨false, 0, rfl, true, rfl⟩ .nil⟩, false, [], rfl, .nil⟩ [.setN 0 4]
  have h1 : (readTx 6 (setN 0 4 (newTx 2 3 0 1 mutablePrev).2).2).1 = _ := congrArg Prod.fst (readTx_run this.1)
  revert h1
  decide +kernel

/-- C125, what holds: a transaction nothing of which is mutable keeps its content whatever is done, and `GetHash()` and `serialize()` always give the
same.  It is enough that the hash that may be remembered was right at the start. -/
theorem C125_frozen_partial (H : HashFns) {h : Heap} {a : Addr} {t : CTransaction} (f : Frozen h a) (s : Shows h a t)
    (c : ∀ m v i o l d, h[a]? = some (.tx m v i o l (some d)) → m = false → ∃ b, t.ser = .ok b ∧ d = H.hash256 b) (ss : List Stmt) :
    Frozen (runStmts H ss h) a ∧ Shows (runStmts H ss h) a t ∧ serialize a (runStmts H ss h) = (t.ser, runStmts H ss h) ∧
      (getHash H a (runStmts H ss h)).1 = t.ser.map H.hash256 := by
  obtain ⟨f', s', c'⟩ := stays_stmts (H := H) ss h a t f s c
  exact ⟨f', s', serialize_run s', getHash_run s' c'⟩

/-- C125, what holds: a transaction read with `deserialize` is such a transaction. -/
theorem C125_read_partial (H : HashFns) {b : Bytes} {t : CTransaction} (ht : deserializeAll CTransaction.deser b = .ok t) (h : Heap) (ss : List Stmt) :
    ∃ a h', loadTx b h = (.ok a, h') ∧ Kept h h' ∧ Shows (runStmts H ss h') a t ∧ (getHash H a (runStmts H ss h')).1 = t.ser.map H.hash256 := by
  obtain ⟨a, h', e, k, f, s, c⟩ := loadTx_run (H := H) ht h
  obtain ⟨_, s', _, g⟩ := C125_frozen_partial H f s c ss
  exact ⟨a, h', e, k, s', g⟩

/-- C125, what holds: the transactions made with `CTransaction(…)` for which the statement holds are exactly those whose inputs have no
`CMutableOutPoint`. -/
theorem C125_exact_partial (H : HashFns) {h : Heap} {i o : Addr} {l v : Int} {a : Addr} {h' : Heap} {t : CTransaction} (e : newTx i o l v h = (.ok a, h'))
    (s : Shows h' a t) :
    (∀ ss : List Stmt, Shows (runStmts H ss h') a t ∧ (getHash H a (runStmts H ss h')).1 = t.ser.map H.hash256) ↔
      ∃ b xs, h'[i]? = some (.seq b xs) ∧ ∀ x ∈ xs, ∃ p sc q y n, h'[x]? = some (.txin false p sc q) ∧ h'[p]? = some (.outpoint false y n) := by
  obtain ⟨hl, k, I, O, b, is, b', ys, os, c1, c2, c3, c4, c5, c6, c7⟩ := newTx_inv e
  have s0 := s
  obtain ⟨m, i', o', c, h1, ⟨b1, is', h2, h3⟩, b2, os', h4, h5⟩ := s0
  rw [c1] at h1
  cases h1
  rw [c3] at h2
  cases h2
  constructor
  · intro hs
    refine ⟨b, is, c2, fun x hx => ?_⟩
    obtain ⟨p, sc, q, hp⟩ := c6 x hx
    obtain ⟨j, hj⟩ := List.mem_iff_getElem?.mp hx
    obtain ⟨hj1, hj2⟩ := List.getElem?_eq_some_iff.mp hj
    have hj' : j < t.vin.length := by rw [← h3.length_eq]; exact hj1
    obtain ⟨m, p', e4, m', e5⟩ := h3.get (i := j) hj1 hj'
    rw [List.get_eq_getElem, hj2, hp] at e4
    injection e4 with e4
    injection e4 with _ e4 _ _
    subst e4
    cases m' with
    | false => exact ⟨p, sc, q, _, _, hp, e5⟩
    | true =>
      exfalso
      have hr := (hs [.setN p ((t.vin.get ⟨j, hj'⟩).prevout.n + 1)]).1
      have hrun : runStmts H [.setN p ((t.vin.get ⟨j, hj'⟩).prevout.n + 1)] h' =
          h'.set p (.outpoint true (t.vin.get ⟨j, hj'⟩).prevout.hash ((t.vin.get ⟨j, hj'⟩).prevout.n + 1)) := by
        show (setN p ((t.vin.get ⟨j, hj'⟩).prevout.n + 1) h').2 = _
        unfold setN
        rw [TH.bind_ok (cell_some e5)]
        rfl
      rw [hrun] at hr
      generalize hc : Cell.outpoint true (t.vin.get ⟨j, hj'⟩).prevout.hash ((t.vin.get ⟨j, hj'⟩).prevout.n + 1) = c at hr
      have ne : ∀ {b : Addr} {d : Cell}, h'[b]? = some d → (∀ m y n, d ≠ .outpoint m y n) → (h'.set p c)[b]? = some d := by
        intro b d hb hd
        rw [set_other]
        · exact hb
        · rintro rfl
          rw [e5] at hb
          cases hb
          exact hd _ _ _ rfl
      obtain ⟨m2, i2, o2, c2', g1, ⟨b3, is2, g2, g3⟩, _⟩ := hr
      rw [ne c1 (by simp)] at g1
      cases g1
      rw [ne c3 (by simp)] at g2
      cases g2
      obtain ⟨m3, p3, f1, m4, f2⟩ := g3.get (i := j) hj1 hj'
      rw [List.get_eq_getElem, hj2, ne hp (by simp)] at f1
      injection f1 with f1
      injection f1 with _ f1 _ _
      subst f1
      rw [set_self e5, ← hc] at f2
      injection f2 with f2
      injection f2 with _ _ f2
      omega
  · rintro ⟨b0, xs, d1, d2⟩ ss
    rw [c2] at d1
    cases d1
    have f : Frozen h' a := by
      refine ⟨_, _, _, _, _, c1, ⟨is, c3, fun x hx => ?_⟩, os, c5, fun y hy => ?_⟩
      · obtain ⟨p, sc, q, y, n, g1, g2⟩ := d2 x hx
        exact ⟨p, sc, q, g1, y, n, g2⟩
      · obtain ⟨x, m, v, s, _, g⟩ := mem_forall2 c7.flip y hy
        exact ⟨v, s, g⟩
    obtain ⟨_, s', _, g⟩ := C125_frozen_partial H f s (by
      intro m v i o l d e' _
      rw [c1] at e'
      cases e') ss
    exact ⟨s', g⟩

/-- Stale after an assignment: `GetHash()` was called before, and is not what `serialize()` would give now. -/
example : ∃ (h : Heap) (a : Addr), (getHash realHash a h).1 ≠ ((serialize a h).1).map realHash.hash256 ∧
    h = runStmts realHash [.newOutPoint true (List.replicate 32 7#8) 3, .newTxIn false 0 [] 5, .newList [1], .newList [], .newTx 2 3 0 1, .getHash 6, .setN 0 4] [] := by
  refine ⟨_, 6, ?_, rfl⟩
  decide +kernel
/-- The bytes of a transaction. -/
def bytesOfTx : Bytes := hex "01000000010707070707070707070707070707070707070707070707070707070707070707030000000151050000000109000000000000000000000000"
/-- It is read, and attempts to change it are made: the assignments fail, and the list the inputs were read into is not the one of the transaction. -/
example : (loadTx bytesOfTx []).1 = .ok 7 ∧ (setSequence 1 7 (loadTx bytesOfTx []).2).1 = .error .attributeError ∧ (setVin 7 2 (loadTx bytesOfTx []).2).1 = .error .attributeError ∧
    (append 5 1 (loadTx bytesOfTx []).2).1 = .error .attributeError ∧ (append 2 1 (loadTx bytesOfTx []).2).1 = .ok () ∧
    (readTx 7 (append 2 1 (loadTx bytesOfTx []).2).2).1 = .ok ⟨1, [⟨⟨List.replicate 32 7#8, 3⟩, [0x51#8], 5⟩], [⟨9, []⟩], 0⟩ := by decide +kernel

end Verif.Btc.Objs
