import Verif.Spec.Net
import Verif.Props.Block
import Verif.Lemmas.Bits2
namespace Verif.Btc
open Verif

theorem RT.each_map {α β} {ser : α → Py Bytes} {de : P β} (f : α → β) : ∀ {xs : List α} {e : Bytes}, serEach ser xs = .ok e →
    (∀ x ∈ xs, ∀ e, ser x = .ok e → RT .btcTrunc de e (f x)) → RT .btcTrunc (deserEach de xs.length) e (xs.map f)
  | [], e, h, _ => by cases h; exact RT.pure _
  | x :: xs, e, h, hx => by
    obtain ⟨a, ha, h⟩ := Except.bind_eq_ok h
    obtain ⟨b, hb, h⟩ := Except.bind_eq_ok h
    cases h
    have h1 := RT.each_map f hb (fun y hy => hx y (List.mem_cons_of_mem _ hy))
    have h2 := hx x (List.mem_cons_self ..) a ha
    have h3 := h1.bind (f := fun ys => (return f x :: ys : P (List β))) (RT.pure _)
    rw [List.append_nil] at h3
    exact h2.bind h3

theorem RT.vector_map {α β} {ser : α → Py Bytes} {de : P β} (f : α → β) {xs : List α} {e : Bytes} (h : serVector ser xs = .ok e)
    (hx : ∀ x ∈ xs, ∀ e, ser x = .ok e → RT .btcTrunc de e (f x)) : RT .btcTrunc (deserVector de) e (xs.map f) := by
  unfold serVector at h
  obtain ⟨l, hl, h⟩ := Except.bind_eq_ok h
  obtain ⟨b, hb, h⟩ := Except.bind_eq_ok h
  cases h
  exact (RT.varInt hl).bind (RT.each_map f hb hx)

theorem serEach_le {α} {ser : α → Py Bytes} : ∀ {xs : List α} {e : Bytes}, serEach ser xs = .ok e → ∀ x ∈ xs, ∃ a, ser x = .ok a ∧ a.length ≤ e.length
  | [], _, _, _, h => by cases h
  | x :: xs, e, h, y, hy => by
    obtain ⟨a, ha, h⟩ := Except.bind_eq_ok h
    obtain ⟨b, hb, h⟩ := Except.bind_eq_ok h
    cases h
    rcases List.mem_cons.mp hy with rfl | hy
    · exact ⟨a, ha, by simp⟩
    · obtain ⟨c, hc, hl⟩ := serEach_le hb y hy
      exact ⟨c, hc, by simp; omega⟩

theorem serVector_le {α} {ser : α → Py Bytes} {xs : List α} {e : Bytes} (h : serVector ser xs = .ok e) : ∀ x ∈ xs, ∃ a, ser x = .ok a ∧ a.length ≤ e.length := by
  unfold serVector at h
  obtain ⟨l, hl, h⟩ := Except.bind_eq_ok h
  obtain ⟨b, hb, h⟩ := Except.bind_eq_ok h
  cases h
  intro x hx
  obtain ⟨a, ha, hle⟩ := serEach_le hb x hx
  exact ⟨a, ha, by simp; omega⟩

theorem serBytes_le {b e : Bytes} (h : serBytes b = .ok e) : b.length ≤ e.length := by
  unfold serBytes at h
  obtain ⟨l, hl, h⟩ := Except.bind_eq_ok h
  cases h
  simp

theorem tx_fits {t : CTransaction} {e : Bytes} (h : t.ser = .ok e) (he : e.length ≤ MAX_SIZE) : t.ScriptsFit := by
  unfold CTransaction.ser at h
  obtain ⟨a, ha, h⟩ := Except.bind_eq_ok h
  obtain ⟨b, hb, h⟩ := Except.bind_eq_ok h
  obtain ⟨c, hc, h⟩ := Except.bind_eq_ok h
  obtain ⟨d, hd, h⟩ := Except.bind_eq_ok h
  cases h
  simp only [List.length_append] at he
  constructor
  · intro i hi
    obtain ⟨x, hx, hl⟩ := serVector_le hb i hi
    unfold CTxIn.ser at hx
    obtain ⟨x1, h1, hx⟩ := Except.bind_eq_ok hx
    obtain ⟨x2, h2, hx⟩ := Except.bind_eq_ok hx
    obtain ⟨x3, h3, hx⟩ := Except.bind_eq_ok hx
    cases hx
    have := serBytes_le h2
    simp only [List.length_append] at hl
    omega
  · intro o ho
    obtain ⟨x, hx, hl⟩ := serVector_le hc o ho
    unfold CTxOut.ser at hx
    obtain ⟨x1, h1, hx⟩ := Except.bind_eq_ok hx
    obtain ⟨x2, h2, hx⟩ := Except.bind_eq_ok hx
    cases hx
    have := serBytes_le h2
    simp only [List.length_append] at hl
    omega

theorem block_fits {b : CBlock} {e : Bytes} (h : b.ser = .ok e) (he : e.length ≤ MAX_SIZE) : ∀ t ∈ b.vtx, t.ScriptsFit := by
  unfold CBlock.ser at h
  obtain ⟨x, hx, h⟩ := Except.bind_eq_ok h
  obtain ⟨y, hy, h⟩ := Except.bind_eq_ok h
  cases h
  simp only [List.length_append] at he
  intro t ht
  obtain ⟨a, ha, hl⟩ := serVector_le hy t ht
  exact tx_fits ha (by omega)

theorem RT.block {H : HashFns} {b : CBlock} {e : Bytes} (h : b.ser = .ok e) (he : e.length ≤ MAX_SIZE) : RT .btcTrunc (CBlock.deser H) e b := by
  have hs := block_fits h he
  obtain ⟨hb, es, h1, h2, v, h3, rfl⟩ := CBlock.ser_serialized h
  unfold CBlock.deser
  apply RT.bind (RT.header h1)
  have h4 := RT.vector h3 (fun t ht e' he' => RT.tx he' (hs t ht))
  obtain ⟨t, h5, _⟩ := buildMerkleTree_eq H (es.map H.hash256)
  have h6 : buildMerkleTreeFromTxs H b.vtx = .ok t := by
    unfold buildMerkleTreeFromTxs
    rw [h2.getHash]
    exact h5
  have h7 := (RT.lift (tr := .btcTrunc) h6).bind (f := fun _ => (return ⟨b.header, b.vtx⟩ : P CBlock)) (RT.pure b)
  have := h4.bind (f := fun vtx => (do
    let _ ← P.lift (buildMerkleTreeFromTxs H vtx)
    return ⟨b.header, vtx⟩ : P CBlock)) h7
  simpa using this

theorem RT.address {aton : List Char → Py Bytes} (hi : Inet aton) {wt : Bool} {a : CAddress} {e : Bytes} (h : a.ser aton wt = .ok e) (hf : a.Fits wt) :
    RT .btcTrunc (CAddress.deser wt) e (a.received aton wt) := by
  unfold CAddress.ser at h
  obtain ⟨t, ht, h⟩ := Except.bind_eq_ok h
  obtain ⟨s, hs, h⟩ := Except.bind_eq_ok h
  obtain ⟨i, hip, h⟩ := Except.bind_eq_ok h
  obtain ⟨p, hp, h⟩ := Except.bind_eq_ok h
  cases h
  obtain ⟨s1, s2, _⟩ := packU_ok hs
  obtain ⟨p1, p2, _⟩ := packU_ok hp
  have h0 : RT .btcTrunc (if PROTO_VERSION ≥ CADDR_TIME_VERSION ∧ wt = false then do
      let b ← Btc.serRead 4
      return unpackU b
    else return 0 : P Int) t (if wt then 0 else a.nTime) := by
    cases wt with
    | true =>
      rw [if_neg (by simp)] at ht ⊢
      cases ht
      exact RT.pure _
    | false =>
      rw [if_pos ⟨hf.2 rfl, rfl⟩] at ht
      rw [if_pos ⟨by decide, rfl⟩]
      obtain ⟨t1, t2, _⟩ := packU_ok ht
      have := (RT.serRead t1 (by decide)).bind (f := fun b => (return unpackU b : P Int)) (RT.pure _)
      exact this.congr (by simp) (by simp [t2])
  unfold CAddress.deser
  have p3 : p.reverse.length = 2 := by rw [List.length_reverse]; exact p1
  refine RT.congr (h0.bind ((RT.serRead s1 (by decide)).bind ((RT.serRead hf.1 (by decide)).bind ((RT.serRead (hi.four hip) (by decide)).bind
    ((RT.serRead p3 (by decide)).bind (RT.pure _)))))) (by simp) ?_
  simp [CAddress.received, hip, s2, p2]

theorem RT.cinv {i : CInv} {e : Bytes} (h : i.ser = .ok e) (hf : i.hash.length = 32) : RT .btcTrunc CInv.deser e i := by
  unfold CInv.ser at h
  obtain ⟨t, ht, h⟩ := Except.bind_eq_ok h
  cases h
  obtain ⟨t1, t2⟩ := packS_ok (by omega) ht
  unfold CInv.deser
  exact RT.congr ((RT.serRead t1 (by decide)).bind ((RT.serRead hf (by decide)).bind (RT.pure _))) (by simp) (by rw [t2])

theorem RT.locator {l : CBlockLocator} {e : Bytes} (h : l.ser = .ok e) : RT .btcTrunc CBlockLocator.deser e l := by
  unfold CBlockLocator.ser at h
  obtain ⟨t, ht, h⟩ := Except.bind_eq_ok h
  obtain ⟨v, hv, h⟩ := Except.bind_eq_ok h
  cases h
  obtain ⟨t1, t2⟩ := packS_ok (by omega) ht
  unfold CBlockLocator.deser
  refine RT.congr ((RT.serRead t1 (by decide)).bind ((RT.vector hv (de := Btc.serRead 32) ?_).bind (RT.pure _))) (by simp) (by rw [t2])
  intro u _ e hu
  unfold serUint256 at hu
  obtain ⟨_, hu1, hu⟩ := Except.bind_eq_ok hu
  cases hu
  exact RT.serRead (by simpa using pyAssert_ok hu1) (by decide)

theorem RT.locator_stop {l : CBlockLocator} {s e : Bytes} (h : serLocator l s = .ok e) (hs : s.length = 32) : RT .btcTrunc deserLocator e (l, s) := by
  unfold serLocator at h
  obtain ⟨t, ht, h⟩ := Except.bind_eq_ok h
  cases h
  unfold deserLocator
  exact RT.congr ((RT.locator ht).bind ((RT.serRead hs (by decide)).bind (RT.pure _))) (by simp) rfl

theorem RT.alert {a : CAlert} {e : Bytes} (h : a.ser = .ok e) (he : e.length ≤ MAX_SIZE) : RT .btcTrunc CAlert.deser e a := by
  unfold CAlert.ser at h
  obtain ⟨m, hm, h⟩ := Except.bind_eq_ok h
  obtain ⟨s, hs, h⟩ := Except.bind_eq_ok h
  cases h
  simp only [List.length_append] at he
  have h1 := serBytes_le hm
  have h2 := serBytes_le hs
  unfold CAlert.deser
  exact RT.congr ((RT.bytes hm (by omega)).bind ((RT.bytes hs (by omega)).bind (RT.pure _))) (by simp) rfl

theorem orRaise_ok {α} {e : PyErr} {x : Option α} {a : α} (h : orRaise e x = .ok a) : x = some a := by
  cases x <;> cases h
  rfl

theorem RT.versionMsg {aton : List Char → Py Bytes} (hi : Inet aton) {m : VersionMsg} {e : Bytes} (h : m.ser aton = .ok e) (hf : (Msg.version m).Fits)
    (he : e.length ≤ MAX_SIZE) :
    RT .btcTrunc VersionMsg.deser e { m with addrTo := m.addrTo.received aton true, addrFrom := m.addrFrom.map (·.received aton true) } := by
  obtain ⟨v, s, t, dst, frm, n, sub, hh⟩ := m
  unfold VersionMsg.ser at h
  obtain ⟨bv, hv, h⟩ := Except.bind_eq_ok h
  obtain ⟨bs, hs, h⟩ := Except.bind_eq_ok h
  obtain ⟨bt, ht, h⟩ := Except.bind_eq_ok h
  obtain ⟨bto, hto, h⟩ := Except.bind_eq_ok h
  obtain ⟨f, hf', h⟩ := Except.bind_eq_ok h
  obtain ⟨bfrm, hfrm, h⟩ := Except.bind_eq_ok h
  obtain ⟨n', hn', h⟩ := Except.bind_eq_ok h
  obtain ⟨bn, hn, h⟩ := Except.bind_eq_ok h
  obtain ⟨sub', hsub', h⟩ := Except.bind_eq_ok h
  obtain ⟨bsub, hsub, h⟩ := Except.bind_eq_ok h
  obtain ⟨hh', hhh', h⟩ := Except.bind_eq_ok h
  obtain ⟨bhh, hhh, h⟩ := Except.bind_eq_ok h
  cases h
  cases orRaise_ok hf'
  cases orRaise_ok hn'
  cases orRaise_ok hsub'
  cases orRaise_ok hhh'
  obtain ⟨f1, f2, f3, f4⟩ := hf
  have f2 := f2 f rfl
  dsimp only at f1 f3 f4 hv hs ht hto
  obtain ⟨v1, v2⟩ := packS_ok (by omega) hv
  obtain ⟨s1, s2, _⟩ := packU_ok hs
  obtain ⟨t1, t2⟩ := packS_ok (by omega) ht
  obtain ⟨n1, n2, _⟩ := packU_ok hn
  obtain ⟨h1, h2⟩ := packS_ok (by omega) hhh
  simp only [List.length_append] at he
  have hle := serBytes_le hsub
  unfold VersionMsg.deser
  have hver : (if unpackS 4 bv = 10300 then 300 else unpackS 4 bv) = v := by rw [v2, if_neg f4]
  have h5 := (RT.address hi hfrm f2).bind ((RT.serRead n1 (by decide)).bind ((RT.bytes hsub (by omega)).bind ((RT.serRead h1 (by decide)).bind (RT.pure _))))
    (b := (⟨v, unpackU bs, unpackS 8 bt, dst.received aton true, some (f.received aton true), some (unpackU bn), some sub', some (unpackS 4 bhh)⟩ : VersionMsg))
    (f := fun frm => do
      let n ← Btc.serRead 8
      let sub ← deserBytes
      let h ← Btc.serRead 4
      return ⟨v, unpackU bs, unpackS 8 bt, dst.received aton true, some frm, some (unpackU n), some sub, some (unpackS 4 h)⟩)
  refine RT.congr ((RT.serRead v1 (by decide)).bind ((RT.serRead s1 (by decide)).bind ((RT.serRead t1 (by decide)).bind ((RT.address hi hto f1).bind
    (e2 := bfrm ++ (bn ++ (bsub ++ (bhh ++ []))))
    (b := (⟨v, unpackU bs, unpackS 8 bt, dst.received aton true, some (f.received aton true), some (unpackU bn), some sub', some (unpackS 4 bhh)⟩ : VersionMsg)) ?_)))) ?_ ?_
  · rw [hver, if_pos (by omega)]
    simp only [if_pos f3, ge_iff_le]
    exact h5
  · simp
  · simp [s2, t2, n2, h2]

theorem versionMsg_arrives {aton : List Char → Py Bytes} (hi : Inet aton) {m : VersionMsg} {e : Bytes} (h : m.ser aton = .ok e) (f1 : m.addrTo.Fits true)
    (f2 : ∀ a, m.addrFrom = some a → a.Fits true) (he : e.length ≤ MAX_SIZE) : ∃ left, VersionMsg.deser e = .ok (m.arrives aton, left) := by
  obtain ⟨v, s, t, dst, frm, n, sub, hh⟩ := m
  unfold VersionMsg.ser at h
  obtain ⟨bv, hv, h⟩ := Except.bind_eq_ok h
  obtain ⟨bs, hs, h⟩ := Except.bind_eq_ok h
  obtain ⟨bt, ht, h⟩ := Except.bind_eq_ok h
  obtain ⟨bto, hto, h⟩ := Except.bind_eq_ok h
  obtain ⟨f, hf', h⟩ := Except.bind_eq_ok h
  obtain ⟨bfrm, hfrm, h⟩ := Except.bind_eq_ok h
  obtain ⟨n', hn', h⟩ := Except.bind_eq_ok h
  obtain ⟨bn, hn, h⟩ := Except.bind_eq_ok h
  obtain ⟨sub', hsub', h⟩ := Except.bind_eq_ok h
  obtain ⟨bsub, hsub, h⟩ := Except.bind_eq_ok h
  obtain ⟨hh', hhh', h⟩ := Except.bind_eq_ok h
  obtain ⟨bhh, hhh, h⟩ := Except.bind_eq_ok h
  cases h
  cases orRaise_ok hf'
  cases orRaise_ok hn'
  cases orRaise_ok hsub'
  cases orRaise_ok hhh'
  have f2 := f2 f rfl
  dsimp only at f1 hv hs ht hto
  obtain ⟨v1, v2⟩ := packS_ok (by omega) hv
  obtain ⟨s1, s2, _⟩ := packU_ok hs
  obtain ⟨t1, t2⟩ := packS_ok (by omega) ht
  obtain ⟨n1, n2, _⟩ := packU_ok hn
  obtain ⟨h1, h2⟩ := packS_ok (by omega) hhh
  simp only [List.length_append] at he
  have hle := serBytes_le hsub
  simp only [List.append_assoc]
  unfold VersionMsg.deser
  rw [P.bind_ok ((RT.serRead v1 (by decide)).reads _)]
  rw [v2, P.bind_ok ((RT.serRead s1 (by decide)).reads _), P.bind_ok ((RT.serRead t1 (by decide)).reads _), P.bind_ok ((RT.address hi hto f1).reads _)]
  unfold VersionMsg.arrives
  dsimp only
  generalize (if v = 10300 then 300 else v) = w
  by_cases c1 : 106 ≤ w
  · rw [if_pos c1, P.bind_ok ((RT.address hi hfrm f2).reads _), P.bind_ok ((RT.serRead n1 (by decide)).reads _), P.bind_ok ((RT.bytes hsub (by omega)).reads _)]
    by_cases c2 : 209 ≤ w
    · rw [if_pos c2]
      have := (RT.serRead h1 (by decide)).reads []
      rw [List.append_nil] at this
      rw [P.bind_ok this]
      exact ⟨[], by simp [c1, c2, s2, t2, n2, h2]⟩
    · rw [if_neg c2]
      exact ⟨bhh, by simp [c1, c2, s2, t2, n2]⟩
  · rw [if_neg c1]
    have c2 : ¬ 209 ≤ w := by omega
    exact ⟨_, by simp [c1, c2, s2, t2]; rfl⟩

theorem then_reads {α β} {p : P α} {e : Bytes} {a : α} (f : α → β) (h : RT .btcTrunc p e a) : RT .btcTrunc (do let x ← p; return f x) e (f a) := by
  have := h.bind (f := fun x => (return f x : P β)) (RT.pure _)
  rwa [List.append_nil] at this

theorem vector_self {α} {ser : α → Py Bytes} {de : P α} {xs : List α} {e : Bytes} (h : serVector ser xs = .ok e) (he : e.length ≤ MAX_SIZE)
    (hx : ∀ x ∈ xs, ∀ e, ser x = .ok e → e.length ≤ MAX_SIZE → RT .btcTrunc de e x) : RT .btcTrunc (deserVector de) e xs :=
  RT.vector h fun x hx' e' he' => by
    obtain ⟨a, ha, hl⟩ := serVector_le h x hx'
    rw [he'] at ha
    cases ha
    exact hx x hx' e' he' (by omega)

/-- The class found for a command reads what the class wrote. -/
theorem body_reads (H : HashFns) {aton : List Char → Py Bytes} (hi : Inet aton) {m : Msg} {body : Bytes} (h : m.ser aton = .ok body) (hf : m.Fits)
    (he : body.length ≤ MAX_SIZE) : ∃ de, (messagemap H).lookup m.command = some de ∧ RT .btcTrunc de body (m.received aton) := by
  cases m with
  | version m => exact ⟨_, rfl, then_reads _ (RT.versionMsg hi h hf he)⟩
  | verack => cases h; exact ⟨_, rfl, RT.pure _⟩
  | addr as => exact ⟨_, rfl, then_reads _ (RT.vector_map _ h fun a ha e' he' => RT.address hi he' (hf a ha))⟩
  | alert a => exact ⟨_, rfl, then_reads _ (RT.alert h he)⟩
  | inv is => exact ⟨_, rfl, then_reads _ (RT.vector h fun i hi e he => RT.cinv he (hf i hi))⟩
  | getdata is => exact ⟨_, rfl, then_reads _ (RT.vector h fun i hi e he => RT.cinv he (hf i hi))⟩
  | getblocks l s => exact ⟨_, rfl, then_reads (fun x => Msg.getblocks x.1 x.2) (RT.locator_stop h hf)⟩
  | getheaders l s => exact ⟨_, rfl, then_reads (fun x => Msg.getheaders x.1 x.2) (RT.locator_stop h hf)⟩
  | headers hs => exact ⟨_, rfl, then_reads _ (vector_self h he fun b _ e h he => RT.block h he)⟩
  | tx t => exact ⟨_, rfl, then_reads _ (RT.tx h (tx_fits h he))⟩
  | block b => exact ⟨_, rfl, then_reads _ (RT.block h he)⟩
  | getaddr => cases h; exact ⟨_, rfl, RT.pure _⟩
  | ping n =>
    obtain ⟨h1, h2, _⟩ := packU_ok h
    exact ⟨_, rfl, (then_reads (fun b => Msg.ping (unpackU b)) (RT.serRead h1 (by decide))).congr rfl (by rw [h2]; rfl)⟩
  | pong n =>
    obtain ⟨h1, h2, _⟩ := packU_ok h
    exact ⟨_, rfl, (then_reads (fun b => Msg.pong (unpackU b)) (RT.serRead h1 (by decide))).congr rfl (by rw [h2]; rfl)⟩
  | mempool => cases h; exact ⟨_, rfl, RT.pure _⟩

theorem slice24 {xs : Bytes} (h : 24 ≤ xs.length) (b : Int) : pySlice xs ⟨some 24, some b, none⟩ =
    .ok ((xs.take ((if b < 0 then max (b + xs.length) 0 else min b xs.length) : Int).toNat).drop 24) := by
  refine pySlice_step1 (a := 24) (b := if b < 0 then max (b + xs.length) 0 else min b xs.length) ?_
  unfold PySlice.indices
  have h1 : ¬ ((1 : Int) < 0) := by decide
  have h2 : ¬ ((1 : Int) = 0) := by decide
  have h3 : ¬ ((24 : Int) < 0) := by decide
  have h4 : ¬ ((24 : Int) > xs.length) := by omega
  simp only [Option.getD, if_neg h1, if_neg h2, if_neg h3, if_neg h4]
  congr 3
  by_cases hb : b < 0
  · rw [if_pos hb, if_pos hb]; split <;> omega
  · rw [if_neg hb, if_neg hb]; split <;> omega

theorem streamDeser_pieces (H : HashFns) (magic : Bytes) {a c l k : Bytes} (tail : Bytes) (la : a.length = 4) (lc : c.length = 12) (ll : l.length = 4) (lk : k.length = 4) :
    Msg.streamDeser H magic (a ++ c ++ l ++ k ++ tail) =
      if a ≠ magic then .error .valueError else
      match serReadInt (unpackS 4 l) tail with
      | .error e => .error e
      | .ok (more, rest) =>
        match pySlice (a ++ c ++ l ++ k ++ more) ⟨some 24, some (24 + unpackS 4 l), none⟩ with
        | .error e => .error e
        | .ok msg =>
          if k ≠ (H.hash256 msg).take 4 then .error .valueError
          else match decoded H c msg with
            | .error e => .error e
            | .ok r => .ok (r, rest) := by
  unfold Msg.streamDeser
  have h0 : (a ++ c ++ l ++ k).length = 24 := by simp [la, lc, ll, lk]
  have h24 : serRead 24 (a ++ c ++ l ++ k ++ tail) = .ok (a ++ c ++ l ++ k, tail) := (RT.serRead h0 (by decide)).reads tail
  rw [P.bind_ok h24]
  have e1 : (a ++ c ++ l ++ k).take 4 = a := by
    rw [List.append_assoc, List.append_assoc, ← la, List.take_left]
  have e2 : ((a ++ c ++ l ++ k).drop 4).take 12 = c := by
    rw [List.append_assoc, List.append_assoc, ← la, List.drop_left, ← lc, List.take_left]
  have e3 : ((a ++ c ++ l ++ k).drop 16).take 4 = l := by
    rw [List.append_assoc, show 16 = (a ++ c).length by simp [la, lc], List.drop_left, ← ll, List.take_left]
  have e4 : ((a ++ c ++ l ++ k).drop 20).take 4 = k := by
    rw [show 20 = (a ++ c ++ l).length by simp [la, lc, ll], List.drop_left, ← lk, List.take_length]
  simp only [e1, e2, e3, e4]
  by_cases hm : a ≠ magic
  · rw [if_pos hm, if_pos hm]; rfl
  rw [if_neg hm, if_neg hm, P.bind_apply]
  cases serReadInt (unpackS 4 l) tail with
  | error e => rfl
  | ok r =>
    obtain ⟨more, rest⟩ := r
    dsimp only
    rw [P.bind_apply]
    cases pySlice (a ++ c ++ l ++ k ++ more) ⟨some 24, some (24 + unpackS 4 l), none⟩ with
    | error e => rfl
    | ok msg =>
      dsimp only [P.lift]
      by_cases hk : k ≠ (H.hash256 msg).take 4
      · rw [if_pos hk, if_pos hk]; rfl
      rw [if_neg hk, if_neg hk]
      unfold decoded
      cases (messagemap H).lookup (c.takeWhile (· ≠ 0#8)) with
      | none =>
        dsimp only
        split <;> rfl
      | some de =>
        dsimp only
        rw [P.bind_apply]
        unfold P.lift
        rcases de msg with e | ⟨m, x⟩ <;> rfl

theorem unpackS4 {l : Bytes} (ll : l.length = 4) : unpackS 4 l = if leNat l < 2 ^ 31 then (leNat l : Int) else (leNat l : Int) - 2 ^ 32 := rfl

theorem streamDeser_pos (H : HashFns) (magic : Bytes) {c l k tail : Bytes} (la : magic.length = 4) (lc : c.length = 12) (ll : l.length = 4) (lk : k.length = 4)
    (hn : leNat l < 2 ^ 31) :
    Msg.streamDeser H magic (magic ++ c ++ l ++ k ++ tail) =
      match serRead (leNat l) tail with
      | .error e => .error e
      | .ok (body, rest) =>
        if k ≠ (H.hash256 body).take 4 then .error .valueError
        else match decoded H c body with
          | .error e => .error e
          | .ok r => .ok (r, rest) := by
  rw [streamDeser_pieces H magic tail la lc ll lk, if_neg (by simp), unpackS4 ll, if_pos hn]
  unfold serReadInt
  rw [if_neg (by omega), Int.toNat_natCast]
  rcases hr : serRead (leNat l) tail with e | ⟨body, rest⟩
  · rfl
  · obtain ⟨_, hb⟩ := serRead_ok hr
    have h0 : (magic ++ c ++ l ++ k).length = 24 := by simp [la, lc, ll, lk]
    have hl : (magic ++ c ++ l ++ k ++ body).length = 24 + leNat l := by rw [List.length_append, h0, hb]
    dsimp only
    rw [slice24 (by omega), if_neg (by omega)]
    have : (min (24 + (leNat l : Int)) ((magic ++ c ++ l ++ k ++ body).length : Int)).toNat = (magic ++ c ++ l ++ k ++ body).length := by omega
    rw [this, List.take_length, ← h0, List.drop_left]

theorem streamDeser_neg (H : HashFns) (magic : Bytes) {c l k tail : Bytes} (la : magic.length = 4) (lc : c.length = 12) (ll : l.length = 4) (lk : k.length = 4)
    (hn : ¬ leNat l < 2 ^ 31) :
    Msg.streamDeser H magic (magic ++ c ++ l ++ k ++ tail) =
        if k ≠ (H.hash256 (negativeBody (leNat l) tail)).take 4 then .error .valueError
        else match decoded H c (negativeBody (leNat l) tail) with
          | .error e => .error e
          | .ok r => .ok (r, []) := by
  rw [streamDeser_pieces H magic tail la lc ll lk, if_neg (by simp), unpackS4 ll, if_neg hn]
  have hlt := leNat_lt l
  rw [ll] at hlt
  unfold serReadInt
  rw [if_pos (by omega)]
  have h0 : (magic ++ c ++ l ++ k).length = 24 := by simp [la, lc, ll, lk]
  have hl : (magic ++ c ++ l ++ k ++ tail).length = 24 + tail.length := by rw [List.length_append, h0]
  dsimp only
  rw [slice24 (by omega), hl]
  have : ((magic ++ c ++ l ++ k ++ tail).take ((if 24 + ((leNat l : Int) - 2 ^ 32) < 0 then max (24 + ((leNat l : Int) - 2 ^ 32) + ((24 + tail.length : Nat) : Int)) 0
      else min (24 + ((leNat l : Int) - 2 ^ 32)) ((24 + tail.length : Nat) : Int)) : Int).toNat).drop 24 = negativeBody (leNat l) tail := by
    unfold negativeBody
    by_cases h1 : 2 ^ 32 - 24 ≤ leNat l
    · rw [if_pos h1, if_neg (by omega)]
      apply List.drop_eq_nil_of_le
      rw [List.length_take]
      omega
    · rw [if_neg h1, if_pos (by omega), List.take_append, List.drop_append, List.drop_eq_nil_of_le (by rw [List.length_take]; omega), List.nil_append,
        List.length_take, h0]
      by_cases h2 : tail.length ≤ 2 ^ 32 - 24 - leNat l
      · rw [show tail.length - (2 ^ 32 - 24 - leNat l) = 0 by omega, List.take_zero]
        apply List.drop_eq_nil_of_le
        rw [List.length_take]
        omega
      · have h3 : (max (24 + ((leNat l : Int) - 2 ^ 32) + ((24 + tail.length : Nat) : Int)) 0).toNat = 24 + (tail.length - (2 ^ 32 - 24 - leNat l)) := by omega
        rw [h3, show 24 - min (24 + (tail.length - (2 ^ 32 - 24 - leNat l))) 24 = 0 by omega, List.drop_zero, Nat.add_sub_cancel_left]
  rw [this]

end Verif.Btc
