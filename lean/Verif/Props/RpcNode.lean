import Verif.Props.Rpc
import Verif.Props.Block
import Verif.Props.Btc
import Verif.Lemmas.BtcDeser
/-! # Transactions, blocks and outpoints of a node (C119-C121) -/
namespace Verif.Rpc
open Verif Btc Sus

section
variable {σ : Type} {S : Server σ} {st : PSt σ} {t : σ} {H : HashFns} {p : Prefixes}

/-! ## C119 -/

/-- C119: `getrawtransaction` asks for the hash as it is shown and returns the transaction that the node writes in hexadecimal digits. -/
theorem C119_get {x : CTransaction} {raw id : Bytes} {s : Str} (hx : x.ser = .ok raw) (hf : x.ScriptsFit) (hs : HexText s raw)
    (ha : Answers S st "getrawtransaction" [.str (shownHash id), .int 0] (.str s) t) :
    getrawtransaction S id st = (.ok x, ⟨st.count + 1, t⟩) := by
  unfold getrawtransaction
  rw [b2lx_eq, RM.bind_ok (indexed_ok (call_answers ha))]
  apply RM.lift_ok
  show (unhex s >>= fun b => deserializeAll CTransaction.deser b) = .ok x
  rw [(unhex_iff s raw).mpr hs, Except.bind_ok]
  exact C42_tx_roundtrip hx hf

/-- C119: `sendrawtransaction` sends the transaction in hexadecimal digits; the result is the hash that the node shows. -/
theorem C119_send {x : CTransaction} {raw id : Bytes} {s : Str} {fees : Bool} (hx : x.ser = .ok raw)
    (ha : Answers S st "sendrawtransaction" (.str (hexText raw) :: if fees then [.bool true] else []) (.str s) t) (hs : HexText s id.reverse) :
    sendrawtransaction S x fees st = (.ok id, ⟨st.count + 1, t⟩) := by
  unfold sendrawtransaction
  rw [RM.bind_ok (RM.lift_ok hx)]
  unfold hexlify
  rw [b2x_eq, RM.bind_ok (call_answers ha)]
  exact RM.lift_ok ((C83_txid s id).mpr hs)

/-- C119: a transaction that was sent is found again by the id that was returned, which is its hash. -/
theorem C119_tx {x : CTransaction} {id : Bytes} {fees : Bool} {st1 st2 : PSt σ} (hN : Node H S) (hf : x.ScriptsFit)
    (h : sendrawtransaction S x fees st = (.ok id, st1)) (hl : Later S st1.node st2.node) :
    x.getHash H = .ok id ∧ ∃ st3, getrawtransaction S id st2 = (.ok x, st3) := by
  unfold sendrawtransaction at h
  obtain ⟨raw, s1, h1, g⟩ := bind_inv h
  obtain ⟨hx, rfl⟩ := lift_inv h1
  obtain ⟨r, s2, h2, g'⟩ := bind_inv g
  unfold hexlify at h2
  rw [b2x_eq] at h2
  obtain ⟨t1, ha, rfl⟩ := call_ok h2
  obtain ⟨e1, e2⟩ := hN.tx _ _ _ _ _ ha
  subst e1
  obtain ⟨h3, rfl⟩ := lift_inv g'
  have h4 : H.hash256 raw = id := by
    have : jlx (.str (shownHash (H.hash256 raw))) = .ok (H.hash256 raw) := lx_shown _
    rw [this] at h3
    exact Except.ok.inj h3
  refine ⟨?_, ?_⟩
  · unfold CTransaction.getHash
    rw [hx, Except.bind_ok, ← h4]
    rfl
  · obtain ⟨t', ha'⟩ := e2 _ hl
    rw [h4] at ha'
    exact ⟨_, C119_get hx hf ((unhex_iff _ _).mp (unhex_hexText raw)) ha'⟩

/-- C119: `getblock` likewise. -/
theorem C119_getblock {b : CBlock} {raw hash : Bytes} {s : Str} (hx : b.ser = .ok raw) (hf : ∀ x ∈ b.vtx, x.ScriptsFit) (hs : HexText s raw)
    (ha : Answers S st "getblock" [.str (shownHash hash), .bool false] (.str s) t) :
    getblock S H hash st = (.ok b, ⟨st.count + 1, t⟩) := by
  unfold getblock
  rw [b2lx_eq, RM.bind_ok (indexed_ok (call_answers ha))]
  apply RM.lift_ok
  show (unhex s >>= fun b => deserializeAll (CBlock.deser H) b) = .ok b
  rw [(unhex_iff s raw).mpr hs, Except.bind_ok]
  exact C88_block_roundtrip hx hf

/-- C119: a block that was submitted is found again by its hash. -/
theorem C119_block {b : CBlock} {params : Option Json} {st1 st2 : PSt σ} (hN : Node H S) (hf : ∀ x ∈ b.vtx, x.ScriptsFit)
    (h : submitblock S b params st = (.ok .null, st1)) (hl : Later S st1.node st2.node) :
    ∃ hash st3, b.getHash H = .ok hash ∧ getblock S H hash st2 = (.ok b, st3) := by
  unfold submitblock at h
  obtain ⟨raw, s1, h1, g⟩ := bind_inv h
  obtain ⟨hx, rfl⟩ := lift_inv h1
  unfold hexlify at g
  rw [b2x_eq] at g
  obtain ⟨t1, ha, rfl⟩ := call_ok g
  obtain ⟨t', ha'⟩ := hN.block _ _ _ _ ha _ hl
  exact ⟨_, _, (C88_hash hx).1, C119_getblock hx hf ((unhex_iff _ _).mp (unhex_hexText raw)) ha'⟩

/-- C119: hashes come as they are shown. -/
theorem C119_blockhash {height : Int} {s : Str} {hash : Bytes} (hs : HexText s hash.reverse)
    (ha : Answers S st "getblockhash" [.int height] (.str s) t) : getblockhash S height st = (.ok hash, ⟨st.count + 1, t⟩) := by
  unfold getblockhash
  apply indexed_ok
  rw [RM.bind_ok (call_answers ha)]
  exact RM.lift_ok ((C83_txid s hash).mpr hs)

/-- C119: so do those of the memory pool. -/
theorem C119_mempool {l : List (Str × Bytes)} (hs : ∀ a ∈ l, HexText a.1 a.2.reverse)
    (ha : Answers S st "getrawmempool" [] (.arr (l.map fun a => .str a.1)) t) : getrawmempool S st = (.ok (l.map (·.2)), ⟨st.count + 1, t⟩) := by
  unfold getrawmempool
  rw [RM.bind_ok (call_answers ha)]
  apply RM.lift_ok
  show (l.map fun a => Json.str a.1).mapM jlx = .ok _
  clear ha
  induction l with
  | nil => rfl
  | cons a l ih =>
    rw [List.map_cons, List.mapM_cons, ih (fun b hb => hs b (by simp [hb]))]
    have : jlx (.str a.1) = .ok a.2 := (C83_txid a.1 a.2).mpr (hs a (by simp))
    rw [this]
    rfl

/-! ## C120 -/

/-- C120: if the node refuses, these methods raise `IndexError`. -/
theorem C120_index {err : Json} (hash : Bytes) (height : Int) :
    (Refuses S st "getblock" [.str (shownHash hash), .bool false] err t → getblock S H hash st = (.error (.py .indexError), ⟨st.count + 1, t⟩)) ∧
    (Refuses S st "getblockhash" [.int height] err t → getblockhash S height st = (.error (.py .indexError), ⟨st.count + 1, t⟩)) ∧
    (Refuses S st "getrawtransaction" [.str (shownHash hash), .int 0] err t →
      getrawtransaction S hash st = (.error (.py .indexError), ⟨st.count + 1, t⟩)) ∧
    (Refuses S st "getrawtransaction" [.str (shownHash hash), .int 1] err t →
      getrawtransactionVerbose S hash st = (.error (.py .indexError), ⟨st.count + 1, t⟩)) ∧
    (Refuses S st "gettransaction" [.str (shownHash hash)] err t → gettransaction S hash st = (.error (.py .indexError), ⟨st.count + 1, t⟩)) := by
  have key : ∀ {m : String} {ps : List Json}, Refuses S st m ps err t → indexed (call S (T m) ps) st = (.error (.py .indexError), ⟨st.count + 1, t⟩) := by
    intro m ps h
    have h' := call_refuses h
    obtain ⟨l, k, n, h1, h2, rfl, h3, h4⟩ := h
    exact indexed_refuses h4 h'
  refine ⟨fun h => ?_, fun h => ?_, fun h => ?_, fun h => ?_, fun h => ?_⟩
  · unfold getblock
    rw [b2lx_eq]
    exact RM.bind_error (key h)
  · unfold getblockhash
    have h' := call_refuses h
    obtain ⟨l, k, n, h1, h2, rfl, h3, h4⟩ := h
    exact indexed_refuses h4 (RM.bind_error h')
  · unfold getrawtransaction
    rw [b2lx_eq]
    exact RM.bind_error (key h)
  · unfold getrawtransactionVerbose
    rw [b2lx_eq]
    exact RM.bind_error (key h)
  · unfold gettransaction
    rw [b2lx_eq]
    exact key h

/-- C120: `gettxout` raises it if there is no such unspent output. -/
theorem C120_txout {o : COutPoint} {mem : Bool} (h : Answers S st "gettxout" [.str (shownHash o.hash), .int o.n, .bool mem] .null t) :
    gettxout S o mem st = (.error (.py .indexError), ⟨st.count + 1, t⟩) := by
  unfold gettxout
  rw [b2lx_eq, RM.bind_ok (call_answers h)]
  rfl

/-- C120: the other methods raise `JSONRPCException` with the error of the node. -/
theorem C120_raise {err : Json} (acc : Str) (n m : Int) (oacc : Option Str) (o : COutPoint) (b : Bool) (os : List COutPoint) (args : List Json)
    (x : CTransaction) (blk : CBlock) (raw : Bytes) (addr : B58Data) (a : Str) (ha : strB58 H addr = .ok a) (amount : Int) :
    (Refuses S st "getbalance" [.str acc, .int n] err t → getbalance S acc n st = (.error (.rpc err), ⟨st.count + 1, t⟩)) ∧
    (Refuses S st "getinfo" [] err t → getinfo S st = (.error (.rpc err), ⟨st.count + 1, t⟩)) ∧
    (Refuses S st "getaccountaddress" [optStr oacc] err t → getaccountaddress S H p oacc st = (.error (.rpc err), ⟨st.count + 1, t⟩)) ∧
    (Refuses S st "getnewaddress" [] err t → getnewaddress S H p none st = (.error (.rpc err), ⟨st.count + 1, t⟩)) ∧
    (Refuses S st "getnewaddress" [.str acc] err t → getnewaddress S H p (some acc) st = (.error (.rpc err), ⟨st.count + 1, t⟩)) ∧
    (Refuses S st "getrawchangeaddress" [] err t → getrawchangeaddress S H p st = (.error (.rpc err), ⟨st.count + 1, t⟩)) ∧
    (Refuses S st "getrawmempool" [] err t → getrawmempool S st = (.error (.rpc err), ⟨st.count + 1, t⟩)) ∧
    (Refuses S st "getreceivedbyaddress" [.str a, .int n] err t → getreceivedbyaddress S H addr n st = (.error (.rpc err), ⟨st.count + 1, t⟩)) ∧
    (Refuses S st "gettxout" [.str (shownHash o.hash), .int o.n, .bool b] err t → gettxout S o b st = (.error (.rpc err), ⟨st.count + 1, t⟩)) ∧
    (Refuses S st "listunspent" [.int n, .int m] err t → listunspent S H p n m none st = (.error (.rpc err), ⟨st.count + 1, t⟩)) ∧
    (Refuses S st "lockunspent" [.bool b, .arr (os.map fun o => .obj [("txid".toList, .str (shownHash o.hash)), ("vout".toList, .int o.n)])] err t →
      lockunspent S b os st = (.error (.rpc err), ⟨st.count + 1, t⟩)) ∧
    (x.ser = .ok raw → Refuses S st "sendrawtransaction" [.str (hexText raw)] err t → sendrawtransaction S x false st = (.error (.rpc err), ⟨st.count + 1, t⟩)) ∧
    (x.ser = .ok raw → Refuses S st "signrawtransaction" (.str (hexText raw) :: args) err t → signrawtransaction S x args st = (.error (.rpc err), ⟨st.count + 1, t⟩)) ∧
    (blk.ser = .ok raw → Refuses S st "submitblock" [.str (hexText raw)] err t → submitblock S blk none st = (.error (.rpc err), ⟨st.count + 1, t⟩)) ∧
    (Refuses S st "sendtoaddress" [.str a, .flt (floatAmount amount)] err t → sendtoaddress S H addr amount st = (.error (.rpc err), ⟨st.count + 1, t⟩)) ∧
    (Refuses S st "validateaddress" [.str a] err t → validateaddress S H p addr st = (.error (.rpc err), ⟨st.count + 1, t⟩)) := by
  refine ⟨fun h => RM.bind_error (call_refuses h), fun h => RM.bind_error (call_refuses h), fun h => RM.bind_error (call_refuses h),
    fun h => RM.bind_error (call_refuses h), fun h => RM.bind_error (call_refuses h), fun h => RM.bind_error (call_refuses h),
    fun h => RM.bind_error (call_refuses h), fun h => ?_, fun h => ?_, fun h => ?_, fun h => ?_, fun hx h => ?_, fun hx h => ?_, fun hx h => ?_, fun h => ?_, fun h => ?_⟩
  · unfold getreceivedbyaddress
    rw [RM.bind_ok (RM.lift_ok ha)]
    exact RM.bind_error (call_refuses h)
  · unfold gettxout
    rw [b2lx_eq]
    exact RM.bind_error (call_refuses h)
  · unfold listunspent
    rw [RM.bind_ok (RM.lift_ok rfl)]
    exact RM.bind_error (call_refuses h)
  · unfold lockunspent
    have : (os.map jsonOutPoint) = os.map fun o => .obj [("txid".toList, .str (shownHash o.hash)), ("vout".toList, .int o.n)] := by
      congr 1
      funext o
      unfold jsonOutPoint
      rw [b2lx_eq]
    rw [this]
    exact call_refuses h
  · unfold sendrawtransaction hexlify
    rw [RM.bind_ok (RM.lift_ok hx), b2x_eq]
    exact RM.bind_error (call_refuses h)
  · unfold signrawtransaction hexlify
    rw [RM.bind_ok (RM.lift_ok hx), b2x_eq]
    exact RM.bind_error (call_refuses h)
  · unfold submitblock hexlify
    rw [RM.bind_ok (RM.lift_ok hx), b2x_eq]
    exact call_refuses h
  · unfold sendtoaddress
    rw [RM.bind_ok (RM.lift_ok ha)]
    exact RM.bind_error (call_refuses h)
  · unfold validateaddress
    rw [RM.bind_ok (RM.lift_ok ha)]
    exact RM.bind_error (call_refuses h)

/-- Reading that never ends in `IndexError`. -/
def NoIdx {α} (q : P α) : Prop := ∀ s, q s ≠ .error .indexError

theorem NoIdx.bind {α β} {q : P α} {f : α → P β} (h : NoIdx q) (hf : ∀ a s s', q s = .ok (a, s') → NoIdx (f a)) : NoIdx (q >>= f) := by
  intro s hs
  cases hq : q s with
  | error e => rw [P.bind_error hq] at hs; cases hs; exact h s hq
  | ok r => obtain ⟨a, s'⟩ := r; rw [P.bind_ok hq] at hs; exact hf a s s' hq s' hs

theorem NoIdx.pure {α} (a : α) : NoIdx (Pure.pure a : P α) := by
  intro s h; cases h

theorem NoIdx.lift {α} {x : Py α} (h : x ≠ .error .indexError) : NoIdx (P.lift x) := by
  intro s hs
  cases x with
  | ok a => cases hs
  | error e => cases hs; exact h rfl

theorem NoIdx.serRead (n : Nat) : NoIdx (serRead n) := by
  intro s h
  unfold Btc.serRead at h
  split at h
  · cases h
  · simp only at h
    split at h <;> cases h

theorem NoIdx.varInt : NoIdx deserVarInt := by
  unfold deserVarInt
  refine (NoIdx.serRead 1).bind fun r s s' hr => ?_
  have hl := (serRead_ok hr).2
  match r, hl with
  | [r], _ =>
    simp only
    split
    · exact .pure _
    · split
      · exact (NoIdx.serRead 2).bind fun _ _ _ _ => .pure _
      · split
        · exact (NoIdx.serRead 4).bind fun _ _ _ _ => .pure _
        · exact (NoIdx.serRead 8).bind fun _ _ _ _ => .pure _

theorem NoIdx.bytes : NoIdx deserBytes := NoIdx.varInt.bind fun _ _ _ _ => .serRead _

theorem NoIdx.each {α} {q : P α} (h : NoIdx q) : ∀ n, NoIdx (deserEach q n)
  | 0 => .pure _
  | n + 1 => h.bind fun _ _ _ _ => (NoIdx.each h n).bind fun _ _ _ _ => .pure _

theorem NoIdx.vector {α} {q : P α} (h : NoIdx q) : NoIdx (deserVector q) := NoIdx.varInt.bind fun _ _ _ _ => h.each _

theorem NoIdx.outpoint : NoIdx COutPoint.deser := (NoIdx.serRead 32).bind fun _ _ _ _ => (NoIdx.serRead 4).bind fun _ _ _ _ => .lift (by
  unfold COutPoint.new
  split
  · simp
  · split <;> simp)

theorem NoIdx.txin : NoIdx CTxIn.deser := NoIdx.outpoint.bind fun _ _ _ _ => NoIdx.bytes.bind fun _ _ _ _ => (NoIdx.serRead 4).bind fun _ _ _ _ => .lift (by
  unfold CTxIn.new
  split <;> simp)

theorem NoIdx.txout : NoIdx CTxOut.deser := (NoIdx.serRead 8).bind fun _ _ _ _ => NoIdx.bytes.bind fun _ _ _ _ => .pure _

theorem NoIdx.tx : NoIdx CTransaction.deser :=
  (NoIdx.serRead 4).bind fun _ _ _ _ => NoIdx.txin.vector.bind fun _ _ _ _ => NoIdx.txout.vector.bind fun _ _ _ _ => (NoIdx.serRead 4).bind fun _ _ _ _ => .lift (by
    unfold CTransaction.new
    split <;> simp)

theorem NoIdx.header : NoIdx CBlockHeader.deser :=
  (NoIdx.serRead 4).bind fun _ _ _ _ => (NoIdx.serRead 32).bind fun _ _ _ _ => (NoIdx.serRead 32).bind fun _ _ _ _ => (NoIdx.serRead 4).bind fun _ _ _ _ =>
    (NoIdx.serRead 4).bind fun _ _ _ _ => (NoIdx.serRead 4).bind fun _ _ _ _ => .lift (by
      unfold CBlockHeader.new pyAssert
      split
      · split <;> intro h <;> cases h
      · intro h; cases h)

theorem NoIdx.block : NoIdx (CBlock.deser H) := by
  unfold CBlock.deser
  refine NoIdx.header.bind fun _ _ _ _ => NoIdx.tx.vector.bind fun vtx s s' hv => ?_
  have h1 := (deserVector_inv (Q := fun x : CTransaction => ∃ e, x.ser = .ok e) (fun _ _ _ h => (CTransaction.deser_ser h).1) hv).2
  refine NoIdx.bind (.lift ?_) fun _ _ _ _ => .pure _
  have h2 : ∃ ids, vtx.mapM (CTransaction.getHash H) = .ok ids := by
    clear hv
    induction vtx with
    | nil => exact ⟨[], rfl⟩
    | cons x xs ih =>
      obtain ⟨e, he⟩ := h1 x (by simp)
      obtain ⟨ids, hi⟩ := ih (fun y hy => h1 y (by simp [hy]))
      refine ⟨H.hash256 e :: ids, ?_⟩
      rw [List.mapM_cons, hi]
      unfold CTransaction.getHash
      rw [he]
      rfl
  obtain ⟨ids, hi⟩ := h2
  obtain ⟨r, hr, _⟩ := buildMerkleTree_eq H ids
  unfold buildMerkleTreeFromTxs
  rw [hi, Except.bind_ok, hr]
  intro h; cases h

theorem NoIdx.all {α} {q : P α} (h : NoIdx q) (b : Bytes) : deserializeAll q b ≠ .error .indexError := by
  unfold deserializeAll
  have := h b
  split
  · rename_i e he
    intro hc
    cases hc
    exact this he
  · split
    · intro hc; cases hc
    · intro hc; cases hc

theorem unhexlify_noIdx (j : Json) : unhexlify j ≠ .error .indexError := by
  cases j with
  | str s =>
    intro h
    have h' : unhex s = .error .indexError := h
    exact absurd (unhex_error s _ h') (by simp)
  | _ => intro h; cases h

theorem jlx_noIdx (j : Json) : jlx j ≠ .error .indexError := by
  cases j with
  | str s =>
    intro h
    have h' : lx s = .error .indexError := h
    unfold lx at h'
    cases hu : unhex s with
    | ok b => rw [hu] at h'; cases h'
    | error e => rw [hu, unhex_error s _ hu] at h'; cases h'
  | _ => intro h; cases h

theorem read_noIdx {α} {q : P α} (hq : NoIdx q) (j : Json) : (unhexlify j >>= fun b => deserializeAll q b) ≠ .error .indexError := by
  cases h : unhexlify j with
  | error e =>
    intro hc
    have : e = .indexError := by cases hc; rfl
    exact unhexlify_noIdx j (this ▸ h)
  | ok b =>
    rw [Except.bind_ok]
    exact hq.all b

/-- C120: if the node answers, they do not raise `IndexError`, whatever the answer is. -/
theorem C120_only {r : Json} {st' : PSt σ} (hash : Bytes) (height : Int) :
    (Answers S st "getblock" [.str (shownHash hash), .bool false] r t → getblock S H hash st ≠ (.error (.py .indexError), st')) ∧
    (Answers S st "getblockhash" [.int height] r t → getblockhash S height st ≠ (.error (.py .indexError), st')) ∧
    (Answers S st "getrawtransaction" [.str (shownHash hash), .int 0] r t → getrawtransaction S hash st ≠ (.error (.py .indexError), st')) ∧
    (Answers S st "gettransaction" [.str (shownHash hash)] r t → gettransaction S hash st = (.ok r, ⟨st.count + 1, t⟩)) := by
  have no : ∀ {α} {x : Py α} {s s' : PSt σ}, x ≠ .error .indexError → (RM.lift x : RM σ α) s ≠ (.error (.py .indexError), s') := by
    intro α x s s' hx h
    cases x with
    | ok a => cases h
    | error e => cases h; exact hx rfl
  refine ⟨fun h => ?_, fun h => ?_, fun h => ?_, fun h => ?_⟩
  · unfold getblock
    rw [b2lx_eq, RM.bind_ok (indexed_ok (call_answers h))]
    exact no (read_noIdx NoIdx.block r)
  · unfold getblockhash
    have hb : (call S (T "getblockhash") [.int height] >>= fun r => RM.lift (jlx r)) st = RM.lift (jlx r) ⟨st.count + 1, t⟩ := RM.bind_ok (call_answers h)
    unfold indexed
    rw [hb]
    cases hj : jlx r with
    | ok b => rw [RM.lift_ok rfl]; intro hc; cases hc
    | error e =>
      rw [RM.lift_error rfl]
      intro hc
      have : e = .indexError := by cases hc; rfl
      exact jlx_noIdx r (this ▸ hj)
  · unfold getrawtransaction
    rw [b2lx_eq, RM.bind_ok (indexed_ok (call_answers h))]
    exact no (read_noIdx NoIdx.tx r)
  · unfold gettransaction
    rw [b2lx_eq]
    exact indexed_ok (call_answers h)

/-- C120: requests are numbered one after the other, whatever they are: that of the first one is one more than that of the last one before. -/
theorem C120_ids (m : String) (ps : List Json) : (call S (T m) ps st).2.count = st.count + 1 ∧
    (call S (T m) ps st).2.node = (S.handle st.node ⟨m.toList, ps, st.count + 1⟩).2 := ⟨rfl, rfl⟩

/-! ## C121 -/

theorem IsAmount.sat {j : Json} {v : Int} (h : IsAmount j v) : toSat j = .ok v := by
  obtain ⟨s, neg, c, e, h1, h2, h3, h4, h5⟩ := h
  obtain ⟨j', g1, g2⟩ := C117_whole h1 h2 h3 h5
  rw [h4] at g1
  cases g1
  exact g2

theorem fld_ok {l : List (Str × Json)} {k : Str} {v : Json} (h : l.lookup k = some v) : fld l k = .ok v := by
  unfold fld; rw [h]

theorem COutPoint.new_valid {o : COutPoint} (h : o.Valid) : COutPoint.new o.hash o.n = .ok o := by
  obtain ⟨h1, h2, h3⟩ := h
  unfold COutPoint.new
  rw [if_neg (by simp [h1]), if_neg (by simp only [not_not]; exact ⟨h2, h3⟩)]

/-- C121: what becomes of a listed output. -/
def Converted (l : List (Str × Json)) (o : COutPoint) (a : B58Data) (script : Bytes) (v : Int) (d : Dict) : Prop :=
  Holds d "outpoint" (.outpoint o) ∧ Lacks d "txid" ∧ Lacks d "vout" ∧ Holds d "address" (.addr a) ∧ Holds d "scriptPubKey" (.script script) ∧
    Holds d "amount" (.json (.int v)) ∧
    ∀ k, k ∉ ["outpoint", "txid", "vout", "address", "scriptPubKey", "amount"].map String.toList → d.lookup k = (l.lookup k).map .json

theorem unspent_ok {l : List (Str × Json)} {o : COutPoint} {a : B58Data} {script : Bytes} {v : Int} (h : Listed H p l o a script v) :
    ∃ d, unspentDict H p (.obj l) = .ok d ∧ Converted l o a script v d := by
  obtain ⟨⟨s1, t1, t2⟩, hv, hval, ⟨s2, a1, a2⟩, ⟨s3, c1, c2⟩, ⟨j, m1, m2⟩⟩ := h
  have e1 : jlx (.str s1) = .ok o.hash := (C83_txid s1 o.hash).mpr t2
  have e2 : toOutPoint o.hash (.int o.n) = .ok o := COutPoint.new_valid hval
  have e3 : toAddress H p (.str s2) = .ok a := a2
  have e4 : unhexlify (.str s3) = .ok script := (unhex_iff s3 script).mpr c2
  have e5 : toSat j = .ok v := m2.sat
  obtain ⟨d1, g1, k1⟩ := del_ok (d := (Dict.ofObj l).set (T "outpoint") (.outpoint o)) (k := T "txid") (v := .json (.str s1)) (by
    rw [lookup_set, if_neg (by decide), lookup_ofObj]
    show (l.lookup "txid".toList).map _ = _
    rw [t1]; rfl)
  obtain ⟨d2, g2, k2⟩ := del_ok (d := d1) (k := T "vout") (v := .json (.int o.n)) (by
    rw [k1, if_neg (by decide), lookup_set, if_neg (by decide), lookup_ofObj]
    show (l.lookup "vout".toList).map _ = _
    rw [hv]; rfl)
  refine ⟨((d2.set (T "address") (.addr a)).set (T "scriptPubKey") (.script script)).set (T "amount") (.json (.int v)), ?_, ?_⟩
  · unfold unspentDict
    have f0 : members (.obj l) = .ok l := rfl
    rw [f0, Except.bind_ok, fld_ok t1, Except.bind_ok, e1, Except.bind_ok, fld_ok hv, Except.bind_ok, e2, Except.bind_ok]
    simp only
    rw [g1, Except.bind_ok, g2, Except.bind_ok, fld_ok a1, Except.bind_ok, e3, Except.bind_ok, fld_ok c1, Except.bind_ok, e4, Except.bind_ok, fld_ok m1,
      Except.bind_ok, e5, Except.bind_ok]
    rfl
  · have look : ∀ k, (((d2.set (T "address") (.addr a)).set (T "scriptPubKey") (.script script)).set (T "amount") (.json (.int v))).lookup k =
        if k = T "amount" then some (.json (.int v)) else if k = T "scriptPubKey" then some (.script script) else if k = T "address" then some (.addr a)
        else if k = T "vout" then none else if k = T "txid" then none else if k = T "outpoint" then some (.outpoint o) else (l.lookup k).map .json := by
      intro k
      rw [lookup_set, lookup_set, lookup_set, k2, k1, lookup_set, lookup_ofObj]
    unfold Converted Holds Lacks
    simp only [look]
    refine ⟨rfl, rfl, rfl, rfl, rfl, rfl, ?_⟩
    intro k hk
    simp only [List.map_cons, List.map_nil, List.mem_cons, List.not_mem_nil, or_false, not_or] at hk
    obtain ⟨n1, n2, n3, n4, n5, n6⟩ := hk
    rw [if_neg n6, if_neg n5, if_neg n4, if_neg n3, if_neg n2, if_neg n1]

/-- The entries of a list of unspent outputs. -/
structure Entry where
  members : List (Str × Json)
  outpoint : COutPoint
  address : B58Data
  script : Bytes
  amount : Int

theorem unspent_all {l : List Entry} (h : ∀ u ∈ l, Listed H p u.members u.outpoint u.address u.script u.amount) :
    ∃ ds, (l.map fun u => Json.obj u.members).mapM (unspentDict H p) = .ok ds ∧
      List.Forall₂ (fun u d => Converted u.members u.outpoint u.address u.script u.amount d) l ds := by
  induction l with
  | nil => exact ⟨[], rfl, .nil⟩
  | cons u l ih =>
    obtain ⟨d, h1, h2⟩ := unspent_ok (h u (by simp))
    obtain ⟨ds, h3, h4⟩ := ih (fun v hv => h v (by simp [hv]))
    refine ⟨d :: ds, ?_, .cons h2 h4⟩
    rw [List.map_cons, List.mapM_cons, h1, Except.bind_ok, h3]
    rfl

/-- C121: `listunspent` returns the outputs that the node lists, in their order, as objects of the library: outpoint, address, script and amount; whatever else the
node says about an output is returned as it is. -/
theorem C121_unspent {l : List Entry} {minconf maxconf : Int} (h : ∀ u ∈ l, Listed H p u.members u.outpoint u.address u.script u.amount)
    (ha : Answers S st "listunspent" [.int minconf, .int maxconf] (.arr (l.map fun u => .obj u.members)) t) :
    ∃ ds, listunspent S H p minconf maxconf none st = (.ok ds, ⟨st.count + 1, t⟩) ∧
      List.Forall₂ (fun u d => Converted u.members u.outpoint u.address u.script u.amount d) l ds := by
  obtain ⟨ds, h1, h2⟩ := unspent_all h
  refine ⟨ds, ?_, h2⟩
  unfold listunspent
  rw [RM.bind_ok (RM.lift_ok rfl), RM.bind_ok (call_answers ha)]
  exact RM.lift_ok h1

/-- C121: the same for certain addresses. -/
theorem C121_unspent_of {l : List Entry} {minconf maxconf : Int} {addrs : List B58Data} {texts : List Str} (hx : addrs.mapM (strB58 H) = .ok texts)
    (h : ∀ u ∈ l, Listed H p u.members u.outpoint u.address u.script u.amount)
    (ha : Answers S st "listunspent" [.int minconf, .int maxconf, .arr (texts.map .str)] (.arr (l.map fun u => .obj u.members)) t) :
    ∃ ds, listunspent S H p minconf maxconf (some addrs) st = (.ok ds, ⟨st.count + 1, t⟩) ∧
      List.Forall₂ (fun u d => Converted u.members u.outpoint u.address u.script u.amount d) l ds := by
  obtain ⟨ds, h1, h2⟩ := unspent_all h
  refine ⟨ds, ?_, h2⟩
  unfold listunspent
  rw [RM.bind_ok (RM.lift_ok (a := [.arr (texts.map .str)]) (by simp only [hx]; rfl)), RM.bind_ok (call_answers ha)]
  exact RM.lift_ok h1

/-- C121: `lockunspent` names outpoints as the node does. -/
theorem C121_lock {unlock : Bool} {os : List COutPoint} {r : Json}
    (ha : Answers S st "lockunspent" [.bool unlock, .arr (os.map fun o => .obj [("txid".toList, .str (shownHash o.hash)), ("vout".toList, .int o.n)])] r t) :
    lockunspent S unlock os st = (.ok r, ⟨st.count + 1, t⟩) := by
  unfold lockunspent
  have : (os.map jsonOutPoint) = os.map fun o => .obj [("txid".toList, .str (shownHash o.hash)), ("vout".toList, .int o.n)] := by
    congr 1
    funext o
    unfold jsonOutPoint
    rw [b2lx_eq]
  rw [this]
  exact call_answers ha

/-- C121: `gettxout` returns the output: value and script. -/
theorem C121_txout {o : COutPoint} {mem : Bool} {l k : List (Str × Json)} {j : Json} {v : Int} {script best : Bytes} {s b : Str}
    (h1 : l.lookup "value".toList = some j) (hj : IsAmount j v) (h2 : l.lookup "scriptPubKey".toList = some (.obj k)) (h3 : k.lookup "hex".toList = some (.str s))
    (hs : HexText s script) (h4 : l.lookup "bestblock".toList = some (.str b)) (hb : HexText b best.reverse)
    (ha : Answers S st "gettxout" [.str (shownHash o.hash), .int o.n, .bool mem] (.obj l) t) :
    ∃ d, gettxout S o mem st = (.ok d, ⟨st.count + 1, t⟩) ∧ Holds d "txout" (.txout ⟨v, script⟩) ∧ Holds d "bestblock" (.bytes best) ∧ Lacks d "value" ∧
      Lacks d "scriptPubKey" ∧ ∀ k, k ∉ ["txout", "bestblock", "value", "scriptPubKey"].map String.toList → d.lookup k = (l.lookup k).map .json := by
  have e1 : unhexlify (.str s) = .ok script := (unhex_iff s script).mpr hs
  have e2 : jlx (.str b) = .ok best := (C83_txid b best).mpr hb
  have e3 : (Json.obj k).get (T "hex") = .ok (.str s) := by
    unfold Json.get
    simp only [h3]
  obtain ⟨d1, g1, k1⟩ := del_ok (d := (Dict.ofObj l).set (T "txout") (.txout ⟨v, script⟩)) (k := T "value") (v := .json j) (by
    rw [lookup_set, if_neg (by decide), lookup_ofObj]
    show (l.lookup "value".toList).map _ = _
    rw [h1]; rfl)
  obtain ⟨d2, g2, k2⟩ := del_ok (d := d1) (k := T "scriptPubKey") (v := .json (.obj k)) (by
    rw [k1, if_neg (by decide), lookup_set, if_neg (by decide), lookup_ofObj]
    show (l.lookup "scriptPubKey".toList).map _ = _
    rw [h2]; rfl)
  have main : txoutDict l = .ok (d2.set (T "bestblock") (.bytes best)) := by
    unfold txoutDict
    rw [fld_ok h1, Except.bind_ok, hj.sat, Except.bind_ok, fld_ok h2, Except.bind_ok, e3, Except.bind_ok, e1, Except.bind_ok]
    simp only
    rw [g1, Except.bind_ok, g2, Except.bind_ok, fld_ok h4, Except.bind_ok, e2, Except.bind_ok]
    rfl
  refine ⟨d2.set (T "bestblock") (.bytes best), ?_, ?_⟩
  · unfold gettxout
    rw [b2lx_eq, RM.bind_ok (call_answers ha)]
    exact RM.lift_ok main
  · have look : ∀ q, (d2.set (T "bestblock") (.bytes best)).lookup q =
        if q = T "bestblock" then some (.bytes best) else if q = T "scriptPubKey" then none else if q = T "value" then none
        else if q = T "txout" then some (.txout ⟨v, script⟩) else (l.lookup q).map .json := by
      intro q
      rw [lookup_set, k2, k1, lookup_set, lookup_ofObj]
    unfold Holds Lacks
    simp only [look]
    refine ⟨rfl, rfl, rfl, rfl, ?_⟩
    intro k hk
    simp only [List.map_cons, List.map_nil, List.mem_cons, List.not_mem_nil, or_false, not_or] at hk
    obtain ⟨n1, n2, n3, n4⟩ := hk
    rw [if_neg n2, if_neg n4, if_neg n3, if_neg n1]

/-- C121: `signrawtransaction` sends the transaction in hexadecimal digits and returns the one that comes back. -/
theorem C121_sign {x y : CTransaction} {raw raw' : Bytes} {args : List Json} {l : List (Str × Json)} {s : Str} (hx : x.ser = .ok raw) (hy : y.ser = .ok raw')
    (hf : y.ScriptsFit) (h1 : l.lookup "hex".toList = some (.str s)) (hs : HexText s raw')
    (ha : Answers S st "signrawtransaction" (.str (hexText raw) :: args) (.obj l) t) :
    ∃ d, signrawtransaction S x args st = (.ok d, ⟨st.count + 1, t⟩) ∧ Holds d "tx" (.tx y) ∧ Lacks d "hex" ∧
      ∀ k, k ∉ ["tx", "hex"].map String.toList → d.lookup k = (l.lookup k).map .json := by
  have e1 : unhexlify (.str s) = .ok raw' := (unhex_iff s raw').mpr hs
  obtain ⟨d1, g1, k1⟩ := del_ok (d := (Dict.ofObj l).set (T "tx") (.tx y)) (k := T "hex") (v := .json (.str s)) (by
    rw [lookup_set, if_neg (by decide), lookup_ofObj]
    show (l.lookup "hex".toList).map _ = _
    rw [h1]; rfl)
  have main : signedDict (.obj l) = .ok d1 := by
    unfold signedDict
    have f0 : members (.obj l) = .ok l := rfl
    rw [f0, Except.bind_ok, fld_ok h1, Except.bind_ok, e1, Except.bind_ok, C42_tx_roundtrip hy hf, Except.bind_ok]
    exact g1
  refine ⟨d1, ?_, ?_⟩
  · unfold signrawtransaction hexlify
    rw [RM.bind_ok (RM.lift_ok hx), b2x_eq, RM.bind_ok (call_answers ha)]
    exact RM.lift_ok main
  · unfold Holds Lacks
    simp only [k1, lookup_set, lookup_ofObj]
    refine ⟨rfl, rfl, ?_⟩
    intro k hk
    simp only [List.map_cons, List.map_nil, List.mem_cons, List.not_mem_nil, or_false, not_or] at hk
    rw [if_neg hk.2, if_neg hk.1]

/-- Bytes, or `None`. -/
def bytesOrNone : Option Bytes → PyV
  | some b => .bytes b
  | none => .json .null

/-- C121: `getrawtransaction` with `verbose` returns the transaction, and the block that it is in. -/
theorem C121_verbose {x : CTransaction} {raw id : Bytes} {l : List (Str × Json)} {s : Str} {block : Option (Str × Bytes)} (hx : x.ser = .ok raw)
    (hf : x.ScriptsFit) (h1 : l.lookup "hex".toList = some (.str s)) (hs : HexText s raw)
    (hk : ∀ k ∈ ["txid", "version", "locktime", "vin", "vout"], (l.lookup (String.toList k)).isSome)
    (hb : l.lookup "blockhash".toList = block.map fun b => .str b.1) (hb' : ∀ b, block = some b → HexText b.1 b.2.reverse)
    (ha : Answers S st "getrawtransaction" [.str (shownHash id), .int 1] (.obj l) t) :
    ∃ d, getrawtransactionVerbose S id st = (.ok d, ⟨st.count + 1, t⟩) ∧ Holds d "tx" (.tx x) ∧
      Holds d "blockhash" (bytesOrNone (block.map (·.2))) ∧
      (∀ k ∈ ["hex", "txid", "version", "locktime", "vin", "vout"], Lacks d k) ∧
      ∀ k, k ∉ ["tx", "blockhash", "hex", "txid", "version", "locktime", "vin", "vout"].map String.toList → d.lookup k = (l.lookup k).map .json := by
  have e1 : unhexlify (.str s) = .ok raw := (unhex_iff s raw).mpr hs
  have has : ∀ k ∈ ["txid", "version", "locktime", "vin", "vout"], ∃ j, l.lookup (String.toList k) = some j := fun k h => Option.isSome_iff_exists.mp (hk k h)
  obtain ⟨j2, q2⟩ := has "txid" (by simp)
  obtain ⟨j3, q3⟩ := has "version" (by simp)
  obtain ⟨j4, q4⟩ := has "locktime" (by simp)
  obtain ⟨j5, q5⟩ := has "vin" (by simp)
  obtain ⟨j6, q6⟩ := has "vout" (by simp)
  obtain ⟨d1, g1, k1⟩ := del_ok (d := (Dict.ofObj l).set (T "tx") (.tx x)) (k := T "hex") (v := .json (.str s)) (by
    rw [lookup_set, if_neg (by decide), lookup_ofObj]
    show (l.lookup "hex".toList).map _ = _
    rw [h1]; rfl)
  obtain ⟨d2, g2, k2⟩ := del_ok (d := d1) (k := T "txid") (v := .json j2) (by
    rw [k1, if_neg (by decide), lookup_set, if_neg (by decide), lookup_ofObj]
    show (l.lookup "txid".toList).map _ = _
    rw [q2]; rfl)
  obtain ⟨d3, g3, k3⟩ := del_ok (d := d2) (k := T "version") (v := .json j3) (by
    rw [k2, if_neg (by decide), k1, if_neg (by decide), lookup_set, if_neg (by decide), lookup_ofObj]
    show (l.lookup "version".toList).map _ = _
    rw [q3]; rfl)
  obtain ⟨d4, g4, k4⟩ := del_ok (d := d3) (k := T "locktime") (v := .json j4) (by
    rw [k3, if_neg (by decide), k2, if_neg (by decide), k1, if_neg (by decide), lookup_set, if_neg (by decide), lookup_ofObj]
    show (l.lookup "locktime".toList).map _ = _
    rw [q4]; rfl)
  obtain ⟨d5, g5, k5⟩ := del_ok (d := d4) (k := T "vin") (v := .json j5) (by
    rw [k4, if_neg (by decide), k3, if_neg (by decide), k2, if_neg (by decide), k1, if_neg (by decide), lookup_set, if_neg (by decide), lookup_ofObj]
    show (l.lookup "vin".toList).map _ = _
    rw [q5]; rfl)
  obtain ⟨d6, g6, k6⟩ := del_ok (d := d5) (k := T "vout") (v := .json j6) (by
    rw [k5, if_neg (by decide), k4, if_neg (by decide), k3, if_neg (by decide), k2, if_neg (by decide), k1, if_neg (by decide), lookup_set, if_neg (by decide), lookup_ofObj]
    show (l.lookup "vout".toList).map _ = _
    rw [q6]; rfl)
  have main : rawTxDict l = .ok (d6.set (T "blockhash") (bytesOrNone (block.map (·.2)))) := by
    unfold rawTxDict
    rw [fld_ok h1, Except.bind_ok, e1, Except.bind_ok, C42_tx_roundtrip hx hf, Except.bind_ok]
    simp only
    rw [g1, Except.bind_ok, g2, Except.bind_ok, g3, Except.bind_ok, g4, Except.bind_ok, g5, Except.bind_ok, g6, Except.bind_ok]
    cases block with
    | none =>
      have : l.lookup (T "blockhash") = none := hb
      rw [this]
      rfl
    | some b =>
      have : l.lookup (T "blockhash") = some (.str b.1) := hb
      rw [this]
      have e2 : jlx (.str b.1) = .ok b.2 := (C83_txid b.1 b.2).mpr (hb' b rfl)
      simp only
      rw [e2]
      rfl
  refine ⟨d6.set (T "blockhash") (bytesOrNone (block.map (·.2))), ?_, ?_⟩
  · unfold getrawtransactionVerbose
    rw [b2lx_eq, RM.bind_ok (indexed_ok (call_answers ha))]
    exact RM.lift_ok main
  · have look : ∀ q, (d6.set (T "blockhash") (bytesOrNone (block.map (·.2)))).lookup q =
        if q = T "blockhash" then some (bytesOrNone (block.map (·.2))) else if q = T "vout" then none else if q = T "vin" then none
        else if q = T "locktime" then none else if q = T "version" then none else if q = T "txid" then none else if q = T "hex" then none
        else if q = T "tx" then some (.tx x) else (l.lookup q).map .json := by
      intro q
      rw [lookup_set, k6, k5, k4, k3, k2, k1, lookup_set, lookup_ofObj]
    unfold Holds Lacks
    simp only [look]
    refine ⟨rfl, rfl, ?_, ?_⟩
    · intro k hk
      simp only [List.mem_cons, List.not_mem_nil, or_false] at hk
      rcases hk with rfl | rfl | rfl | rfl | rfl | rfl <;> rfl
    · intro k hk
      simp only [List.map_cons, List.map_nil, List.mem_cons, List.not_mem_nil, or_false, not_or] at hk
      obtain ⟨n1, n2, n3, n4, n5, n6, n7, n8⟩ := hk
      rw [if_neg n2, if_neg n8, if_neg n7, if_neg n6, if_neg n5, if_neg n4, if_neg n3, if_neg n1]

/-- C121: `getinfo` returns what the node says, balance and fee as numbers of units. -/
theorem C121_info {l : List (Str × Json)} {jf jb : Json} {fee bal : Int} (h1 : l.lookup "paytxfee".toList = some jf) (hf : IsAmount jf fee)
    (h2 : l.lookup "balance".toList = some jb) (hb : IsAmount jb bal) (ha : Answers S st "getinfo" [] (.obj l) t) :
    ∃ d, getinfo S st = (.ok d, ⟨st.count + 1, t⟩) ∧ Holds d "paytxfee" (.json (.int fee)) ∧ Holds d "balance" (.json (.int bal)) ∧
      ∀ k, k ∉ ["paytxfee", "balance"].map String.toList → d.lookup k = (l.lookup k).map .json := by
  have main : infoDict l = .ok (((Dict.ofObj l).set (T "balance") (.json (.int bal))).set (T "paytxfee") (.json (.int fee))) := by
    unfold infoDict
    have h2' : l.lookup (T "balance") = some jb := h2
    simp only [h2']
    rw [hb.sat, Except.bind_ok]
    simp only [pure, Except.pure]
    rw [Except.bind_ok, fld_ok h1, Except.bind_ok, hf.sat, Except.bind_ok]
  refine ⟨((Dict.ofObj l).set (T "balance") (.json (.int bal))).set (T "paytxfee") (.json (.int fee)), ?_, ?_⟩
  · unfold getinfo
    rw [RM.bind_ok (call_answers ha)]
    exact RM.lift_ok main
  · unfold Holds
    simp only [lookup_set, lookup_ofObj]
    refine ⟨rfl, rfl, ?_⟩
    intro k hk
    simp only [List.map_cons, List.map_nil, List.mem_cons, List.not_mem_nil, or_false, not_or] at hk
    rw [if_neg hk.1, if_neg hk.2]

/-- C121: `validateaddress` sends the text of the address; for a valid one it returns the address and the public key, if the node knows it. -/
theorem C121_validate {addr a : B58Data} {l : List (Str × Json)} {s q : Str} {key : Option (Str × Bytes)} (hs : strB58 H addr = .ok s)
    (h1 : l.lookup "isvalid".toList = some (.bool true)) (h2 : l.lookup "address".toList = some (.str q)) (hq : newB58 H p .address q = .ok a)
    (h3 : l.lookup "pubkey".toList = key.map fun k => .str k.1) (hk : ∀ k, key = some k → HexText k.1 k.2)
    (ha : Answers S st "validateaddress" [.str s] (.obj l) t) :
    ∃ d, validateaddress S H p addr st = (.ok d, ⟨st.count + 1, t⟩) ∧ Holds d "address" (.addr a) ∧
      d.lookup "pubkey".toList = (key.map fun k => .bytes k.2) ∧ ∀ k, k ∉ ["address", "pubkey"].map String.toList → d.lookup k = (l.lookup k).map .json := by
  have e1 : toAddress H p (.str q) = .ok a := hq
  have f0 : members (.obj l) = .ok l := rfl
  cases key with
  | none =>
    have h3' : l.lookup (T "pubkey") = none := h3
    have main : validDict H p (.obj l) = .ok ((Dict.ofObj l).set (T "address") (.addr a)) := by
      unfold validDict
      rw [f0, Except.bind_ok, fld_ok h1, Except.bind_ok]
      simp only [truthy, if_true, h3']
      rw [fld_ok h2, Except.bind_ok, e1, Except.bind_ok]
      rfl
    refine ⟨(Dict.ofObj l).set (T "address") (.addr a), ?_, ?_⟩
    · unfold validateaddress
      rw [RM.bind_ok (RM.lift_ok hs), RM.bind_ok (call_answers ha)]
      exact RM.lift_ok main
    · unfold Holds
      simp only [lookup_set, lookup_ofObj]
      refine ⟨rfl, ?_, ?_⟩
      · rw [if_neg (by decide)]
        show (l.lookup (T "pubkey")).map _ = _
        rw [h3']; rfl
      · intro k hk
        simp only [List.map_cons, List.map_nil, List.mem_cons, List.not_mem_nil, or_false, not_or] at hk
        rw [if_neg hk.1]
  | some pk =>
    have h3' : l.lookup (T "pubkey") = some (.str pk.1) := h3
    have e2 : unhexlify (.str pk.1) = .ok pk.2 := (unhex_iff _ _).mpr (hk pk rfl)
    have main : validDict H p (.obj l) = .ok (((Dict.ofObj l).set (T "address") (.addr a)).set (T "pubkey") (.bytes pk.2)) := by
      unfold validDict
      rw [f0, Except.bind_ok, fld_ok h1, Except.bind_ok]
      simp only [truthy, if_true, h3']
      rw [fld_ok h2, Except.bind_ok, e1, Except.bind_ok]
      simp only [pure, Except.pure]
      rw [Except.bind_ok, e2, Except.bind_ok]
    refine ⟨((Dict.ofObj l).set (T "address") (.addr a)).set (T "pubkey") (.bytes pk.2), ?_, ?_⟩
    · unfold validateaddress
      rw [RM.bind_ok (RM.lift_ok hs), RM.bind_ok (call_answers ha)]
      exact RM.lift_ok main
    · unfold Holds
      simp only [lookup_set, lookup_ofObj]
      refine ⟨rfl, rfl, ?_⟩
      intro k hk
      simp only [List.map_cons, List.map_nil, List.mem_cons, List.not_mem_nil, or_false, not_or] at hk
      rw [if_neg hk.2, if_neg hk.1]
end

end Verif.Rpc
