import Verif.Props.RpcNode
import Verif.Props.Base58
/-!
# Nodes for the theorems about the proxy

Concrete nodes that meet the hypotheses of C117–C121.
-/
namespace Verif.Rpc.Ex
open Verif Btc Sus Rpc

/-- A response with a result. -/
def okR (j : Json) : Option Json := some (.obj [(T "result", j), (T "error", .null), (T "id", .int 1)])

/-- A response with an error. -/
def errR : Option Json := some (.obj [(T "result", .null), (T "error", .obj [(T "code", .int (-5)), (T "message", .str (T "not found"))]), (T "id", .int 1)])

/-- A node that always says the same. -/
def always (j : Json) : Server Unit := ⟨fun _ _ => (okR j, ())⟩

/-- A node that refuses everything. -/
def refuser : Server Unit := ⟨fun _ _ => (errR, ())⟩

theorem always_answers (j : Json) (s : PSt Unit) (m : String) (ps : List Json) : Answers (always j) s m ps j () := ⟨_, rfl, rfl, rfl⟩

theorem refuser_refuses (s : PSt Unit) (m : String) (ps : List Json) :
    Refuses refuser s m ps (.obj [(T "code", .int (-5)), (T "message", .str (T "not found"))]) () := ⟨_, _, -5, rfl, rfl, rfl, rfl, rfl⟩

/-! ## A node that remembers -/

abbrev Table := List (Str × Str)

/-- Adds an entry; what is there stays. -/
def put (l : Table) (k v : Str) : Option Table :=
  match l.lookup k with
  | none => some ((k, v) :: l)
  | some v' => if v' = v then some l else none

/-- Takes hexadecimal digits and stores them under a key. -/
def store (key : Bytes → Str) (l : Table) : List Json → Option (Str × Table)
  | .str x :: _ => match unhex x with
    | .ok raw => if x = hexText raw then (put l (key raw) x).map fun l' => (key raw, l') else none
    | .error _ => none
  | _ => none

/-- Finds them again. -/
def find (l : Table) : List Json → Option Json
  | .str k :: _ => match l.lookup k with
    | some x => okR (.str x)
    | none => errR
  | _ => errR

/-- Takes a transaction. -/
def takeTx (H : HashFns) (s : Table × Table) (ps : List Json) : Option Json × (Table × Table) :=
  match store (fun raw => shownHash (H.hash256 raw)) s.1 ps with
  | some (k, l) => (okR (.str k), (l, s.2))
  | none => (errR, s)

/-- Takes a block. -/
def takeBlock (H : HashFns) (s : Table × Table) (ps : List Json) : Option Json × (Table × Table) :=
  match store (fun raw => shownHash (H.hash256 (raw.take 80))) s.2 ps with
  | some (_, l) => (okR .null, (s.1, l))
  | none => (errR, s)

/-- What it does with each method. -/
def reply (H : HashFns) (s : Table × Table) (m : Str) (ps : List Json) : Option Json × (Table × Table) :=
  if m = T "sendrawtransaction" then takeTx H s ps
  else if m = T "submitblock" then takeBlock H s ps
  else if m = T "getrawtransaction" then (find s.1 ps, s)
  else if m = T "getblock" then (find s.2 ps, s)
  else (errR, s)

/-- Transactions and blocks. -/
def memory (H : HashFns) : Server (Table × Table) := ⟨fun s r => reply H s r.method r.params⟩

section
variable {H : HashFns} {s : Table × Table} {ps : List Json} {i : Nat}
theorem memory_handle {r : Req} : (memory H).handle s r = reply H s r.method r.params := rfl
theorem reply_tx {m : Str} (h : m = T "sendrawtransaction") : reply H s m ps = takeTx H s ps := by
  unfold reply; rw [if_pos h]
theorem reply_block {m : Str} (h : m = T "submitblock") : reply H s m ps = takeBlock H s ps := by
  unfold reply; rw [if_neg (by rw [h]; decide), if_pos h]
theorem reply_gettx {m : Str} (h : m = T "getrawtransaction") : reply H s m ps = (find s.1 ps, s) := by
  unfold reply; rw [if_neg (by rw [h]; decide), if_neg (by rw [h]; decide), if_pos h]
theorem reply_getblock {m : Str} (h : m = T "getblock") : reply H s m ps = (find s.2 ps, s) := by
  unfold reply; rw [if_neg (by rw [h]; decide), if_neg (by rw [h]; decide), if_neg (by rw [h]; decide), if_pos h]
theorem memory_tx : (memory H).handle s ⟨"sendrawtransaction".toList, ps, i⟩ = takeTx H s ps := memory_handle.trans (reply_tx rfl)
theorem memory_block : (memory H).handle s ⟨"submitblock".toList, ps, i⟩ = takeBlock H s ps := memory_handle.trans (reply_block rfl)
theorem memory_gettx : (memory H).handle s ⟨"getrawtransaction".toList, ps, i⟩ = (find s.1 ps, s) := memory_handle.trans (reply_gettx rfl)
theorem memory_getblock : (memory H).handle s ⟨"getblock".toList, ps, i⟩ = (find s.2 ps, s) := memory_handle.trans (reply_getblock rfl)
end

theorem put_keeps {l l' : Table} {k v k' v' : Str} (h : put l k v = some l') (hl : l.lookup k' = some v') : l'.lookup k' = some v' := by
  unfold put at h
  split at h
  · rename_i hk
    cases h
    rw [List.lookup_cons]
    split
    · rename_i he
      rw [beq_iff_eq] at he
      rw [he, hk] at hl
      cases hl
    · exact hl
  · split at h
    · cases h; exact hl
    · cases h

theorem put_has {l l' : Table} {k v : Str} (h : put l k v = some l') : l'.lookup k = some v := by
  unfold put at h
  split at h
  · cases h
    rw [List.lookup_cons]
    simp
  · rename_i hk
    split at h
    · rename_i he
      cases h
      rw [hk, he]
    · cases h

theorem store_inv {key : Bytes → Str} {l l' : Table} {ps : List Json} {k : Str} (h : store key l ps = some (k, l')) :
    ∃ raw more, ps = .str (hexText raw) :: more ∧ k = key raw ∧ put l (key raw) (hexText raw) = some l' := by
  unfold store at h
  split at h
  · rename_i x more
    split at h
    · rename_i raw hraw
      split at h
      · rename_i hx
        obtain ⟨l1, h1, h2⟩ := Option.map_eq_some_iff.mp h
        cases h2
        exact ⟨raw, more, by rw [hx], rfl, hx ▸ h1⟩
      · cases h
    · cases h
  · cases h

theorem takeTx_keeps {H : HashFns} {s : Table × Table} {ps : List Json} {k v : Str} :
    (s.1.lookup k = some v → (takeTx H s ps).2.1.lookup k = some v) ∧ (takeTx H s ps).2.2 = s.2 := by
  unfold takeTx
  split
  · rename_i hs
    obtain ⟨raw, more, _, _, hp⟩ := store_inv hs
    exact ⟨put_keeps hp, rfl⟩
  · exact ⟨id, rfl⟩

theorem takeBlock_keeps {H : HashFns} {s : Table × Table} {ps : List Json} {k v : Str} :
    (s.2.lookup k = some v → (takeBlock H s ps).2.2.lookup k = some v) ∧ (takeBlock H s ps).2.1 = s.1 := by
  unfold takeBlock
  split
  · rename_i hs
    obtain ⟨raw, more, _, _, hp⟩ := store_inv hs
    exact ⟨put_keeps hp, rfl⟩
  · exact ⟨id, rfl⟩

theorem memory_keeps {H : HashFns} {s t : Table × Table} (h : Later (memory H) s t) {k v : Str} :
    (s.1.lookup k = some v → t.1.lookup k = some v) ∧ (s.2.lookup k = some v → t.2.lookup k = some v) := by
  induction h with
  | now => exact ⟨id, id⟩
  | @step s' r _ ih =>
    have step : (s'.1.lookup k = some v → ((memory H).handle s' r).2.1.lookup k = some v) ∧ (s'.2.lookup k = some v → ((memory H).handle s' r).2.2.lookup k = some v) := by
      rw [memory_handle]
      unfold reply
      split
      · exact ⟨takeTx_keeps.1, fun g => by rw [(takeTx_keeps (k := k) (v := v)).2]; exact g⟩
      · split
        · exact ⟨fun g => by rw [(takeBlock_keeps (k := k) (v := v)).2]; exact g, takeBlock_keeps.1⟩
        · split
          · exact ⟨id, id⟩
          · split <;> exact ⟨id, id⟩
    exact ⟨fun g => step.1 (ih.1 g), fun g => step.2 (ih.2 g)⟩

theorem hexText_inj {a b : Bytes} (h : hexText a = hexText b) : a = b := by
  have := unhex_hexText a
  rw [h, unhex_hexText] at this
  exact (Except.ok.inj this).symm

theorem errR_no {l : List (Str × Json)} (h : errR = some (.obj l)) (h2 : l.lookup "error".toList = some .null) : False := by
  cases h
  cases h2

theorem find_has {l : Table} {k v : Str} {more : List Json} (h : l.lookup k = some v) : find l (.str k :: more) = okR (.str v) := by
  unfold find
  simp only [h]

theorem takeTx_ok {H : HashFns} {s t : Table × Table} {raw : Bytes} {more : List Json} {l : List (Str × Json)} {r : Json}
    (h1 : takeTx H s (.str (hexText raw) :: more) = (some (.obj l), t)) (h2 : l.lookup "error".toList = some .null) (h3 : l.lookup "result".toList = some r) :
    r = .str (shownHash (H.hash256 raw)) ∧ t.1.lookup (shownHash (H.hash256 raw)) = some (hexText raw) := by
  unfold takeTx at h1
  split at h1
  · rename_i k l' hs
    obtain ⟨raw', more', e1, e2, hp⟩ := store_inv hs
    cases hexText_inj (Json.str.inj (List.cons.inj e1).1)
    obtain ⟨g1, g2⟩ := Prod.mk.inj h1
    cases Json.obj.inj (Option.some.inj g1)
    have e3 : some (Json.str k) = some r := h3
    rw [← Option.some.inj e3, e2, ← g2]
    exact ⟨rfl, put_has hp⟩
  · exact (errR_no (Prod.mk.inj h1).1 h2).elim

theorem takeBlock_ok {H : HashFns} {s t : Table × Table} {raw : Bytes} {more : List Json} {l : List (Str × Json)}
    (h1 : takeBlock H s (.str (hexText raw) :: more) = (some (.obj l), t)) (h2 : l.lookup "error".toList = some .null) :
    t.2.lookup (shownHash (H.hash256 (raw.take 80))) = some (hexText raw) := by
  unfold takeBlock at h1
  split at h1
  · rename_i k l' hs
    obtain ⟨raw', more', e1, e2, hp⟩ := store_inv hs
    cases hexText_inj (Json.str.inj (List.cons.inj e1).1)
    obtain ⟨g1, g2⟩ := Prod.mk.inj h1
    rw [← g2]
    exact put_has hp
  · exact (errR_no (Prod.mk.inj h1).1 h2).elim

/-- There is a node as C119 needs it, whatever the hashes are. -/
theorem memory_node (H : HashFns) : Node H (memory H) := by
  refine ⟨?_, ?_⟩
  · intro s raw more r t h
    obtain ⟨l, h1, h2, h3⟩ := h
    rw [memory_tx] at h1
    obtain ⟨g1, g2⟩ := takeTx_ok h1 h2 h3
    refine ⟨g1, fun s' hl => ⟨s'.node, [(T "result", .str (hexText raw)), (T "error", .null), (T "id", .int 1)], ?_, rfl, rfl⟩⟩
    rw [memory_gettx, find_has ((memory_keeps hl).1 g2)]
    rfl
  · intro s raw more t h
    obtain ⟨l, h1, h2, h3⟩ := h
    rw [memory_block] at h1
    have g2 := takeBlock_ok h1 h2
    refine fun s' hl => ⟨s'.node, [(T "result", .str (hexText raw)), (T "error", .null), (T "id", .int 1)], ?_, rfl, rfl⟩
    rw [memory_getblock, find_has ((memory_keeps hl).2 g2)]
    rfl

def start : PSt (Table × Table) := ⟨0, ([], [])⟩

/-- The first transaction is taken. -/
theorem memory_takes {H : HashFns} {x : CTransaction} {raw : Bytes} (h1 : x.ser = .ok raw) :
    sendrawtransaction (memory H) x false start = (.ok (H.hash256 raw), ⟨1, ([(shownHash (H.hash256 raw), hexText raw)], [])⟩) := by
  refine C119_send h1 (s := shownHash (H.hash256 raw)) (t := ([(shownHash (H.hash256 raw), hexText raw)], [])) ?_ ?_
  · refine ⟨[(T "result", .str (shownHash (H.hash256 raw))), (T "error", .null), (T "id", .int 1)], ?_, rfl, rfl⟩
    rw [memory_tx]
    have : store (fun raw => shownHash (H.hash256 raw)) start.node.1 (.str (hexText raw) :: if false = true then [.bool true] else []) =
        some (shownHash (H.hash256 raw), [(shownHash (H.hash256 raw), hexText raw)]) := by
      unfold store
      simp only [unhex_hexText, if_true]
      rfl
    unfold takeTx
    rw [this]
    rfl
  · exact (unhex_iff _ _).mp (unhex_hexText _)

/-- C119 for the coinbase transaction of the genesis block, sent to such a node and asked for again; the id is the well-known one. -/
example : ∃ id st1, sendrawtransaction (memory realHash) Btc.Ex.coinbase false start = (.ok id, st1) ∧ id.reverse = hex "4a5e1e4baab89f3a32518a88c31bc87f618f76673e2cc77ab2127b7afdeda33b" ∧
    ∃ st3, getrawtransaction (memory realHash) id st1 = (.ok Btc.Ex.coinbase, st3) := by
  have hser : ∃ raw, Btc.Ex.coinbase.ser = .ok raw ∧ (realHash.hash256 raw).reverse = hex "4a5e1e4baab89f3a32518a88c31bc87f618f76673e2cc77ab2127b7afdeda33b" := by
    have : (Btc.Ex.coinbase.ser.map fun raw => (realHash.hash256 raw).reverse) = .ok (hex "4a5e1e4baab89f3a32518a88c31bc87f618f76673e2cc77ab2127b7afdeda33b") := by decide +kernel
    cases h : Btc.Ex.coinbase.ser with
    | error e => rw [h] at this; cases this
    | ok raw =>
      rw [h] at this
      exact ⟨raw, rfl, Except.ok.inj this⟩
  obtain ⟨raw, h1, h2⟩ := hser
  exact ⟨_, _, memory_takes h1, h2, (C119_tx (memory_node realHash) (by decide +kernel) (memory_takes h1) .now).2⟩

/-! ## Amounts -/

/-- 0.1 + 0.2 bitcoins, as a node writes it, and a ten-thousandth of the smallest unit. -/
theorem num : NumText "0.30000000".toList false 30000000 (-8) :=
  .pos (i := ['0']) (f := ".30000000".toList) (x := []) (ds := [0]) (fs := [3, 0, 0, 0, 0, 0, 0, 0])
    ⟨.cons rfl .nil, by simp, by simp⟩
    (.some (s := "30000000".toList) (.cons rfl (.cons rfl (.cons rfl (.cons rfl (.cons rfl (.cons rfl (.cons rfl (.cons rfl .nil)))))))) (by simp)) .none

theorem num_amount : IsAmount (.dec 30000000 (-8)) 30000000 :=
  ⟨_, _, _, _, num, by norm_num, by norm_num, rfl, by unfold numValue; norm_num⟩

example : getbalance (always (.dec 30000000 (-8))) "*".toList 1 ⟨0, ()⟩ = (.ok 30000000, ⟨1, ()⟩) :=
  (C117_balance num (by norm_num) (by norm_num) rfl (always_answers _ _ _ _) _).mpr (by
    refine ⟨?_, ?_, ?_⟩ <;> unfold numValue <;> norm_num)

/-- Numbers that would need more than the 28 digits of a `Decimal` context are not within C117: this one is rounded up to a whole coin. -/
example : jsonNumber "0.99999999999999999999999999999".toList = some (.dec 99999999999999999999999999999 (-29)) ∧
    toSat (.dec 99999999999999999999999999999 (-29)) = .ok 100000000 := by
  refine ⟨rfl, ?_⟩
  decide +kernel

/-- C118: the amount of 0.29 coins; the `float` is not the same number, its text is. -/
example : |floatAmount (29000000 : Nat) * 10 ^ 8 - (29000000 : Nat)| < 1 / 2 := C118_double (by norm_num)
example : ∃ c e, Shortest (floatAmount (29000000 : Nat)) c e ∧ (c : ℚ) * (10 : ℚ) ^ e = 29 / 100 := by
  obtain ⟨c, e, h⟩ := C118_exists (n := 29000000) (by norm_num) (by norm_num)
  exact ⟨c, e, h, by rw [C118_text (by norm_num) h]; norm_num⟩

/-! ## Errors -/

example : getblock refuser realHash (List.replicate 32 7#8) ⟨3, ()⟩ = (.error (.py .indexError), ⟨4, ()⟩) :=
  (C120_index (List.replicate 32 7#8) 0).1 (refuser_refuses _ _ _)

example : gettxout (always .null) ⟨List.replicate 32 7#8, 1⟩ true ⟨3, ()⟩ = (.error (.py .indexError), ⟨4, ()⟩) := C120_txout (always_answers _ _ _ _)

/-! ## Dictionaries -/

def addrText : Str := "1C7zdTfnkzmr13HfA2vNm5SJYRK6nEKyq8".toList

def addr : B58Data := ⟨.p2pkh, hex "79fbfc3f34e7745860d76137da68f362380c606c", 0⟩

def out : COutPoint := ⟨List.replicate 31 0x11#8 ++ [0x22#8], 3⟩

def entry : Entry where
  members := [(T "txid", .str (shownHash out.hash)), (T "vout", .int 3), (T "address", .str addrText), (T "scriptPubKey", .str (hexText [0x51#8])),
    (T "amount", .dec 30000000 (-8)), (T "confirmations", .int 7)]
  outpoint := out
  address := addr
  script := [0x51#8]
  amount := 30000000

theorem entry_listed : Listed realHash mainPrefixes entry.members entry.outpoint entry.address entry.script entry.amount where
  txid := ⟨_, rfl, (unhex_iff _ _).mp (unhex_hexText _)⟩
  vout := rfl
  valid := by decide +kernel
  address := ⟨addrText, rfl, by decide +kernel⟩
  script := ⟨_, rfl, (unhex_iff _ _).mp (unhex_hexText _)⟩
  amount := ⟨_, rfl, num_amount⟩

example := C121_unspent (H := realHash) (p := mainPrefixes) (S := always (.arr ([entry, entry].map fun u => .obj u.members))) (st := ⟨0, ()⟩) (minconf := 0)
  (maxconf := 9999999) (l := [entry, entry]) (by simp [entry_listed]) (always_answers _ _ _ _)

def txoutReply : List (Str × Json) := [(T "bestblock", .str (shownHash (List.replicate 32 5#8))), (T "confirmations", .int 7), (T "value", .dec 30000000 (-8)),
  (T "scriptPubKey", .obj [(T "asm", .str (T "1")), (T "hex", .str (T "51"))]), (T "coinbase", .bool false)]

example := C121_txout (S := always (.obj txoutReply)) (st := ⟨0, ()⟩) (o := out) (mem := true) (v := 30000000) (script := [0x51#8]) (best := List.replicate 32 5#8)
  rfl num_amount rfl rfl ((unhex_iff (T "51") _).mp (by decide +kernel)) rfl ((unhex_iff _ _).mp (unhex_hexText _)) (always_answers _ _ _ _)

def rawReply (b : List (Str × Json)) (raw : Bytes) : List (Str × Json) := (T "hex", .str (hexText raw)) :: (T "txid", .str (T "ab")) :: (T "version", .int 1) ::
  (T "locktime", .int 0) :: (T "vin", .arr []) :: (T "vout", .arr []) :: b

theorem rawReply_has {b : List (Str × Json)} {raw : Bytes} : ∀ k ∈ ["txid", "version", "locktime", "vin", "vout"], ((rawReply b raw).lookup (String.toList k)).isSome := by
  intro k hk
  simp only [List.mem_cons, List.not_mem_nil, or_false] at hk
  rcases hk with rfl | rfl | rfl | rfl | rfl <;> rfl

/-- A transaction without a block, and one in a block. -/
example (raw : Bytes) (h : Btc.Ex.pay.ser = .ok raw) := C121_verbose (S := always (.obj (rawReply [] raw))) (st := ⟨0, ()⟩) (id := List.replicate 32 5#8) (block := none) h
  (by decide +kernel) rfl ((unhex_iff _ _).mp (unhex_hexText _)) rawReply_has rfl (by simp) (always_answers _ _ _ _)
example (raw : Bytes) (h : Btc.Ex.pay.ser = .ok raw) := C121_verbose (S := always (.obj (rawReply [(T "blockhash", .str (shownHash (List.replicate 32 5#8)))] raw))) (st := ⟨0, ()⟩)
  (id := List.replicate 32 5#8) (block := some (shownHash (List.replicate 32 5#8), List.replicate 32 5#8)) h (by decide +kernel) rfl ((unhex_iff _ _).mp (unhex_hexText _)) rawReply_has rfl
  (fun b h => Option.some.inj h ▸ (unhex_iff _ _).mp (unhex_hexText _)) (always_answers _ _ _ _)
example : ∃ raw, Btc.Ex.pay.ser = .ok raw := by
  have : Btc.Ex.pay.ser.isOk = true := by decide +kernel
  cases h : Btc.Ex.pay.ser with
  | ok raw => exact ⟨raw, rfl⟩
  | error e => rw [h] at this; cases this

example (raw : Bytes) (h : Btc.Ex.pay.ser = .ok raw) := C121_sign (S := always (.obj [(T "hex", .str (hexText raw)), (T "complete", .bool true)])) (st := ⟨0, ()⟩) (args := []) h h
  (by decide +kernel) rfl ((unhex_iff _ _).mp (unhex_hexText _)) (always_answers _ _ _ _)

example := C121_info (S := always (.obj [(T "balance", .dec 30000000 (-8)), (T "blocks", .int 7), (T "paytxfee", .dec 30000000 (-8))])) (st := ⟨0, ()⟩) rfl num_amount rfl num_amount
  (always_answers _ _ _ _)

example := C121_validate (H := realHash) (p := mainPrefixes) (S := always (.obj [(T "isvalid", .bool true), (T "address", .str addrText), (T "pubkey", .str (hexText [2#8, 7#8]))]))
  (st := ⟨0, ()⟩) (addr := addr) (a := addr) (s := addrText) (key := some (hexText [2#8, 7#8], [2#8, 7#8])) (by decide +kernel) rfl rfl (by decide +kernel) rfl
  (fun k h => Option.some.inj h ▸ (unhex_iff _ _).mp (unhex_hexText _)) (always_answers _ _ _ _)

example := C121_lock (S := always (.bool true)) (st := ⟨0, ()⟩) (unlock := false) (os := [out, ⟨List.replicate 32 5#8, 0⟩]) (always_answers _ _ _ _)

end Verif.Rpc.Ex
