import Verif.Lemmas.BlockCheck
import Verif.Model.Sha256
import Mathlib.Data.List.Nodup
/-! # C84–C88: transactions and blocks that need no knowledge of the chain to be rejected; merkle roots; proofs of work -/
namespace Verif.Btc
open Verif

/-! ## C84: CheckTransaction -/

/-- `CheckTransaction` returns exactly if the transaction obeys the rules. -/
theorem C84_accepts {t : CTransaction} (h : t.Valid) : checkTransaction t = .ok () ↔ ∃ b, t.ser = .ok b ∧ TxRules t b.length :=
  checkTransaction_iff h

/-- Otherwise it raises `CheckTransactionError`, if only the transaction can be serialized at all. -/
theorem C84_rejects {t : CTransaction} (h : t.Valid) {b : Bytes} (hb : t.ser = .ok b) (hr : ¬ TxRules t b.length) :
    checkTransaction t = .error .validation := by
  rcases checkTransaction_eq h hb with ⟨g, _⟩ | ⟨_, g⟩
  · exact absurd g hr
  · exact g

/-- An accepted transaction spends no output twice, and no selection of its outputs pays more than all the money there is. -/
theorem C84_no_inflation {t : CTransaction} (h : t.Valid) (hc : checkTransaction t = .ok ()) :
    (∀ (i j : Nat) (a b : CTxIn), t.vin[i]? = some a → t.vin[j]? = some b → a.prevout = b.prevout → i = j) ∧
    ∀ l : List CTxOut, l.Sublist t.vout → 0 ≤ (l.map (·.nValue)).sum ∧ (l.map (·.nValue)).sum ≤ 2100000000000000 := by
  obtain ⟨b, _, hr⟩ := (C84_accepts h).mp hc
  constructor
  · intro i j x y hi hj he
    obtain ⟨hi', hi⟩ := List.getElem?_eq_some_iff.mp hi
    obtain ⟨hj', hj⟩ := List.getElem?_eq_some_iff.mp hj
    have hd := hr.distinct
    unfold spends at hd
    refine (List.Nodup.getElem_inj_iff hd (hi := by simpa using hi') (hj := by simpa using hj')).mp ?_
    simp [hi, hj, he]
  · intro l hl
    have key : ∀ {l l' : List CTxOut}, l.Sublist l' → (∀ o ∈ l', 0 ≤ o.nValue) → 0 ≤ (l.map (·.nValue)).sum ∧
        (l.map (·.nValue)).sum ≤ (l'.map (·.nValue)).sum := by
      intro l l' hs
      induction hs with
      | slnil => simp
      | cons a _ ih =>
        intro hp
        have h1 := hp a (by simp)
        have h2 := ih (fun o ho => hp o (by simp [ho]))
        simp only [List.map_cons, List.sum_cons]
        omega
      | cons_cons a _ ih =>
        intro hp
        have h1 := hp a (by simp)
        have h2 := ih (fun o ho => hp o (by simp [ho]))
        simp only [List.map_cons, List.sum_cons]
        omega
    have h1 := key hl hr.positive
    have h2 := hr.total
    omega

namespace Ex

/-- The coinbase transaction of the genesis block. -/
def coinbase : CTransaction := ⟨1, [⟨nullOut, hex "04ffff001d0104455468652054696d65732030332f4a616e2f32303039204368616e63656c6c6f72206f6e206272696e6b206f66207365636f6e64206261696c6f757420666f722062616e6b73", 0xffffffff⟩],
  [⟨5000000000, hex "4104678afdb0fe5548271967f1a67130b7105cd6a828e03909a67962e0ea1f61deb649f6bc3f4cef38c4f35504e51ec112de5c384df7ba0b8d578a4c702b6bf11d5fac"⟩], 0⟩

def pay : CTransaction := ⟨1, [⟨⟨List.replicate 32 0x11#8, 3⟩, [0x51#8], 0⟩, ⟨⟨List.replicate 32 0x11#8, 4⟩, [], 0⟩], [⟨7, [0x51#8, 0xac#8]⟩, ⟨0, []⟩], 0⟩

def pay2 : CTransaction := { pay with nLockTime := 1 }

end Ex

example : Ex.pay.Valid ∧ checkTransaction Ex.pay = .ok () ∧ Ex.coinbase.Valid ∧ checkTransaction Ex.coinbase = .ok () := by decide +kernel

example : checkTransaction { Ex.pay with vout := [⟨2100000000000000, []⟩, ⟨1, []⟩] } = .error .validation ∧
    checkTransaction { Ex.pay with vin := Ex.pay.vin ++ Ex.pay.vin } = .error .validation ∧
    checkTransaction { Ex.pay with vin := Ex.pay.vin ++ Ex.coinbase.vin } = .error .validation ∧
    checkTransaction { Ex.pay with vout := [⟨2 ^ 63, []⟩] } = .error .structError := by decide +kernel

/-! ## C85: merkle trees -/

/-- `build_merkle_tree_from_txids` returns the levels of the tree, deepest first. -/
theorem C85_levels (H : HashFns) (l : List Bytes) : ∃ t, buildMerkleTree H l = .ok t ∧ Levels H.hash256 l t := buildMerkleTree_eq H l

/-- The last element is the root, which is a function of the list. -/
theorem C85_root (H : HashFns) {l t : List Bytes} (hl : l ≠ []) (ht : buildMerkleTree H l = .ok t) :
    ∃ n r S, Merkle H.hash256 l n r S ∧ t.getLast? = some r ∧ ∀ n' r' S', Merkle H.hash256 l n' r' S' → r' = r := by
  obtain ⟨t', h1, h2⟩ := C85_levels H l
  rw [ht] at h1
  cases h1
  obtain ⟨n, r, S, h3, h4, _⟩ := h2.merkle hl
  exact ⟨n, r, S, h3, h4, fun n' r' S' m => (m.unique h3).2.1⟩

/-- `calc_merkle_root` is that root of the hashes of the transactions; of no transactions there is none. -/
theorem C85_calc_merkle_root (H : HashFns) {b : CBlock} {es : List Bytes} (h : Serialized b.vtx es) :
    (b.vtx ≠ [] → ∃ n r S, Merkle H.hash256 (es.map H.hash256) n r S ∧ b.calcMerkleRoot H = .ok r) ∧
    (b.vtx = [] → b.calcMerkleRoot H = .error .valueError) := by
  refine ⟨calcMerkleRoot_eq h, fun e => ?_⟩
  unfold CBlock.calcMerkleRoot
  rw [if_pos e]
  rfl

/-- Two lists of the same length have the same root only if they are equal. -/
theorem C85_same_length (H : HashFns) {l l' : List Bytes} {n n' : Nat} {r : Bytes} {S S' : List Bytes}
    (m : Merkle H.hash256 l n r S) (m' : Merkle H.hash256 l' n' r S') (hl : l.length = l'.length)
    (h : ∀ x ∈ l ++ l', x.length = 32) (cf : CollisionFree H.hash256 (S ++ S')) : l = l' :=
  m.inj_length cf m' (fun x hx => h x (by simp [hx])) (fun x hx => h x (by simp [hx])) hl (by simp +contextual) (by simp +contextual)

/-- Lists of any length, of hashes of strings other than the 64 byte strings hashed inside the tree: only if they are equal, provided
nothing occurs twice in either. -/
theorem C85_no_duplicates (H : HashFns) {xs ys : List Bytes} {n n' : Nat} {r : Bytes} {S S' : List Bytes}
    (m : Merkle H.hash256 (xs.map H.hash256) n r S) (m' : Merkle H.hash256 (ys.map H.hash256) n' r S')
    (h : ∀ x ∈ xs ++ ys, x.length ≠ 64) (hx : (xs.map H.hash256).Nodup) (hy : (ys.map H.hash256).Nodup)
    (cf : CollisionFree H.hash256 (xs ++ ys ++ S ++ S')) : xs = ys :=
  Merkle.inj cf m m' (fun x hx => ⟨h x (by simp [hx]), by simp [hx]⟩) (fun x hx => ⟨h x (by simp [hx]), by simp [hx]⟩) hx hy
    (fun x hx => by simp [hx]) (fun x hx => by simp [hx])

theorem pairs_dup (a : Bytes) : ∀ {l : List Bytes}, l.length % 2 = 0 → pairs (l ++ [a, a]) = pairs (l ++ [a])
  | [], _ => rfl
  | [_], h => by simp at h
  | x :: y :: l, h => by
    simp only [List.cons_append, pairs]
    rw [pairs_dup a (l := l) (by simp at h; omega)]

/-- Both provisos are needed.  Repeating the last of an odd number of txids keeps the root (CVE-2012-2459). -/
theorem C85_flaw (H : HashFns) {l : List Bytes} {a : Bytes} {n : Nat} {r : Bytes} {S : List Bytes} (hl : l.length % 2 = 0) (hl' : l ≠ [])
    (m : Merkle H.hash256 (l ++ [a]) n r S) : Merkle H.hash256 (l ++ [a, a]) n r S := by
  have h1 := List.length_pos_iff.mpr hl'
  generalize hq : l ++ [a] = q at m
  cases m with
  | one x =>
    have := congrArg List.length hq
    simp at this
    exact absurd this hl'
  | step h2 m =>
    subst hq
    rw [← pairs_dup a hl] at m ⊢
    exact .step (by simp) m

/-- A txid of a 64 byte transaction: it could as well be two txids. -/
theorem C85_flaw64 (H : HashFns) (a b : Bytes) : ∃ S, Merkle H.hash256 [a, b] 1 (H.hash256 (a ++ b)) S ∧
    Merkle H.hash256 [H.hash256 (a ++ b)] 0 (H.hash256 (a ++ b)) [] := ⟨[a ++ b] ++ [], .step (by simp) (.one _), .one _⟩

example : ∃ n r S, Merkle realHash.hash256 (([[1#8], [2#8], [3#8]] : List Bytes).map realHash.hash256) n r S ∧
    ([[1#8], [2#8], [3#8]].map realHash.hash256).Nodup := by
  obtain ⟨t, h1, h2⟩ := C85_levels realHash ([[1#8], [2#8], [3#8]].map realHash.hash256)
  obtain ⟨n, r, S, h3, _⟩ := C85_root realHash (by simp) h1
  exact ⟨n, r, S, h3, by decide +kernel⟩

/-! ## C86: CheckBlock -/

/-- "CheckTransaction() is called for every transaction" (BC:689-690). -/
def C86_statement : Prop := ∀ (H : HashFns) (limit : Nat) (b : CBlock) (pow merkle : Bool) (now : Int),
  checkBlock H limit b pow merkle now = .ok () → ∀ t ∈ b.vtx, checkTransaction t = .ok ()

namespace Ex

/-- A coinbase transaction that makes money, twenty times over. -/
def greedy : CTransaction := ⟨1, [⟨nullOut, [], 0⟩], List.replicate 20 ⟨2100000000000000, [0x51#8]⟩, 0⟩

def block (vtx : List CTransaction) : CBlock := ⟨⟨2, List.replicate 32 0#8, (CBlock.calcMerkleRoot realHash ⟨⟨2, [], [], 0, 0, 0⟩, vtx⟩).toOption.getD [], 7, 0, 0⟩, vtx⟩

end Ex

/-- False: it is not called for the first, whose script may have any length, which may have no outputs at all or such as to mint
any amount of money. -/
theorem C86_refuted : ¬ C86_statement := by
  intro h
  have h1 : checkBlock realHash (some 0) (Ex.block [Ex.greedy]) false true 0 = .ok () := by decide +kernel
  have h2 := h realHash 0 _ false true 0 h1 Ex.greedy (by simp [Ex.block])
  have h3 : checkTransaction Ex.greedy = .error .validation := by decide +kernel
  rw [h3] at h2
  cases h2

/-- What it does make sure of: everything for the other transactions, of the first one only that it is a coinbase transaction; the
checks of signatures in the scripts of the first are not counted. -/
theorem C86_accepts_partial {H : HashFns} {limit : Nat} {b : CBlock} {pow merkle : Bool} {now : Int} (hv : ∀ t ∈ b.vtx, t.Valid) :
    checkBlock H limit b pow merkle now = .ok () ↔
      ∃ s head c e ts es, BlockRules H.hash256 limit b pow merkle now s head c e ts es := checkBlock_iff hv

/-- So of a transaction that is not the first the documentation is right. -/
theorem C86_others_partial {H : HashFns} {limit : Nat} {b : CBlock} {pow merkle : Bool} {now : Int} (hv : ∀ t ∈ b.vtx, t.Valid)
    (h : checkBlock H limit b pow merkle now = .ok ()) : ∀ t ∈ b.vtx.tail, checkTransaction t = .ok () ∧ ¬ Coinbase t := by
  obtain ⟨s, head, c, e, ts, es, g⟩ := (C86_accepts_partial hv).mp h
  intro t ht
  rw [g.first.1] at ht
  exact ⟨(C84_accepts (hv t (by rw [g.first.1]; exact List.mem_cons_of_mem _ ht))).mpr (g.others t ht).2, (g.others t ht).1⟩

namespace Ex

def genesis : CBlock := ⟨⟨1, List.replicate 32 0#8, hex "3ba3edfd7a7b12b27ac72c3e67768f617fc81bc3888a51323a9fb8aa4b1e5e4a", 1231006505, 0x1d00ffff, 2083236893⟩, [coinbase]⟩

end Ex

/-- The genesis block, checked in full, a second before it would be too early; and a block of three transactions. -/
example : checkBlock realHash (some (2 ^ 224 - 1)) Ex.genesis true true (1231006505 - 7200) = .ok () ∧
    checkBlock realHash (some (2 ^ 224 - 1)) Ex.genesis true true (1231006505 - 7201) = .error .validation ∧
    checkBlock realHash (some 0) (Ex.block [Ex.coinbase, Ex.pay, Ex.pay2]) false true 0 = .ok () ∧
    checkBlock realHash (some 0) (Ex.block [Ex.coinbase, Ex.pay, Ex.pay2, Ex.pay2]) false true 0 = .error .validation ∧
    ∀ t ∈ [Ex.coinbase, Ex.pay, Ex.pay2], t.Valid := by decide +kernel

/-! ## C87: CheckProofOfWork -/

/-- A hash is taken for the number it writes, least significant byte first. -/
theorem C87_number {hash : Bytes} (h : hash.length = 32) : uint256FromStr hash = .ok (leNat hash) := uint256FromStr_eq h

/-- `CheckProofOfWork` accepts what the Satoshi client accepts. -/
def C87_statement : Prop := ∀ (limit : Nat) (hash : Bytes) (nBits : Nat), hash.length = 32 → nBits < 2 ^ 32 →
  (checkProofOfWork limit hash nBits = .ok () ↔ ∃ t, satoshiTarget nBits = some t ∧ Enough limit hash t)

/-- False: it knows no negative numbers. -/
theorem C87_refuted : ¬ C87_statement := by
  intro h
  have h1 : checkProofOfWork (some (2 ^ 224 - 1)) (List.replicate 32 0#8) 0x1c800001 = .ok () := by decide +kernel
  obtain ⟨t, h2, _⟩ := (h (2 ^ 224 - 1) (List.replicate 32 0#8) 0x1c800001 (by decide) (by decide +kernel)).mp h1
  have h3 : satoshiTarget 0x1c800001 = none := by decide +kernel
  rw [h3] at h2
  cases h2

/-- It does for positive numbers of three bytes or more. -/
theorem C87_positive_partial {limit nBits : Nat} {hash : Bytes} (hh : hash.length = 32) (hn : nBits < 2 ^ 32)
    (hs : nBits / 2 ^ 23 % 2 = 0) (h3 : 3 ≤ nBits / 2 ^ 24) :
    (checkProofOfWork limit hash nBits = .ok () ↔ ∃ t, satoshiTarget nBits = some t ∧ Enough limit hash t) ∧
    (checkProofOfWork limit hash nBits = .ok () ∨ checkProofOfWork limit hash nBits = .error .validation) := by
  have e : satoshiTarget nBits = some (nBits % 2 ^ 24 * 256 ^ (nBits / 2 ^ 24 - 3)) := by
    have em : nBits % 2 ^ 24 = nBits % 2 ^ 23 := by omega
    unfold satoshiTarget
    simp only
    rw [if_neg (by omega), em]
    by_cases h4 : nBits / 2 ^ 24 ≤ 3
    · rw [if_pos h4, show 3 - nBits / 2 ^ 24 = 0 by omega, show nBits / 2 ^ 24 - 3 = 0 by omega]
      simp
    · rw [if_neg h4]
  rw [e]
  rcases (checkProofOfWork_eq (limit := limit) hn hh).2 h3 with ⟨g, g'⟩ | ⟨g, g'⟩
  · rw [g']
    exact ⟨⟨fun _ => ⟨_, rfl, g⟩, fun _ => rfl⟩, .inl rfl⟩
  · rw [g']
    refine ⟨⟨fun h => (by cases h), ?_⟩, .inr rfl⟩
    rintro ⟨t, ht, h⟩
    cases ht
    exact absurd h g

/-- Of a number with the sign bit it takes this for the highest bit of a positive one. -/
theorem C87_negative_partial {limit nBits : Nat} {hash : Bytes} (hh : hash.length = 32) (hn : nBits < 2 ^ 32)
    (hs : nBits / 2 ^ 23 % 2 = 1) (h3 : 3 ≤ nBits / 2 ^ 24) :
    checkProofOfWork limit hash nBits = .ok () ↔ Enough limit hash ((2 ^ 23 + nBits % 2 ^ 23) * 256 ^ (nBits / 2 ^ 24 - 3)) := by
  have em : nBits % 2 ^ 24 = 2 ^ 23 + nBits % 2 ^ 23 := by omega
  rw [← em]
  rcases (checkProofOfWork_eq (limit := limit) hn hh).2 h3 with ⟨g, g'⟩ | ⟨g, g'⟩
  · rw [g']
    exact ⟨fun _ => g, fun _ => rfl⟩
  · rw [g']
    exact ⟨fun h => (by cases h), fun h => absurd h g⟩

/-- For numbers of less than three bytes it raises ValueError instead of CheckProofOfWorkError. -/
theorem C87_short_partial {limit nBits : Nat} {hash : Bytes} (hh : hash.length = 32) (hn : nBits < 2 ^ 32) (h3 : nBits / 2 ^ 24 < 3) :
    checkProofOfWork limit hash nBits = .error .valueError := (checkProofOfWork_eq hn hh).1 h3

example : (0x1d00ffff : Nat) < 2 ^ 32 ∧ 0x1d00ffff / 2 ^ 23 % 2 = 0 ∧ 3 ≤ 0x1d00ffff / 2 ^ 24 ∧
    satoshiTarget 0x1d00ffff = some (0xffff * 2 ^ 208) ∧ satoshiTarget 0x02123456 = some 0x1234 := by decide +kernel

/-! ## C88: blocks are determined by their hashes -/

theorem RT.header {h : CBlockHeader} {e : Bytes} (he : h.ser = .ok e) : RT .btcTrunc CBlockHeader.deser e h := by
  unfold CBlockHeader.ser at he
  obtain ⟨a, ha, he⟩ := Except.bind_eq_ok he
  obtain ⟨_, h1, he⟩ := Except.bind_eq_ok he
  obtain ⟨_, h2, he⟩ := Except.bind_eq_ok he
  obtain ⟨b, hb, he⟩ := Except.bind_eq_ok he
  obtain ⟨c, hc, he⟩ := Except.bind_eq_ok he
  obtain ⟨d, hd, he⟩ := Except.bind_eq_ok he
  cases he
  have h1 := pyAssert_ok h1
  have h2 := pyAssert_ok h2
  simp only [beq_iff_eq] at h1 h2
  obtain ⟨a1, a2⟩ := packS_ok (by omega) ha
  obtain ⟨b1, b2, _⟩ := packU_ok hb
  obtain ⟨c1, c2, _⟩ := packU_ok hc
  obtain ⟨d1, d2, _⟩ := packU_ok hd
  unfold CBlockHeader.deser
  simp only [List.append_assoc]
  apply RT.bind (RT.serRead a1 (by decide))
  apply RT.bind (RT.serRead h1 (by decide))
  apply RT.bind (RT.serRead h2 (by decide))
  apply RT.bind (RT.serRead b1 (by decide))
  apply RT.bind (RT.serRead c1 (by decide))
  have := (RT.serRead d1 (by decide)).bind (f := fun n => P.lift (CBlockHeader.new (unpackS 4 a) h.hashPrevBlock h.hashMerkleRoot
    (unpackU b) (unpackU c) (unpackU n))) (RT.lift (a := h) (by
      unfold CBlockHeader.new
      rw [a2, b2, c2, d2, h1, h2]
      rfl))
  rw [List.append_nil] at this
  exact this

/-- What is stored comes back. -/
theorem C88_header_roundtrip {h : CBlockHeader} {e : Bytes} (he : h.ser = .ok e) : deserializeAll CBlockHeader.deser e = .ok h :=
  deserializeAll_of_RT (RT.header he)

theorem C88_block_roundtrip {H : HashFns} {b : CBlock} {e : Bytes} (he : b.ser = .ok e) (hs : ∀ t ∈ b.vtx, t.ScriptsFit) :
    deserializeAll (CBlock.deser H) e = .ok b := by
  obtain ⟨hb, es, h1, h2, v, h3, rfl⟩ := CBlock.ser_serialized he
  refine deserializeAll_of_RT (tr := .btcTrunc) ?_
  unfold CBlock.deser
  apply RT.bind (RT.header h1)
  have h4 := RT.vector h3 (fun t ht e' he' => RT.tx he' (hs t ht))
  obtain ⟨t, h5, _⟩ := buildMerkleTree_eq H (es.map H.hash256)
  have h6 : buildMerkleTreeFromTxs H b.vtx = .ok t := by
    unfold buildMerkleTreeFromTxs
    rw [h2.getHash]
    exact h5
  have h7 := (RT.lift (tr := .btcTrunc) h6).bind (f := fun _ => (return ⟨b.header, b.vtx⟩ : P CBlock)) (RT.pure b)
  have := h4.bind (f := fun vtx => (do
    let _ ← P.lift (buildMerkleTreeFromTxs H vtx)
    return ⟨b.header, vtx⟩ : P CBlock)) h7
  simpa using this

/-- `CBlock(…)` makes the block of what it is given, whenever the hashes of the header have 32 bytes and the transactions can be serialized. -/
theorem C88_constructor {H : HashFns} {h : CBlockHeader} {vtx : List CTransaction} {b : CBlock} :
    CBlock.new H h vtx = .ok b ↔ (h.hashPrevBlock.length = 32 ∧ h.hashMerkleRoot.length = 32) ∧ (∃ es, Serialized vtx es) ∧ b = ⟨h, vtx⟩ := by
  have assertIff : ∀ {p : Bool}, pyAssert p = .ok () ↔ p = true := by
    intro p
    cases p <;> simp [pyAssert]
  constructor
  · intro e
    unfold CBlock.new CBlockHeader.new at e
    obtain ⟨h', e1, e⟩ := Except.bind_eq_ok e
    obtain ⟨_, a1, e1⟩ := Except.bind_eq_ok e1
    obtain ⟨_, a2, e1⟩ := Except.bind_eq_ok e1
    cases e1
    obtain ⟨t, e2, e⟩ := Except.bind_eq_ok e
    cases e
    refine ⟨⟨by simpa using assertIff.mp a1, by simpa using assertIff.mp a2⟩, ?_, rfl⟩
    unfold buildMerkleTreeFromTxs at e2
    obtain ⟨ids, e3, _⟩ := Except.bind_eq_ok e2
    have key : ∀ {ts : List CTransaction} {ids : List Bytes}, ts.mapM (·.getHash H) = .ok ids → ∃ es, Serialized ts es := by
      intro ts
      induction ts with
      | nil => exact fun _ => ⟨[], rfl⟩
      | cons t ts ih =>
        intro ids e
        rw [List.mapM_cons] at e
        obtain ⟨x, e1, e⟩ := Except.bind_eq_ok e
        obtain ⟨xs, e2, e⟩ := Except.bind_eq_ok e
        obtain ⟨es, hes⟩ := ih e2
        unfold CTransaction.getHash at e1
        obtain ⟨y, e3, _⟩ := Except.bind_eq_ok e1
        exact ⟨y :: es, hes.cons e3⟩
    exact key e3
  · rintro ⟨⟨h1, h2⟩, ⟨es, hes⟩, rfl⟩
    obtain ⟨t, ht, _⟩ := buildMerkleTree_eq H (es.map H.hash256)
    unfold CBlock.new CBlockHeader.new buildMerkleTreeFromTxs
    rw [hes.getHash, assertIff.mpr (by simpa using h1), assertIff.mpr (by simpa using h2)]
    simp only [Except.bind_ok, ht]
    rfl

example : (CBlock.new realHash ⟨2, List.replicate 32 0#8, List.replicate 32 1#8, 0, 0, 0⟩ [Ex.pay]).isOk = true ∧
    CBlock.new realHash ⟨2, List.replicate 31 0#8, List.replicate 32 1#8, 0, 0, 0⟩ [Ex.pay] = .error .assertion := by decide +kernel

/-- Two blocks with the same serialization are the same. -/
theorem C88_block_injective {b b' : CBlock} {e : Bytes} (h : b.ser = .ok e) (h' : b'.ser = .ok e) : b = b' := by
  obtain ⟨x, _, h1, _, v, h2, rfl⟩ := CBlock.ser_serialized h
  obtain ⟨x', _, g1, _, v', g2, he⟩ := CBlock.ser_serialized h'
  obtain ⟨e1, e2⟩ := List.append_inj he (by rw [(CBlockHeader.ser_ok h1).1, (CBlockHeader.ser_ok g1).1])
  subst e1; subst e2
  have a1 := (RT.header h1).inj (RT.header g1)
  have a2 := (PF.vector PF.tx).inj h2 g2
  obtain ⟨⟩ := b; obtain ⟨⟩ := b'
  simp_all

/-- The hash of a block is that of the first 80 bytes of its serialization, the header. -/
theorem C88_hash {H : HashFns} {b : CBlock} {e : Bytes} (h : b.ser = .ok e) :
    b.getHash H = .ok (H.hash256 (e.take 80)) ∧ b.header.getHash H = b.getHash H := by
  obtain ⟨x, _, h1, _, v, h2, rfl⟩ := CBlock.ser_serialized h
  obtain ⟨m1, m2, m3, _⟩ := CBlockHeader.ser_ok h1
  have h3 : b.header.getHash H = .ok (H.hash256 x) := by
    unfold CBlockHeader.getHash
    rw [h1]
    rfl
  have h4 : b.getHash H = b.header.getHash H := by
    unfold CBlock.getHash
    rw [getHeader_eq m2 m3]
    rfl
  rw [h4, h3, List.take_append_of_le_length (by omega), List.take_of_length_le (by omega)]
  exact ⟨rfl, rfl⟩

/-- The strings hashed for a block: the header, the transactions, the inner nodes of the merkle tree. -/
def HashedFor (h : Bytes → Bytes) (b : CBlock) (L : List Bytes) : Prop := ∃ head es n r S, b.header.ser = .ok head ∧
  Serialized b.vtx es ∧ Merkle h (es.map h) n r S ∧ L = head :: (es ++ S)

/-- There is such a list for every block accepted. -/
theorem C88_strings {H : HashFns} {limit : Nat} {b : CBlock} {pow merkle : Bool} {now : Int} (hv : ∀ t ∈ b.vtx, t.Valid)
    (h : checkBlock H limit b pow merkle now = .ok ()) : ∃ L, HashedFor H.hash256 b L := by
  obtain ⟨s, head, c, e, ts, es, g⟩ := (C86_accepts_partial hv).mp h
  obtain ⟨g1, g2, g3, g4⟩ := g.serialized
  have hs : Serialized b.vtx (e :: es) := by rw [g.first.1]; exact g4.cons g3
  obtain ⟨n, r, S, q, _⟩ := calcMerkleRoot_eq (H := H) hs (by rw [g.first.1]; simp)
  exact ⟨_, head, _, n, r, S, g2, hs, q, rfl⟩

/-- Two blocks accepted by `CheckBlock`, including the merkle root, that have the same hash are the same block, unless one of the
transactions has just 64 bytes: the flaw C85_flaw of merkle trees is of no use. -/
theorem C88_hash_commits {H : HashFns} {limit limit' : Nat} {b b' : CBlock} {pow pow' : Bool} {now now' : Int} {L L' : List Bytes} {x : Bytes}
    (hv : ∀ t ∈ b.vtx, t.Valid) (hv' : ∀ t ∈ b'.vtx, t.Valid)
    (h : checkBlock H limit b pow true now = .ok ()) (h' : checkBlock H limit' b' pow' true now' = .ok ())
    (hx : b.getHash H = .ok x) (hx' : b'.getHash H = .ok x)
    (h64 : ∀ t ∈ b.vtx ++ b'.vtx, ∀ e, t.ser = .ok e → e.length ≠ 64)
    (hL : HashedFor H.hash256 b L) (hL' : HashedFor H.hash256 b' L') (cf : CollisionFree H.hash256 (L ++ L')) : b = b' := by
  have unpack : ∀ {b : CBlock} {limit : Nat} {pow now L}, (∀ t ∈ b.vtx, t.Valid) → checkBlock H limit b pow true now = .ok () →
      HashedFor H.hash256 b L → (∀ y ∈ L, ∀ z ∈ L, H.hash256 y = H.hash256 z → y = z) → b.getHash H = .ok x →
      ∃ head es n S, b.header.ser = .ok head ∧ x = H.hash256 head ∧ Serialized b.vtx es ∧
        Merkle H.hash256 (es.map H.hash256) n b.header.hashMerkleRoot S ∧ (es.map H.hash256).Nodup ∧ L = head :: (es ++ S) := by
    intro b limit pow now L hv h hL hc hx
    obtain ⟨s, head, c, e, ts, es, g⟩ := (C86_accepts_partial hv).mp h
    obtain ⟨g1, g2, g3, g4⟩ := g.serialized
    obtain ⟨head', es', n, r, S, k1, k2, k3, k4⟩ := hL
    rw [g2] at k1
    cases k1
    have hs : Serialized b.vtx (e :: es) := by rw [g.first.1]; exact g4.cons g3
    have := k2.unique hs
    subst this
    obtain ⟨n', S', q⟩ := g.root rfl
    obtain ⟨_, hr, _⟩ := k3.unique q
    subst hr
    refine ⟨head, e :: es, n, S, g2, ?_, hs, k3, ?_, k4⟩
    · have := (C88_hash (H := H) g1).2
      rw [hx] at this
      unfold CBlockHeader.getHash at this
      rw [g2] at this
      simp only [Except.bind_ok, Except.pure_eq, Except.ok.injEq] at this
      exact this.symm
    · rw [List.map_cons, List.nodup_cons]
      refine ⟨fun hm => ?_, g.distinct⟩
      obtain ⟨y, hy, hye⟩ := List.mem_map.mp hm
      have := hc y (by simp [k4, hy]) e (by simp [k4]) hye
      subst this
      obtain ⟨t, ht, hte⟩ := g4.mem hy
      have := PF.tx.inj hte g3
      subst this
      exact (g.others t ht).1 g.first.2
  obtain ⟨head, es, n, S, a1, a2, a3, a4, a5, a6⟩ := unpack hv h hL (fun y hy z hz => cf y (by simp [hy]) z (by simp [hz])) hx
  obtain ⟨head', es', n', S', b1, b2, b3, b4, b5, b6⟩ := unpack hv' h' hL' (fun y hy z hz => cf y (by simp [hy]) z (by simp [hz])) hx'
  have e1 : head = head' := cf head (by simp [a6]) head' (by simp [b6]) (by rw [← a2, ← b2])
  subst e1
  have e2 : b.header = b'.header := (RT.header a1).inj (RT.header b1)
  rw [← e2] at b4
  have e3 : es = es' := Merkle.inj cf a4 b4
    (fun y hy => ⟨by
      obtain ⟨t, ht, hte⟩ := a3.mem hy
      exact h64 t (by simp [ht]) y hte, by simp [a6, hy]⟩)
    (fun y hy => ⟨by
      obtain ⟨t, ht, hte⟩ := b3.mem hy
      exact h64 t (by simp [ht]) y hte, by simp [b6, hy]⟩) a5 b5 (fun y hy => by simp [a6, hy]) (fun y hy => by simp [b6, hy])
  subst e3
  have e4 := a3.inj b3
  obtain ⟨⟩ := b; obtain ⟨⟩ := b'
  simp_all

/-- The genesis block and its hash, read backwards. -/
example : (Ex.genesis.getHash realHash).map List.reverse = .ok (hex "000000000019d6689c085ae165831e934ff763ae46a2a6c172b3f1b60a8ce26f") ∧
    Ex.genesis.ser.map List.length = .ok 285 ∧ (∀ t ∈ Ex.genesis.vtx, t.Valid ∧ t.ScriptsFit ∧ t.ser.map List.length = .ok 204) := by
  decide +kernel

example : ∃ L, HashedFor realHash.hash256 (Ex.block [Ex.coinbase, Ex.pay, Ex.pay2]) L :=
  C88_strings (limit := 0) (pow := false) (merkle := true) (now := 0) (by decide +kernel) (by decide +kernel)

end Verif.Btc
