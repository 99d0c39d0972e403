import Verif.Model.Chain
import Verif.Spec.Chain
import Verif.Props.Base58
import Verif.Props.Block
import Verif.Props.Net
/-! # C126, C127: choosing a network, and keeping networks apart -/
namespace Verif.Btc
open Verif
open Verif.Sus (Str)

namespace Network

/-- The versions of a network. -/
def versions (n : Network) : Prefixes := ⟨n.keyVersion, n.scriptVersion, n.secretVersion⟩
/-- The first bytes of a message, as bytes. -/
def startBytes (n : Network) : Bytes := n.start.map (BitVec.ofNat 8)

theorem versions_ok (n : Network) : n.versions.Ok := by cases n <;> exact ⟨by decide, by decide, by decide, by decide⟩

theorem start_length (n : Network) : n.startBytes.length = 4 := by cases n <;> rfl

theorem start_inj {n n' : Network} (h : n.startBytes = n'.startBytes) : n = n' := by
  revert h; cases n <;> cases n' <;> decide

end Network

open Network

/-! ## The variables after any calls -/

/-- The variables once a network has been chosen. -/
def chosen : Network → Globals
  | .main => ⟨mainParams, coreChain⟩
  | .test => ⟨testParams, coreTest⟩
  | .reg => ⟨regParams, coreReg⟩

theorem named_some {s : Str} {n : Network} : named s = some n ↔ s = n.name := by
  unfold named
  constructor
  · intro h
    split at h
    · cases h; assumption
    · split at h
      · cases h; assumption
      · split at h
        · cases h; assumption
        · cases h
  · rintro rfl
    cases n <;> decide

theorem selectParams_named (n : Network) (g : Globals) : selectParams n.name g = (.ok (), chosen n) := by
  cases n <;> rfl

theorem selectParams_other {s : Str} (h : named s = none) (g : Globals) : selectParams s g = (.error .valueError, g) := by
  have hn : ∀ n : Network, s ≠ n.name := fun n e => by rw [named_some.mpr e] at h; cases h
  have h1 : s ≠ "mainnet".toList := hn .main
  have h2 : s ≠ "testnet".toList := hn .test
  have h3 : s ≠ "regtest".toList := hn .reg
  unfold selectParams selectCore
  rw [if_neg h1, if_neg h2, if_neg h3]

theorem selects_eq : ∀ (names : List Str) (g : Globals), selects names g = (((names.filterMap named).getLast?).map chosen).getD g
  | [], g => rfl
  | s :: ns, g => by
    rw [selects, selects_eq ns]
    cases h : named s with
    | none =>
      rw [List.filterMap_cons_none h, selectParams_other h]
    | some n =>
      rw [List.filterMap_cons_some h, named_some.mp h, selectParams_named, List.getLast?_cons]
      cases (ns.filterMap named).getLast? <;> rfl

/-- What the variables are after any calls. -/
theorem after_selects (names : List Str) : selects names atImport = (if names.filterMap named = [] then atImport else chosen (Network.last names)) := by
  rw [selects_eq, Network.last]
  cases h : names.filterMap named with
  | nil => rfl
  | cons n ns =>
    rw [if_neg (by simp), List.getLast?_cons]
    rfl

theorem prefixes_after (names : List Str) : (selects names atImport).params.prefixes = (Network.last names).versions := by
  rw [after_selects]
  split
  · rename_i h
    rw [Network.last, h]
    rfl
  · cases Network.last names <;> rfl

theorem rpcPort_after (names : List Str) : (selects names atImport).params.rpcPort = ((Network.last names).rpc : Int) := by
  rw [after_selects]
  split
  · rename_i h
    rw [Network.last, h]
    rfl
  · cases Network.last names <;> rfl

theorem magic_after (names : List Str) : (selects names atImport).params.magic = (Network.last names).startBytes := by
  rw [after_selects]
  split
  · rename_i h
    rw [Network.last, h]
    rfl
  · cases Network.last names <;> rfl

/-! ## C126: choosing a network -/

/-- After any calls of `SelectParams` everything is done for the network that was chosen last, at first the main network. -/
def C126_statement : Prop := ∀ (H : HashFns) (aton : Str → Py Bytes) (names : List Str),
  let g := selects names atImport
  let n := Network.last names
  (∀ s, addressNow H g s = newB58 H n.versions .address s) ∧ (∀ s, secretNow H g s = newSecret H n.versions s) ∧
  (∀ lines, connectNow g lines = Rpc.connectConf lines n.rpc) ∧
  (∀ b pow merkle now, checkBlockNow H g b pow merkle now = checkBlock H (some n.easiest) b pow merkle now) ∧
  (∀ m, writeNow H aton g m = m.toBytes H aton n.startBytes) ∧ (∀ s, readNow H g s = Msg.streamDeser H n.startBytes s)

/-- False: once the main network has been chosen by its name, no block has enough work. -/
theorem C126_refuted : ¬ C126_statement := by
  intro h
  have h1 := (h realHash (fun _ => .error .other) ["mainnet".toList]).2.2.2.1 Ex.genesis true true 1231006505
  have h2 : checkBlockNow realHash (selects ["mainnet".toList] atImport) Ex.genesis true true 1231006505 = .error .typeError := by decide +kernel
  have h3 : checkBlock realHash (some (Network.last ["mainnet".toList]).easiest) Ex.genesis true true 1231006505 = .ok () := by decide +kernel
  rw [h2, h3] at h1
  cases h1

/-- C126: a name of no network raises `ValueError` and changes nothing; of any calls just the last one with the name of a network matters. -/
theorem C126_select_partial (g : Globals) :
    (∀ n : Network, (selectParams n.name g).1 = .ok () ∧ (selectParams n.name g).2 = (selectParams n.name atImport).2) ∧
    (∀ s, (∀ n : Network, s ≠ n.name) → selectParams s g = (.error .valueError, g)) ∧
    (∀ names (n : Network) rest, (∀ s ∈ rest, ∀ n : Network, s ≠ n.name) → selects (names ++ n.name :: rest) g = (selectParams n.name g).2) := by
  have other : ∀ {s : Str}, (∀ n : Network, s ≠ n.name) → named s = none := fun {s} h => by
    cases e : named s with
    | none => rfl
    | some n => exact absurd (named_some.mp e) (h n)
  refine ⟨fun n => ?_, fun s h => selectParams_other (other h) g, fun names n rest h => ?_⟩
  · rw [selectParams_named, selectParams_named]
    exact ⟨rfl, rfl⟩
  · have hr : rest.filterMap named = [] := by
      rw [List.filterMap_eq_nil_iff]
      exact fun s hs => other (h s hs)
    rw [selects_eq, List.filterMap_append, List.filterMap_cons_some (named_some.mpr rfl), hr, selectParams_named]
    simp

/-- C126: addresses, secret keys and the port of the RPC server are those of the network chosen last. -/
theorem C126_wallet_partial (H : HashFns) (names : List Str) :
    (∀ s, addressNow H (selects names atImport) s = newB58 H (Network.last names).versions .address s) ∧
    (∀ s, secretNow H (selects names atImport) s = newSecret H (Network.last names).versions s) ∧
    (∀ lines, connectNow (selects names atImport) lines = Rpc.connectConf lines (Network.last names).rpc) := by
  unfold addressNow secretNow connectNow
  rw [prefixes_after, rpcPort_after]
  exact ⟨fun _ => rfl, fun _ => rfl, fun _ => rfl⟩

/-- C126: blocks are checked with the limit of the network chosen last, if this is not the main network or if none was chosen. -/
theorem C126_blocks_partial (H : HashFns) {names : List Str} (h : Network.last names ≠ .main ∨ ∀ s ∈ names, ∀ n : Network, s ≠ n.name) (b : CBlock) (pow merkle : Bool) (now : Int) :
    checkBlockNow H (selects names atImport) b pow merkle now = checkBlock H (some (Network.last names).easiest) b pow merkle now := by
  have hl : (selects names atImport).core.limit = some (Network.last names).easiest := by
    rw [after_selects]
    by_cases e : names.filterMap named = []
    · rw [if_pos e, Network.last, e]
      decide +kernel
    · rw [if_neg e]
      rcases h with h | h
      · cases hn : Network.last names with
        | main => exact absurd hn h
        | test => decide +kernel
        | reg => decide +kernel
      · refine absurd (List.filterMap_eq_nil_iff.mpr fun s hs => ?_) e
        cases e : named s with
        | none => rfl
        | some n => exact absurd (named_some.mp e) (h s hs n)
  rw [checkBlockNow, hl]

theorem bind_not_ok {α β} {a : Py α} {f : α → Py β} (h : ∀ x y, a = .ok x → f x ≠ .ok y) (y : β) : (a >>= f) ≠ .ok y := by
  cases a with
  | error e => rintro ⟨⟩
  | ok x => exact h x y rfl

/-- C126: once the main network has been chosen by its name, no block passes with the work checked, whatever its work; without, blocks are checked as before. -/
theorem C126_main_partial (H : HashFns) {names : List Str} (h : Network.last names = .main) {s : Str} (hs : s ∈ names) {n : Network} (hn : s = n.name) (b : CBlock) (merkle : Bool) (now : Int) :
    (∀ header, b.getHeader = .ok header → 0 ≤ header.nBits → header.nBits < 2 ^ 32 → ∀ hash, header.getHash H = .ok hash →
      checkBlockNow H (selects names atImport) b true merkle now =
        .error (if header.nBits / 2 ^ 24 < 3 then .valueError else if header.nBits % 2 ^ 24 = 0 then .validation else .typeError)) ∧
    checkBlockNow H (selects names atImport) b false merkle now = checkBlock H (some Network.main.easiest) b false merkle now := by
  have hl : (selects names atImport).core.limit = none := by
    rw [after_selects, if_neg, h]
    · rfl
    · intro e
      have := List.filterMap_eq_nil_iff.mp e s hs
      rw [named_some.mpr hn] at this
      cases this
  unfold checkBlockNow
  rw [hl]
  constructor
  · intro header hh h0 h32 hash hx
    obtain ⟨k, hk⟩ := Int.eq_ofNat_of_zero_le h0
    unfold checkBlock
    rw [hh, Except.bind_ok]
    unfold checkBlockHeader
    rw [if_pos rfl, hx, Except.bind_ok, checkProofOfWork_none (by omega)]
    rw [hk]
    have e1 : ((k : Int) / 2 ^ 24 < 3) ↔ (k / 2 ^ 24 < 3) := by omega
    have e2 : ((k : Int) % 2 ^ 24 = 0) ↔ (k % 2 ^ 24 = 0) := by omega
    simp only [e1, e2, Int.toNat_natCast]
    rfl
  · rfl

/-- C126: messages are written and read for the main network, whichever network was chosen. -/
theorem C126_messages_partial (H : HashFns) (aton : Str → Py Bytes) (names : List Str) (m : Msg) :
    writeNow H aton (selects names atImport) m = m.toBytes H aton Network.main.startBytes ∧
    (∀ s, readNow H (selects names atImport) s = Msg.streamDeser H Network.main.startBytes s) ∧
    ∀ b rest, writeNow H aton (selects names atImport) m = .ok b →
      (Network.last names ≠ .main → Msg.streamDeser H (selects names atImport).params.magic (b ++ rest) = .error .valueError) := by
  refine ⟨rfl, fun _ => rfl, fun b rest hb hn => ?_⟩
  rw [magic_after]
  exact C107_other_network_partial (magic := Network.main.startBytes) (Network.start_length _) (Network.start_length _) hb (fun e => hn (Network.start_inj e).symm) rest

/-- The parameters of a network that have a genesis block. -/
def withGenesis : Network → CoreParams
  | .main => coreMain
  | .test => coreTest
  | .reg => coreReg

/-- The first block of a network. -/
def firstBlock : Network → CBlock
  | .main => Ex.genesis
  | .test => ⟨⟨1, List.replicate 32 0#8, hex "3ba3edfd7a7b12b27ac72c3e67768f617fc81bc3888a51323a9fb8aa4b1e5e4a", 1296688602, 0x1d00ffff, 414098458⟩, Ex.genesis.vtx⟩
  | .reg => ⟨⟨1, List.replicate 32 0#8, hex "3ba3edfd7a7b12b27ac72c3e67768f617fc81bc3888a51323a9fb8aa4b1e5e4a", 1296688602, 0x207fffff, 2⟩, Ex.genesis.vtx⟩

theorem firstBlock_ser (n : Network) : (withGenesis n).genesis.map Except.ok = some (firstBlock n).ser := by
  cases n <;> decide +kernel

theorem firstBlock_fit (n : Network) : ∀ t ∈ (firstBlock n).vtx, t.ScriptsFit := by
  have : (firstBlock n).vtx = Ex.genesis.vtx := by cases n <;> rfl
  rw [this]
  decide +kernel

theorem firstBlock_check (n : Network) : checkBlock realHash (some n.easiest) (firstBlock n) true true (firstBlock n).header.nTime = .ok () := by
  cases n <;> decide +kernel

theorem firstBlock_hash (n : Network) : (firstBlock n).getHash realHash = .ok (hex n.genesisHash).reverse := by
  cases n <;> decide +kernel

/-- C126: the genesis blocks are blocks, pass all checks with the limit of their network, and have the hash they are known by. -/
theorem C126_genesis_partial (n : Network) : ∃ raw b, (withGenesis n).genesis = some raw ∧
    deserializeAll (CBlock.deser realHash) raw = .ok b ∧ checkBlock realHash (some n.easiest) b true true b.header.nTime = .ok () ∧
    b.getHash realHash = .ok (hex n.genesisHash).reverse := by
  have h := firstBlock_ser n
  generalize (withGenesis n).genesis = o at h
  cases o with
  | none => cases h
  | some raw => exact ⟨raw, firstBlock n, rfl, C88_block_roundtrip (Option.some.inj h).symm (firstBlock_fit n), firstBlock_check n, firstBlock_hash n⟩

/-- C126: the first block in the variables after any calls is that of the network chosen last, known by its hash, and so are the name of this
network and the number of blocks between two halvings.  `bitcoin.core.coreparams` has them, and `bitcoin.params` too, unless the main network is chosen:
then `bitcoin.params` has none, and `bitcoin.core.coreparams` only if no network was chosen by its name. -/
theorem C126_core_partial (names : List Str) :
    let g := selects names atImport
    let right (c : CoreParams) := c.name = some (Network.last names).name ∧ c.halving = some (Network.last names).halving ∧ ∃ raw b, c.genesis = some raw ∧
      deserializeAll (CBlock.deser realHash) raw = .ok b ∧ b.getHash realHash = .ok (hex (Network.last names).genesisHash).reverse
    (Network.last names ≠ .main → right g.core ∧ right g.params.toCoreParams) ∧
    (Network.last names = .main → (right g.core ↔ ∀ s ∈ names, ∀ n : Network, s ≠ n.name) ∧ g.params.genesis = none) := by
  intro g right
  have known : right (withGenesis (Network.last names)) := by
    obtain ⟨raw, b, h1, h2, -, h3⟩ := C126_genesis_partial (Network.last names)
    refine ⟨?_, ?_, raw, b, h1, h2, h3⟩ <;> cases Network.last names <;> rfl
  have hg : g = _ := after_selects names
  constructor
  · intro h
    have e : names.filterMap named ≠ [] := fun e => h (by rw [Network.last, e]; rfl)
    rw [if_neg e] at hg
    rw [hg]
    generalize hn : Network.last names = n at *
    cases n with
    | main => exact absurd rfl h
    | test => exact ⟨known, known⟩
    | reg => exact ⟨known, known⟩
  · intro h
    by_cases e : names.filterMap named = []
    · rw [if_pos e] at hg
      rw [hg]
      refine ⟨⟨fun _ s hs n hn => ?_, fun _ => ?_⟩, rfl⟩
      · have := List.filterMap_eq_nil_iff.mp e s hs
        rw [named_some.mpr hn] at this
        cases this
      · rw [h] at known
        exact known
    · rw [if_neg e, h] at hg
      rw [hg]
      refine ⟨⟨fun k => ?_, fun k => absurd (List.filterMap_eq_nil_iff.mpr fun s hs => ?_) e⟩, rfl⟩
      · cases k.1
      · cases q : named s with
        | none => rfl
        | some n => exact absurd (named_some.mp q) (k s hs n)

/-- After a mistake, the test network chosen before stays chosen. -/
example : Network.last ["testnet".toList, "testnet3".toList] = .test ∧ (selectParams "testnet3".toList (chosen .test)).1 = .error .valueError ∧
    (selects ["testnet".toList, "testnet3".toList] atImport).params.prefixes = ⟨111, 196, 239⟩ := by decide +kernel
/-- Choosing another network first does not help. -/
example : checkBlockNow realHash (selects ["regtest".toList, "mainnet".toList] atImport) Ex.genesis true true 1231006505 = .error .typeError ∧
    checkBlockNow realHash atImport Ex.genesis true true 1231006505 = .ok () ∧ checkBlockNow realHash (selects ["testnet".toList] atImport) Ex.genesis true true 1231006505 = .ok () := by
  decide +kernel
example : writeNow realHash (fun _ => .error .other) (selects ["regtest".toList] atImport) .verack = .ok (hex "f9beb4d976657261636b000000000000000000005df6e0e2") := by decide +kernel

/-! ## C127: what was made for another network -/

/-- What was made for one network, be it an address, a secret key or a message, is refused on any other. -/
def C127_statement : Prop := ∀ (H : HashFns) (aton : Str → Py Bytes) (n n' : Network), n ≠ n' →
  (∀ s x, newB58 H n.versions .address s = .ok x → newB58 H n'.versions .address s = .error .base58) ∧
  (∀ s x, newSecret H n.versions s = .ok x → newSecret H n'.versions s = .error .base58) ∧
  (∀ (m : Msg) b rest, m.toBytes H aton n.startBytes = .ok b → Msg.streamDeser H n'.startBytes (b ++ rest) = .error .valueError)

/-- False: the addresses for the test network are those for regression tests. -/
theorem C127_refuted : ¬ C127_statement := by
  intro h
  have h1 : newB58 realHash Network.test.versions .address (b58encode (checked realHash 111#8 (List.replicate 20 0#8))) = .ok ⟨.p2pkh, List.replicate 20 0#8, 111⟩ :=
    ((C100_exact_partial (Network.versions_ok _) _).1 _).mpr ⟨111#8, _, .inl (base58_encode _), .inr ⟨by decide, rfl⟩⟩
  have h2 := (h realHash (fun _ => .error .other) .test .reg (by decide)).1 _ _ h1
  rw [show Network.reg.versions = Network.test.versions from rfl, h1] at h2
  cases h2

/-- C127: an address or secret key for one network is taken for the same one on another if neither is the main network, and refused if just one is. -/
theorem C127_wallet_partial (H : HashFns) (n n' : Network) (s : Str) :
    (n ≠ n' → (n = .main ∨ n' = .main) →
      (∀ x, newB58 H n.versions .address s = .ok x → newB58 H n'.versions .address s = .error .base58) ∧
      (∀ x, newSecret H n.versions s = .ok x → newSecret H n'.versions s = .error .base58)) ∧
    (n ≠ .main → n' ≠ .main → newB58 H n.versions .address s = newB58 H n'.versions .address s ∧ newSecret H n.versions s = newSecret H n'.versions s) := by
  constructor
  · intro hne hm
    have hv : n.keyVersion ≠ n'.keyVersion ∧ n.keyVersion ≠ n'.scriptVersion ∧ n.scriptVersion ≠ n'.keyVersion ∧ n.scriptVersion ≠ n'.scriptVersion ∧ n.secretVersion ≠ n'.secretVersion := by
      revert hne hm; cases n <;> cases n' <;> decide
    constructor
    · intro x h
      obtain ⟨v, d, h1, h2⟩ := ((C100_exact_partial n.versions_ok s).1 x).mp h
      refine (C100_exact_partial n'.versions_ok s).2 ?_
      rintro ⟨y, hy⟩
      obtain ⟨v', d', g1, g2⟩ := ((C100_exact_partial n'.versions_ok s).1 y).mp hy
      obtain ⟨rfl, rfl⟩ := parts_unique h1 g1
      have a : (v.toNat : Int) = n.scriptVersion ∨ (v.toNat : Int) = n.keyVersion := h2.elim (fun h => .inl h.1) (fun h => .inr h.1)
      have b : (v.toNat : Int) = n'.scriptVersion ∨ (v.toNat : Int) = n'.keyVersion := g2.elim (fun h => .inl h.1) (fun h => .inr h.1)
      omega
    · intro x h
      obtain ⟨v, d, h1, h2, _⟩ := ((C102_exact_partial s).1 x.1 x.2).mp h
      refine (C102_exact_partial s).2 ?_
      rintro ⟨y, hy⟩
      obtain ⟨v', d', g1, g2, _⟩ := ((C102_exact_partial s).1 y.1 y.2).mp hy
      obtain ⟨rfl, rfl⟩ := parts_unique h1 g1
      have a : (v.toNat : Int) = n.secretVersion := h2
      have b : (v.toNat : Int) = n'.secretVersion := g2
      omega
  · intro h h'
    have : n.versions = n'.versions := by revert h h'; cases n <;> cases n' <;> decide
    rw [this]
    exact ⟨rfl, rfl⟩

/-- C127: a message for one network is refused on every other, and what does not begin as the messages of a network do. -/
theorem C127_messages_partial (H : HashFns) (aton : Str → Py Bytes) {n n' : Network} (hne : n ≠ n') :
    (∀ (m : Msg) b rest, m.toBytes H aton n.startBytes = .ok b → Msg.streamDeser H n'.startBytes (b ++ rest) = .error .valueError) ∧
    ∀ s, 20 ≤ s.length → Msg.streamDeser H n'.startBytes (n.startBytes ++ s) = .error .valueError := by
  refine ⟨fun m b rest hb => C107_other_network_partial (Network.start_length _) (Network.start_length _) hb (fun e => hne (Network.start_inj e)) rest, fun s hs => ?_⟩
  have hl := n.start_length
  refine C107_network_partial (Network.start_length _) (by rw [List.length_append]; omega) ?_
  rw [List.take_append_of_le_length (by omega), List.take_of_length_le (by omega)]
  exact fun e => hne (Network.start_inj e)

example : newB58 realHash Network.reg.versions .address "mfWxJ45yp2SFn7UciZyNpvDKrzbhyfKrY8".toList = .ok ⟨.p2pkh, List.replicate 20 0#8, 111⟩ ∧
    newB58 realHash Network.main.versions .address "mfWxJ45yp2SFn7UciZyNpvDKrzbhyfKrY8".toList = .error .base58 := by decide +kernel

end Verif.Btc
