import Verif.Props.RpcNode
import Verif.Props.Base58Repr
/-! # Addresses a node hands out (C154) -/
namespace Verif.Rpc
open Verif Btc Sus

section
variable {σ : Type} {S : Server σ} {st : PSt σ} {t : σ} {H : HashFns} {p : Prefixes}

/-- The methods that return an address, and what they send. -/
inductive AsksAddress (S : Server σ) (H : HashFns) (p : Prefixes) : RM σ B58Data → String → List Json → Prop
  /-- `getnewaddress()` -/
  | new : AsksAddress S H p (getnewaddress S H p none) "getnewaddress" []
  /-- `getnewaddress(account)` -/
  | newFor (account : Str) : AsksAddress S H p (getnewaddress S H p (some account)) "getnewaddress" [.str account]
  /-- `getaccountaddress(account)` -/
  | account (account : Str) : AsksAddress S H p (getaccountaddress S H p (some account)) "getaccountaddress" [.str account]
  /-- `getaccountaddress()` -/
  | account0 : AsksAddress S H p (getaccountaddress S H p none) "getaccountaddress" [.null]
  /-- `getrawchangeaddress()` -/
  | change : AsksAddress S H p (getrawchangeaddress S H p) "getrawchangeaddress" []

theorem AsksAddress.eq {f : RM σ B58Data} {m : String} {ps : List Json} (h : AsksAddress S H p f m ps) :
    f = (do let r ← call S (T m) ps; RM.lift (toAddress H p r)) := by
  cases h <;> rfl

/-- C154: if the node answers with the text of an address of the selected network, the result is this address; the text of another network, of a key or of
anything else with a checksum is refused. -/
theorem C154_address (hp : p.Ok) {f : RM σ B58Data} {m : String} {ps : List Json} (h : AsksAddress S H p f m ps) {s : Str} {v : Byte} {data : Bytes}
    (hs : Base58 (checked H v data) s) (ha : Answers S st m ps (.str s) t) :
    ((v.toNat : Int) = p.script → f st = (.ok ⟨.p2sh, data, p.script⟩, ⟨st.count + 1, t⟩)) ∧
    ((v.toNat : Int) = p.pubkey → f st = (.ok ⟨.p2pkh, data, p.pubkey⟩, ⟨st.count + 1, t⟩)) ∧
    ((v.toNat : Int) ≠ p.script → (v.toNat : Int) ≠ p.pubkey → f st = (.error (.py .base58), ⟨st.count + 1, t⟩)) := by
  have e : toAddress H p (.str s) = if (v.toNat : Int) = p.script then .ok ⟨.p2sh, data, v.toNat⟩ else if (v.toNat : Int) = p.pubkey then .ok ⟨.p2pkh, data, v.toNat⟩ else .error .base58 := by
    show newB58 H p .address s = _
    rw [newB58_of hs]
    exact addrFromBytes_eq hp _ _
  rw [h.eq, RM.bind_ok (call_answers ha)]
  refine ⟨fun hv => RM.lift_ok ?_, fun hv => RM.lift_ok ?_, fun h1 h2 => RM.lift_error ?_⟩
  · rw [e, if_pos hv, hv]
  · rw [e, if_neg (by rw [hv]; exact hp.different.symm), if_pos hv, hv]
  · rw [e, if_neg h1, if_neg h2]

/-- C154: every address of the selected network survives the way to the node and back. -/
theorem C154_survives (hp : p.Ok) {f : RM σ B58Data} {m : String} {ps : List Json} (h : AsksAddress S H p f m ps) {x : B58Data} {s : Str} (hx : Made H p x)
    (hc : x.cls = .p2sh ∨ x.cls = .p2pkh) (hs : strB58 H x = .ok s) (ha : Answers S st m ps (.str s) t) : f st = (.ok x, ⟨st.count + 1, t⟩) := by
  obtain ⟨h1, h2⟩ := hx.kinds
  obtain ⟨v, s', e1, e2, e3⟩ := strB58_text (H := H) h1
  rw [hs] at e2
  cases e2
  obtain ⟨a, b, _⟩ := C154_address hp h e3 ha
  obtain ⟨c, data, n⟩ := x
  simp only at h2 hc e1 a b
  rcases h2 with h2 | ⟨h2, h3⟩ | ⟨h2, h3⟩ | ⟨h2, h3⟩
  · rw [h2] at hc; simp at hc
  · rw [a (e1.trans h3), h2, h3]
  · rw [b (e1.trans h3), h2, h3]
  · rw [h2] at hc; simp at hc

/-- C154: texts that have a character outside base 58 raise `Base58Error`, and so do the answers `null`, `false` and 0. -/
theorem C154_refuses {f : RM σ B58Data} {m : String} {ps : List Json} (h : AsksAddress S H p f m ps) {j : Json}
    (hj : (∃ s, j = .str s ∧ ∃ c ∈ s, c ∉ alphabet) ∨ j = .null ∨ j = .bool false ∨ j = .int 0) (ha : Answers S st m ps j t) :
    f st = (.error (.py .base58), ⟨st.count + 1, t⟩) := by
  rw [h.eq, RM.bind_ok (call_answers ha)]
  apply RM.lift_error
  rcases hj with ⟨s, rfl, hs⟩ | rfl | rfl | rfl
  · show newB58 H p .address s = _
    unfold newB58
    rw [(C98_characters s).2 hs]
    rfl
  · rfl
  · rfl
  · rfl

/-- C154: the three methods about nodes send `addnode` with the three commands of the node, and return its answer. -/
theorem C154_nodes {node : Str} {r : Json} :
    (Answers S st "addnode" [.str node, .str "add".toList] r t → addnode S node st = (.ok r, ⟨st.count + 1, t⟩)) ∧
    (Answers S st "addnode" [.str node, .str "onetry".toList] r t → addnodeonetry S node st = (.ok r, ⟨st.count + 1, t⟩)) ∧
    (Answers S st "addnode" [.str node, .str "remove".toList] r t → removenode S node st = (.ok r, ⟨st.count + 1, t⟩)) :=
  ⟨fun h => call_answers h, fun h => call_answers h, fun h => call_answers h⟩

/-- A node that hands out the address of a key, and counts. -/
def exWallet (s : Str) : Server Nat := ⟨fun n _ => (some (.obj [(T "result", .str s), (T "error", .null)]), n + 1)⟩

/-- With it, the second address is as good as the first; on the test network there is none. -/
example (data : Bytes) : ∃ s, strB58 H ⟨.p2pkh, data, 0⟩ = .ok s ∧
    getnewaddress (exWallet s) H mainPrefixes none ⟨7, 1⟩ = (.ok ⟨.p2pkh, data, 0⟩, ⟨8, 2⟩) ∧
    getnewaddress (exWallet s) H testPrefixes none ⟨7, 1⟩ = (.error (.py .base58), ⟨8, 2⟩) := by
  have ha : ∀ s, Answers (exWallet s) ⟨7, 1⟩ "getnewaddress" [] (.str s) 2 := fun s => ⟨_, rfl, rfl, rfl⟩
  obtain ⟨v, s, h1, h2, h3⟩ := strB58_text (H := H) (x := ⟨.p2pkh, data, 0⟩) ⟨Int.le_refl 0, Int.ofNat_le.mpr (Nat.zero_le 255)⟩
  have h1 : (v.toNat : Int) = 0 := h1
  exact ⟨s, h2, C154_survives mainPrefixes_ok .new (.bytes .address data 0 (by decide) rfl) (Or.inr rfl) h2 (ha s),
    (C154_address testPrefixes_ok .new h3 (ha s)).2.2 (by rw [h1]; decide) (by rw [h1]; decide)⟩

end
end Verif.Rpc
