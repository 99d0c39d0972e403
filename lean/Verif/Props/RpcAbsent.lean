import Verif.Props.RpcNode
/-! # Answers of a node that lack a field (C121) -/
namespace Verif.Rpc
open Verif Btc Sus

section
variable {σ : Type} {S : Server σ} {st : PSt σ} {t : σ} {H : HashFns} {p : Prefixes}

theorem fld_some {l : List (Str × Json)} {k : Str} {j : Json} (h : fld l k = .ok j) : l.lookup k = some j := by
  unfold fld at h
  split at h
  · rename_i e
    cases h
    exact e
  · cases h

/-- A response of which a part fails raises, and the proxy counts the request. -/
theorem lift_fails {α : Type} {x : Py α} {s : PSt σ} (h : ∀ a, x ≠ .ok a) : ∃ e, (RM.lift x : RM σ α) s = (.error (.py e), s) := by
  rcases hx : x with e | a
  · exact ⟨e, rfl⟩
  · exact absurd hx (h a)

/-- C121: no value is made up: if a field that is to be converted is missing in the answer, the methods raise. -/
theorem C121_absent {l : List (Str × Json)} :
    (∀ (o : COutPoint) (mem : Bool), Answers S st "gettxout" [.str (shownHash o.hash), .int o.n, .bool mem] (.obj l) t →
      (∃ k ∈ ["value", "scriptPubKey", "bestblock"], l.lookup k.toList = none) → ∃ e, gettxout S o mem st = (.error (.py e), ⟨st.count + 1, t⟩)) ∧
    (∀ (min max : Int) (us : List Json), Answers S st "listunspent" [.int min, .int max] (.arr us) t → Json.obj l ∈ us →
      (∃ k ∈ ["txid", "vout", "address", "scriptPubKey", "amount"], l.lookup k.toList = none) →
      ∃ e, listunspent S H p min max none st = (.error (.py e), ⟨st.count + 1, t⟩)) ∧
    (Answers S st "getinfo" [] (.obj l) t → l.lookup "paytxfee".toList = none → ∃ e, getinfo S st = (.error (.py e), ⟨st.count + 1, t⟩)) ∧
    (∀ (addr : B58Data) (s : Str), strB58 H addr = .ok s → Answers S st "validateaddress" [.str s] (.obj l) t →
      (l.lookup "isvalid".toList = none ∨ l.lookup "isvalid".toList = some (.bool true) ∧ l.lookup "address".toList = none) →
      ∃ e, validateaddress S H p addr st = (.error (.py e), ⟨st.count + 1, t⟩)) ∧
    (∀ (x : CTransaction) (raw : Bytes) (args : List Json), x.ser = .ok raw → Answers S st "signrawtransaction" (.str (hexText raw) :: args) (.obj l) t →
      l.lookup "hex".toList = none → ∃ e, signrawtransaction S x args st = (.error (.py e), ⟨st.count + 1, t⟩)) ∧
    (∀ id : Bytes, Answers S st "getrawtransaction" [.str (shownHash id), .int 1] (.obj l) t → l.lookup "hex".toList = none →
      ∃ e, getrawtransactionVerbose S id st = (.error (.py e), ⟨st.count + 1, t⟩)) := by
  refine ⟨?_, ?_, ?_, ?_, ?_, ?_⟩
  · rintro o mem ha ⟨k, hk, hn⟩
    unfold gettxout
    rw [b2lx_eq, RM.bind_ok (call_answers ha)]
    apply lift_fails
    intro d h
    have h : txoutDict l = .ok d := h
    unfold txoutDict at h
    obtain ⟨v, h1, h⟩ := Except.bind_eq_ok h
    obtain ⟨_, _, h⟩ := Except.bind_eq_ok h
    obtain ⟨s, h2, h⟩ := Except.bind_eq_ok h
    obtain ⟨_, _, h⟩ := Except.bind_eq_ok h
    obtain ⟨_, _, h⟩ := Except.bind_eq_ok h
    obtain ⟨_, _, h⟩ := Except.bind_eq_ok h
    obtain ⟨_, _, h⟩ := Except.bind_eq_ok h
    obtain ⟨b, h3, h⟩ := Except.bind_eq_ok h
    have h1 := fld_some h1
    have h2 := fld_some h2
    have h3 := fld_some h3
    simp only [List.mem_cons, List.not_mem_nil, or_false] at hk
    rcases hk with rfl | rfl | rfl
    · exact nomatch hn.symm.trans h1
    · exact nomatch hn.symm.trans h2
    · exact nomatch hn.symm.trans h3
  · rintro min max us ha hm ⟨k, hk, hn⟩
    unfold listunspent
    rw [RM.bind_ok (RM.lift_ok rfl), RM.bind_ok (call_answers ha)]
    apply lift_fails
    intro d h
    have h : us.mapM (unspentDict H p) = .ok d := h
    have one : ∃ d, unspentDict H p (.obj l) = .ok d := by
      clear ha
      induction us generalizing d with
      | nil => cases hm
      | cons u us ih =>
        rw [List.mapM_cons] at h
        obtain ⟨a, h1, h⟩ := Except.bind_eq_ok h
        obtain ⟨b, h2, h⟩ := Except.bind_eq_ok h
        rcases List.mem_cons.mp hm with rfl | hm
        · exact ⟨a, h1⟩
        · exact ih hm _ h2 h2
    obtain ⟨d, h⟩ := one
    have h : (do
      let t ← fld l (T "txid")
      _) = .ok d := h
    obtain ⟨_, h1, h⟩ := Except.bind_eq_ok h
    obtain ⟨_, _, h⟩ := Except.bind_eq_ok h
    obtain ⟨_, h2, h⟩ := Except.bind_eq_ok h
    obtain ⟨_, _, h⟩ := Except.bind_eq_ok h
    obtain ⟨_, _, h⟩ := Except.bind_eq_ok h
    obtain ⟨_, _, h⟩ := Except.bind_eq_ok h
    obtain ⟨_, h3, h⟩ := Except.bind_eq_ok h
    obtain ⟨_, _, h⟩ := Except.bind_eq_ok h
    obtain ⟨_, h4, h⟩ := Except.bind_eq_ok h
    obtain ⟨_, _, h⟩ := Except.bind_eq_ok h
    obtain ⟨_, h5, h⟩ := Except.bind_eq_ok h
    have h1 := fld_some h1
    have h2 := fld_some h2
    have h3 := fld_some h3
    have h4 := fld_some h4
    have h5 := fld_some h5
    simp only [List.mem_cons, List.not_mem_nil, or_false] at hk
    rcases hk with rfl | rfl | rfl | rfl | rfl
    · exact nomatch hn.symm.trans h1
    · exact nomatch hn.symm.trans h2
    · exact nomatch hn.symm.trans h3
    · exact nomatch hn.symm.trans h4
    · exact nomatch hn.symm.trans h5
  · intro ha hn
    unfold getinfo
    rw [RM.bind_ok (call_answers ha)]
    apply lift_fails
    intro d h
    have h : infoDict l = .ok d := h
    unfold infoDict at h
    obtain ⟨_, _, h⟩ := Except.bind_eq_ok h
    obtain ⟨_, h1, h⟩ := Except.bind_eq_ok h
    exact nomatch hn.symm.trans (fld_some h1)
  · intro addr s hs ha hn
    unfold validateaddress
    rw [RM.bind_ok (RM.lift_ok hs), RM.bind_ok (call_answers ha)]
    apply lift_fails
    intro d h
    unfold validDict at h
    obtain ⟨l', h0, h⟩ := Except.bind_eq_ok h
    cases h0
    obtain ⟨v, h1, h⟩ := Except.bind_eq_ok h
    have h1 := fld_some h1
    rcases hn with hn | ⟨hn, hn'⟩
    · exact nomatch hn.symm.trans h1
    · obtain rfl : Json.bool true = v := Option.some.inj (hn.symm.trans h1)
      obtain ⟨_, h2, h⟩ := Except.bind_eq_ok h
      have h2 : (do
        let a ← fld l (T "address")
        _) = .ok _ := h2
      obtain ⟨_, h3, _⟩ := Except.bind_eq_ok h2
      exact nomatch hn'.symm.trans (fld_some h3)
  · intro x raw args hx ha hn
    unfold signrawtransaction
    rw [RM.bind_ok (RM.lift_ok hx)]
    have : hexlify raw = .str (hexText raw) := by unfold hexlify; rw [b2x_eq]
    rw [this, RM.bind_ok (call_answers ha)]
    apply lift_fails
    intro d h
    unfold signedDict at h
    obtain ⟨l', h0, h⟩ := Except.bind_eq_ok h
    cases h0
    obtain ⟨_, h1, h⟩ := Except.bind_eq_ok h
    exact nomatch hn.symm.trans (fld_some h1)
  · intro id ha hn
    unfold getrawtransactionVerbose
    rw [b2lx_eq, RM.bind_ok (indexed_ok (call_answers ha))]
    apply lift_fails
    intro d h
    have h : rawTxDict l = .ok d := h
    unfold rawTxDict at h
    obtain ⟨_, h1, h⟩ := Except.bind_eq_ok h
    exact nomatch hn.symm.trans (fld_some h1)

/-- A node of the future, without fees. -/
example : ∃ e, getinfo (⟨fun _ _ => (some (.obj [(T "result", .obj [(T "balance", .int 3)]), (T "error", .null)]), ())⟩ : Server Unit) ⟨0, ()⟩ = (.error (.py e), ⟨1, ()⟩) :=
  (C121_absent (H := realHash) (p := mainPrefixes)).2.2.1 ⟨_, rfl, rfl, rfl⟩ rfl

end
end Verif.Rpc
