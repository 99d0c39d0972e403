import Verif.Props.SusTool
import Verif.Props.Block
import Verif.Props.Btc
import Verif.Lemmas.BtcDeser
/-!
# C149: the transaction that `sus-tool.py mkclosetx` prints is valid
-/
namespace Verif
namespace Sus
open Seal Btc
variable {H : HashFns} {g : GuMapDecl}

local notation "C" => classes H g

/-- C149: the transaction that `mkclosetx` prints passes `CheckTransaction`. -/
def C149_statement : Prop := ∀ (H : HashFns) (g : GuMapDecl) (w : World) (arg : Str) (files : List Str) (m : Meth), Reachable (classes H g) H w.heap → files ≠ [] →
  (mkclosetx (classes H g) H arg files m w).1 = .ok () →
  ∃ (x : CTransaction) (b : Bytes), (mkclosetx (classes H g) H arg files m w).2.out = w.out ++ [b2x b] ∧ deserializeAll CTransaction.deser b = .ok x ∧ checkTransaction x = .ok ()

theorem serEach_length {α} {ser : α → Py Bytes} {k : Nat} (hk : ∀ x e, ser x = .ok e → e.length = k) : ∀ {xs : List α} {e : Bytes}, serEach ser xs = .ok e → e.length = k * xs.length
  | [], e, h => by cases h; rfl
  | x :: xs, e, h => by
    unfold serEach at h
    obtain ⟨b, hb, h⟩ := Except.bind_eq_ok h
    obtain ⟨bs, hbs, h⟩ := Except.bind_eq_ok h
    cases h
    rw [List.length_append, hk _ _ hb, serEach_length hk hbs, List.length_cons]
    ring

theorem serVarInt_length {n : Nat} {l : Bytes} (h : serVarInt n = .ok l) (hn : n ≤ 0xffff) : l.length ≤ 3 := by
  unfold serVarInt at h
  rw [if_neg (by omega)] at h
  split at h
  · cases h; simp
  · rw [if_pos (by omega)] at h
    obtain ⟨b, hb, h⟩ := Except.bind_eq_ok h
    cases h
    have := (packU_ok hb).1
    simp [this]

theorem outpoint_ser_length {o : COutPoint} {e : Bytes} (h : o.ser = .ok e) : e.length = 36 := by
  unfold COutPoint.ser at h
  obtain ⟨_, h1, h⟩ := Except.bind_eq_ok h
  obtain ⟨n, h2, h⟩ := Except.bind_eq_ok h
  cases h
  have h1 := pyAssert_ok h1
  simp only [beq_iff_eq] at h1
  rw [List.length_append, h1, (packU_ok h2).1]

theorem serEach_map : ∀ ps : List (COutPoint × Bytes), serEach CTxIn.ser (ps.map fun p => ⟨p.1, [], 0xffffffff⟩) = serEach (fun p : COutPoint × Bytes => (⟨p.1, [], 0xffffffff⟩ : CTxIn).ser) ps
  | [] => rfl
  | p :: ps => by
    simp only [List.map_cons, serEach]
    rw [serEach_map ps]

theorem b2x_inj {a b : Bytes} (h : b2x a = b2x b) : a = b := by
  have := unhex_b2x a
  rw [h, unhex_b2x] at this
  cases this
  rfl

/-- The size of the transaction printed. -/
theorem size_le {ps : List (COutPoint × Bytes)} {o : CTxOut} {b d : Bytes} (hd : d.length = 32) (ho : CommitsTo H d o.scriptPubKey) (hn : ps.length ≤ 24388)
    (h : (⟨1, ps.map fun p => ⟨p.1, [], 0xffffffff⟩, [o], 0⟩ : CTransaction).ser = .ok b) : b.length ≤ 1000000 := by
  have h20 : (h160 H d).length = 20 := H.ripemd160_len _
  have hs : o.scriptPubKey.length ≤ 34 := by
    rcases ho with h | h | h <;> rw [h] <;> simp [opReturnScript, p2shScript, p2pkhScript, hd, h20]
  unfold CTransaction.ser at h
  obtain ⟨a, ha, h⟩ := Except.bind_eq_ok h
  obtain ⟨b1, hb, h⟩ := Except.bind_eq_ok h
  obtain ⟨c, hc, h⟩ := Except.bind_eq_ok h
  obtain ⟨e, he, h⟩ := Except.bind_eq_ok h
  cases h
  have la := (packS_ok (by omega) ha).1
  have le := (packU_ok he).1
  have lb : b1.length ≤ 3 + 41 * ps.length := by
    unfold serVector at hb
    obtain ⟨l, hl, hb⟩ := Except.bind_eq_ok hb
    obtain ⟨bs, hbs, hb⟩ := Except.bind_eq_ok hb
    cases hb
    rw [List.length_map] at hl
    have h1 := serVarInt_length hl (by omega)
    have hbs' : serEach (fun p : COutPoint × Bytes => (⟨p.1, [], 0xffffffff⟩ : CTxIn).ser) ps = .ok bs := by
      rw [← hbs]
      exact (serEach_map ps).symm
    have h2 := serEach_length (k := 41) (fun p e he => ?_) hbs'
    · rw [List.length_append, h2]; omega
    · unfold CTxIn.ser at he
      obtain ⟨x, hx, he⟩ := Except.bind_eq_ok he
      obtain ⟨y, hy, he⟩ := Except.bind_eq_ok he
      obtain ⟨z, hz, he⟩ := Except.bind_eq_ok he
      cases he
      have e0 : serBytes [] = .ok [0#8] := by decide
      simp only at hy hz
      rw [e0] at hy
      cases hy
      rw [List.length_append, List.length_append, outpoint_ser_length hx, (packU_ok hz).1]
      rfl
  have lc : c.length ≤ 46 := by
    unfold serVector at hc
    obtain ⟨l, hl, hc⟩ := Except.bind_eq_ok hc
    obtain ⟨bs, hbs, hc⟩ := Except.bind_eq_ok hc
    cases hc
    unfold serEach at hbs
    obtain ⟨x, hx, hbs⟩ := Except.bind_eq_ok hbs
    obtain ⟨y, hy, hbs⟩ := Except.bind_eq_ok hbs
    cases hbs
    cases hy
    unfold CTxOut.ser at hx
    obtain ⟨u, hu, hx⟩ := Except.bind_eq_ok hx
    obtain ⟨v, hv, hx⟩ := Except.bind_eq_ok hx
    cases hx
    have e1 : serVarInt 1 = .ok [1#8] := by decide
    simp only [List.length_singleton, Nat.cast_one] at hl
    rw [e1] at hl
    cases hl
    unfold serBytes at hv
    obtain ⟨k, hk, hv⟩ := Except.bind_eq_ok hv
    cases hv
    have := (packS_ok (by omega) hu).1
    have hk1 : k.length = 1 := by
      unfold serVarInt at hk
      rw [if_neg (by omega), if_pos (by omega)] at hk
      cases hk
      rfl
    simp only [List.length_append, List.length_singleton, List.length_nil, this, hk1]
    omega
  simp only [List.length_append, la, le]
  omega

theorem shape_fits {ps : List (COutPoint × Bytes)} {x : CTransaction} {out : CTxOut} {d : Bytes} (hdl : d.length = 32) (hcm : CommitsTo H d out.scriptPubKey)
    (hshape : x = ⟨1, ps.map fun p => ⟨p.1, [], 0xffffffff⟩, [out], 0⟩) : x.ScriptsFit := by
  have h20 : (h160 H d).length = 20 := H.ripemd160_len _
  have hs : out.scriptPubKey.length ≤ 34 := by
    rcases hcm with h | h | h <;> rw [h] <;> simp [opReturnScript, p2shScript, p2pkhScript, hdl, h20]
  have hmx : MAX_SIZE = 33554432 := rfl
  rw [hshape]
  refine ⟨fun i hi => ?_, fun o ho => ?_⟩
  · obtain ⟨p, _, rfl⟩ := List.mem_map.mp hi
    simp
  · cases List.mem_singleton.mp ho
    omega

/-- What `mkclosetx` prints, and when that is a valid transaction: exactly if no two seals have the same outpoint, no seal has the null outpoint and
the transaction is not too large, which it is not for up to 24388 seals. -/
theorem C149_exact_partial (w : World) (hw : Reachable C H w.heap) {arg : Str} {files : List Str} {m : Meth} {w' : World} (hne : files ≠ [])
    (h : mkclosetx C H arg files m w = (.ok (), w')) :
    ∃ (seals : List (COutPoint × Bytes)) (x : CTransaction) (b : Bytes), List.Forall₂ (HoldsSeal C H w.files) files seals ∧
      w'.out = w.out ++ [b2x b] ∧ deserializeAll CTransaction.deser b = .ok x ∧
      (checkTransaction x = .ok () ↔ (seals.map (·.1)).Nodup ∧ nullOut ∉ seals.map (·.1) ∧ b.length ≤ 1000000) ∧
      (checkTransaction x = .ok () ∨ checkTransaction x = .error .validation) ∧
      (files.length ≤ 24388 → b.length ≤ 1000000) := by
  obtain ⟨y, w'', hm, _, _, hok, _⟩ := C57_mkclosetx_partial (H := H) (g := g) w hw arg files m
  rw [h] at hm; cases hm
  obtain ⟨d, seals, x, out, b, hd, hdl, hall, _, hnd, hvin, hvout, hcm, hval, hshape, hser, hout⟩ := hok rfl
  have hde := C42_tx_roundtrip hser (shape_fits hdl hcm hshape)
  have hvalid := (CTransaction.deser_valid (deserializeAll_ok hde)).1
  have hlen := hall.length_eq
  have hsp : spends x = seals.map (·.1) := hvin
  have hv0 : 0 ≤ out.nValue ∧ out.nValue ≤ 600 := by rw [hval]; split <;> simp
  refine ⟨seals, x, b, hall, hout, hde, ?_, ?_, ?_⟩
  · rw [C84_accepts hvalid]
    constructor
    · rintro ⟨b', hb', hr⟩
      rw [hser] at hb'
      cases hb'
      have hcb : ¬ Coinbase x := by
        rintro ⟨i, hi, hn⟩
        have := (hr.coinbase i hi hn).1
        have hi' : i ∈ x.vin := by rw [hi]; simp
        rw [hshape] at hi'
        obtain ⟨p, _, rfl⟩ := List.mem_map.mp hi'
        simp at this
      exact ⟨hsp ▸ hr.distinct, hsp ▸ hr.spending hcb, hr.small⟩
    · rintro ⟨h1, h2, h3⟩
      refine ⟨b, hser, ?_, ?_, h3, ?_, ?_, hsp ▸ h1, ?_, fun _ => hsp ▸ h2⟩
      · intro hc
        have : (spends x).length = 0 := by unfold spends; rw [hc]; rfl
        rw [hsp, List.length_map, ← hlen] at this
        exact hne (List.eq_nil_of_length_eq_zero this)
      · rw [hvout]; simp
      · intro o ho
        rw [hvout] at ho
        cases List.mem_singleton.mp ho
        exact hv0.1
      · rw [hvout]
        simp only [List.map_cons, List.map_nil, List.sum_cons, List.sum_nil]
        omega
      · intro i hi hn
        exfalso
        apply h2
        rw [← hsp]
        unfold spends
        rw [hi, ← hn]
        simp
  · by_cases hr : TxRules x b.length
    · exact .inl ((C84_accepts hvalid).mpr ⟨b, hser, hr⟩)
    · exact .inr (C84_rejects hvalid hser hr)
  · intro hn
    rw [hshape] at hser
    exact size_le hdl hcm (by omega) hser

/-- Completing it: with inputs signed and further outputs added, it is valid if the outputs are and it is not too large; with two seals on one outpoint no
way of completing it gives a valid transaction. -/
theorem C149_completed_partial (w : World) (hw : Reachable C H w.heap) {arg : Str} {files : List Str} {m : Meth} {w' : World} (hne : files ≠ [])
    (h : mkclosetx C H arg files m w = (.ok (), w')) :
    ∃ (seals : List (COutPoint × Bytes)) (x : CTransaction) (b : Bytes), List.Forall₂ (HoldsSeal C H w.files) files seals ∧
      w'.out = w.out ++ [b2x b] ∧ deserializeAll CTransaction.deser b = .ok x ∧ ∀ (x' : CTransaction) (b' : Bytes), x'.Valid → Completes x x' → x'.ser = .ok b' →
        ((seals.map (·.1)).Nodup → nullOut ∉ seals.map (·.1) → (∀ o ∈ x'.vout, 0 ≤ o.nValue) → (x'.vout.map (·.nValue)).sum ≤ 2100000000000000 → b'.length ≤ 1000000 →
          checkTransaction x' = .ok ()) ∧
        (¬ (seals.map (·.1)).Nodup → checkTransaction x' = .error .validation) := by
  obtain ⟨y, w'', hm, _, _, hok, _⟩ := C57_mkclosetx_partial (H := H) (g := g) w hw arg files m
  rw [h] at hm; cases hm
  obtain ⟨d, seals, x, out, b, hd, hdl, hall, _, hnd, hvin, hvout, hcm, hval, hshape, hser, hout⟩ := hok rfl
  refine ⟨seals, x, b, hall, hout, C42_tx_roundtrip hser (shape_fits hdl hcm hshape), fun x' b' hv hc hs => ⟨?_, ?_⟩⟩
  · intro h1 h2 h3 h4 h5
    have hsp : spends x' = seals.map (·.1) := hc.inputs.trans hvin
    refine (C84_accepts hv).mpr ⟨b', hs, ?_, ?_, h5, h3, h4, hsp ▸ h1, ?_, fun _ => hsp ▸ h2⟩
    · intro hc'
      have : (spends x').length = 0 := by unfold spends; rw [hc']; rfl
      rw [hsp, List.length_map, ← hall.length_eq] at this
      exact hne (List.eq_nil_of_length_eq_zero this)
    · obtain ⟨ex, he⟩ := hc.outputs
      rw [he, hvout]; simp
    · intro i hi hn
      exfalso
      apply h2
      rw [← hsp]
      unfold spends
      rw [hi, ← hn]
      simp
  · intro hn
    refine C84_rejects hv hs fun hr => hn ?_
    have := hr.distinct
    rwa [show spends x' = seals.map (·.1) from hc.inputs.trans hvin] at this

/-- C149 is false: the files `a.seal` and `b.seal` hold seals with the same outpoint. -/
theorem C149_refuted : ¬ C149_statement := by
  intro h
  obtain ⟨x, b, ho, hd, hc⟩ := h realHash intGuMap Ex.world Ex.digestArg ["a.seal".toList, "b.seal".toList] .opReturn Ex.reachable (by simp) (by decide +kernel)
  have h0 : (mkclosetx (classes realHash intGuMap) realHash Ex.digestArg ["a.seal".toList, "b.seal".toList] .opReturn Ex.world).1 = .ok () := by decide +kernel
  rcases e : mkclosetx (classes realHash intGuMap) realHash Ex.digestArg ["a.seal".toList, "b.seal".toList] .opReturn Ex.world with ⟨y, w'⟩
  rw [e] at ho h0
  simp only at ho h0
  subst h0
  obtain ⟨seals, x', b', hall, ho', hd', hiff, _⟩ := C149_exact_partial Ex.world Ex.reachable (by simp) e
  rw [ho] at ho'
  cases b2x_inj (by simpa using List.append_cancel_left ho' : b2x b = b2x b')
  rw [hd] at hd'
  cases hd'
  have hnd := (hiff.mp hc).1
  cases hall with
  | cons h1 h2 =>
  cases h2 with
  | cons h2 h3 =>
  cases h3
  obtain ⟨b1, hb1, h1⟩ := h1
  obtain ⟨b2, hb2, h2⟩ := h2
  obtain ⟨b3, hb3, h3⟩ := Ex.a_seal
  obtain ⟨b4, hb4, h4⟩ := Ex.b_seal
  rw [hb1] at hb3; cases hb3
  rw [hb2] at hb4; cases hb4
  have e1 := holds_unique h1 h3
  have e2 := holds_unique h2 h4
  subst e1 e2
  simp at hnd

/-- The conditions are met: one seal. -/
example : (mkclosetx (classes realHash intGuMap) realHash Ex.digestArg ["a.seal".toList] .p2sh Ex.world).1 = .ok () ∧
    ([(Seal.Ex.op, Seal.Ex.nonce)].map (·.1)).Nodup ∧ nullOut ∉ [(Seal.Ex.op, Seal.Ex.nonce)].map (·.1) := by decide +kernel

end Sus
end Verif
