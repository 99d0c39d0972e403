import Verif.Model.BtcCore
import Verif.Lemmas.Codec
/-! Helper lemmas about python-bitcoinlib serialization. -/
namespace Verif.Btc
open Verif

theorem leBytes_length : ∀ k n, (leBytes k n).length = k
  | 0, _ => rfl
  | k + 1, n => by simp [leBytes, leBytes_length k]

theorem leNat_leBytes : ∀ k n, n < 2 ^ (8 * k) → leNat (leBytes k n) = n
  | 0, n, h => by simp at h; simp [leBytes, leNat, h]
  | k + 1, n, h => by
    have h2 : n / 256 < 2 ^ (8 * k) := by
      apply Nat.div_lt_of_lt_mul
      rw [show 8 * (k + 1) = 8 + 8 * k by omega, Nat.pow_add] at h
      exact h
    simp only [leBytes, leNat, leNat_leBytes k _ h2, BitVec.toNat_ofNat]
    omega

theorem leNat_lt : ∀ b : Bytes, leNat b < 2 ^ (8 * b.length)
  | [] => by simp [leNat]
  | b :: bs => by
    have := leNat_lt bs
    have hb := b.isLt
    simp only [leNat, List.length_cons]
    rw [show 8 * (bs.length + 1) = 8 + 8 * bs.length by omega, Nat.pow_add]
    omega

theorem leBytes_leNat : ∀ b : Bytes, leBytes b.length (leNat b) = b
  | [] => rfl
  | b :: bs => by
    have hb := b.isLt
    simp only [List.length_cons, leBytes, leNat]
    rw [show (b.toNat + 256 * leNat bs) / 256 = leNat bs by omega, leBytes_leNat bs,
      show (b.toNat + 256 * leNat bs) % 256 = b.toNat by omega, BitVec.ofNat_toNat, BitVec.setWidth_eq]

theorem packU_ok {k : Nat} {i : Int} {b : Bytes} (h : packU k i = .ok b) :
    b.length = k ∧ unpackU b = i ∧ 0 ≤ i ∧ i < 2 ^ (8 * k) := by
  unfold packU at h
  split at h
  · rename_i hi
    injection h with h
    subst h
    refine ⟨leBytes_length _ _, ?_, hi⟩
    unfold unpackU
    have h2 : (i.toNat : Int) < ((2 ^ (8 * k) : Nat) : Int) := by
      rw [Int.toNat_of_nonneg hi.1]; push_cast; exact hi.2
    rw [leNat_leBytes _ _ (by exact_mod_cast h2)]
    omega
  · cases h

theorem packS_ok {k : Nat} {i : Int} {b : Bytes} (hk : 0 < k) (h : packS k i = .ok b) :
    b.length = k ∧ unpackS k b = i := by
  unfold packS at h
  split at h
  · rename_i hi
    injection h with h
    subst h
    refine ⟨leBytes_length _ _, ?_⟩
    have hp : (2 : Int) ^ (8 * k) = 2 * 2 ^ (8 * k - 1) := by
      rw [← Int.pow_succ']; congr 1; omega
    have hpos : (0 : Int) < 2 ^ (8 * k - 1) := Int.pow_pos (by omega)
    unfold unpackS
    generalize hM : (2 : Int) ^ (8 * k - 1) = M at *
    have hmod : 0 ≤ i % 2 ^ (8 * k) ∧ i % 2 ^ (8 * k) < 2 ^ (8 * k) :=
      ⟨Int.emod_nonneg _ (by omega), Int.emod_lt_of_pos _ (by omega)⟩
    rw [leNat_leBytes]
    · have hc : ((2 ^ (8 * k - 1) : Nat) : Int) = M := by push_cast; exact hM
      have htn : ((i % 2 ^ (8 * k)).toNat : Int) = i % 2 ^ (8 * k) := Int.toNat_of_nonneg hmod.1
      by_cases hneg : i < 0
      · have he : i % 2 ^ (8 * k) = i + 2 ^ (8 * k) := by
          rw [← Int.add_emod_right]
          exact Int.emod_eq_of_lt (by omega) (by omega)
        rw [if_neg]
        · omega
        · intro hlt
          have : ((i % 2 ^ (8 * k)).toNat : Int) < ((2 ^ (8 * k - 1) : Nat) : Int) := by exact_mod_cast hlt
          omega
      · have he : i % 2 ^ (8 * k) = i := Int.emod_eq_of_lt (by omega) (by omega)
        rw [if_pos]
        · omega
        · have : ((i % 2 ^ (8 * k)).toNat : Int) < ((2 ^ (8 * k - 1) : Nat) : Int) := by omega
          exact_mod_cast this
    · have : ((i % 2 ^ (8 * k)).toNat : Int) < ((2 ^ (8 * k) : Nat) : Int) := by
        rw [Int.toNat_of_nonneg hmod.1]; push_cast; exact hmod.2
      exact_mod_cast this
  · cases h

theorem RT.serRead {b : Bytes} {n : Nat} (h : b.length = n) (hm : n ≤ MAX_SIZE) : RT .btcTrunc (serRead n) b b where
  reads rest := by
    unfold Btc.serRead
    rw [if_neg (by omega)]
    subst h
    simp
  trunc pre suf he hs _ := by
    have := congrArg List.length he
    rw [List.length_append] at this
    have : 0 < suf.length := List.length_pos_iff.mpr hs
    unfold Btc.serRead
    rw [if_neg (by omega)]
    simp only [List.length_take]
    rw [if_pos (by omega)]

theorem serRead_ok {n : Nat} {s b rest : Bytes} (h : serRead n s = .ok (b, rest)) :
    s = b ++ rest ∧ b.length = n := by
  unfold serRead at h
  split at h
  · cases h
  · simp only at h
    split at h
    · cases h
    · rename_i hl
      simp only [Except.ok.injEq, Prod.mk.injEq] at h
      obtain ⟨rfl, rfl⟩ := h
      refine ⟨(List.take_append_drop _ _).symm, ?_⟩
      simp at hl ⊢
      omega

theorem RT.varInt {i : Nat} {e : Bytes} (h : serVarInt i = .ok e) : RT .btcTrunc deserVarInt e i := by
  unfold serVarInt at h
  rw [if_neg (by omega)] at h
  have one : ∀ r : Byte, RT .btcTrunc (Btc.serRead 1) [r] [r] := fun r => RT.serRead rfl (by decide)
  split at h
  · rename_i h1
    injection h with h
    subst h
    have hn : (BitVec.ofNat 8 (i : Int).toNat).toNat = i := by
      rw [BitVec.toNat_ofNat, Int.toNat_natCast]; omega
    unfold deserVarInt
    refine RT.congr (e := [BitVec.ofNat 8 (i : Int).toNat] ++ []) (a := i) ?_ (by simp) rfl
    apply RT.bind (one _)
    simp only [hn]
    rw [if_pos (by omega)]
    exact RT.pure i
  · have wide : ∀ (k : Nat) (m : Byte) (b : Bytes), packU k i = .ok b → k ≤ 8 →
        (RT .btcTrunc (match [m] with
          | [r] =>
            if r.toNat < 0xfd then pure r.toNat
            else if r = 0xfd#8 then do let b ← Btc.serRead 2; return leNat b
            else if r = 0xfe#8 then do let b ← Btc.serRead 4; return leNat b
            else do let b ← Btc.serRead 8; return leNat b
          | _ => P.fail .indexError : P Nat) b i) → RT .btcTrunc deserVarInt (m :: b) i := by
      intro k m b _ _ h2
      exact (one m).bind h2
    have rd : ∀ (k : Nat) (b : Bytes), packU k i = .ok b → k ≤ 8 →
        RT .btcTrunc (do let b ← Btc.serRead k; return leNat b) b i := by
      intro k b hb hk
      obtain ⟨h1, h2, _⟩ := packU_ok hb
      have := (RT.serRead h1 (by unfold MAX_SIZE; omega)).bind (f := fun b => (return leNat b : P Nat)) (RT.pure (leNat b))
      refine this.congr (by simp) ?_
      unfold unpackU at h2
      omega
    split at h
    · obtain ⟨b, hb, h⟩ := Except.bind_eq_ok h
      cases h
      exact wide 2 _ b hb (by omega) (by simpa using rd 2 b hb (by omega))
    · split at h
      · obtain ⟨b, hb, h⟩ := Except.bind_eq_ok h
        cases h
        exact wide 4 _ b hb (by omega) (by simpa using rd 4 b hb (by omega))
      · obtain ⟨b, hb, h⟩ := Except.bind_eq_ok h
        cases h
        exact wide 8 _ b hb (by omega) (by simpa using rd 8 b hb (by omega))

theorem RT.bytes {b e : Bytes} (h : serBytes b = .ok e) (hb : b.length ≤ MAX_SIZE) : RT .btcTrunc deserBytes e b := by
  unfold serBytes at h
  obtain ⟨l, hl, h⟩ := Except.bind_eq_ok h
  cases h
  exact (RT.varInt hl).bind (RT.serRead rfl hb)

theorem RT.each {α} {ser : α → Py Bytes} {de : P α} : ∀ {xs : List α} {e : Bytes}, serEach ser xs = .ok e →
    (∀ x ∈ xs, ∀ e, ser x = .ok e → RT .btcTrunc de e x) → RT .btcTrunc (deserEach de xs.length) e xs
  | [], e, h, _ => by cases h; exact RT.pure _
  | x :: xs, e, h, hx => by
    unfold serEach at h
    obtain ⟨b, hb, h⟩ := Except.bind_eq_ok h
    obtain ⟨bs, hbs, h⟩ := Except.bind_eq_ok h
    cases h
    have h1 := hx x (by simp) b hb
    have h2 := RT.each hbs (fun y hy => hx y (by simp [hy]))
    have h3 := h2.bind (f := fun xs => (return x :: xs : P (List α))) (RT.pure (x :: xs))
    rw [List.append_nil] at h3
    exact h1.bind h3

theorem RT.vector {α} {ser : α → Py Bytes} {de : P α} {xs : List α} {e : Bytes} (h : serVector ser xs = .ok e)
    (hx : ∀ x ∈ xs, ∀ e, ser x = .ok e → RT .btcTrunc de e x) : RT .btcTrunc (deserVector de) e xs := by
  unfold serVector at h
  obtain ⟨l, hl, h⟩ := Except.bind_eq_ok h
  obtain ⟨bs, hbs, h⟩ := Except.bind_eq_ok h
  cases h
  exact (RT.varInt hl).bind (RT.each hbs hx)

theorem pyAssert_ok {c : Bool} {u} (h : pyAssert c = .ok u) : c = true := by
  unfold pyAssert at h
  split at h
  · assumption
  · cases h

theorem RT.outpoint {o : COutPoint} {e : Bytes} (h : o.ser = .ok e) : RT .btcTrunc COutPoint.deser e o := by
  unfold COutPoint.ser at h
  obtain ⟨_, ha, h⟩ := Except.bind_eq_ok h
  obtain ⟨n, hn, h⟩ := Except.bind_eq_ok h
  cases h
  have hl : o.hash.length = 32 := by simpa using pyAssert_ok ha
  obtain ⟨h1, h2, h3, h4⟩ := packU_ok hn
  have h5 := (RT.serRead h1 (by decide)).bind (f := fun n => P.lift (COutPoint.new o.hash (unpackU n))) (RT.lift (a := o) (by
    unfold COutPoint.new
    rw [h2, if_neg (by simp [hl]), if_neg (by simp; omega)]))
  rw [List.append_nil] at h5
  exact (RT.serRead hl (by decide)).bind h5

theorem RT.txin {i : CTxIn} {e : Bytes} (h : i.ser = .ok e) (hs : i.scriptSig.length ≤ MAX_SIZE) :
    RT .btcTrunc CTxIn.deser e i := by
  unfold CTxIn.ser at h
  obtain ⟨a, ha, h⟩ := Except.bind_eq_ok h
  obtain ⟨b, hb, h⟩ := Except.bind_eq_ok h
  obtain ⟨c, hc, h⟩ := Except.bind_eq_ok h
  cases h
  obtain ⟨h1, h2, h3, h4⟩ := packU_ok hc
  have h5 := (RT.serRead h1 (by decide)).bind (f := fun n => P.lift (CTxIn.new i.prevout i.scriptSig (unpackU n)))
    (RT.lift (a := i) (by
      unfold CTxIn.new
      rw [h2, if_neg (by simp; omega)]))
  rw [List.append_nil] at h5
  unfold CTxIn.deser
  rw [List.append_assoc]
  apply RT.bind (RT.outpoint ha)
  apply RT.bind (RT.bytes hb hs)
  exact h5

theorem RT.txout {o : CTxOut} {e : Bytes} (h : o.ser = .ok e) (hs : o.scriptPubKey.length ≤ MAX_SIZE) :
    RT .btcTrunc CTxOut.deser e o := by
  unfold CTxOut.ser at h
  obtain ⟨a, ha, h⟩ := Except.bind_eq_ok h
  obtain ⟨b, hb, h⟩ := Except.bind_eq_ok h
  cases h
  obtain ⟨h1, h2⟩ := packS_ok (by omega) ha
  have h5 := (RT.bytes hb hs).bind (f := fun s => (return ⟨unpackS 8 a, s⟩ : P CTxOut)) (RT.pure _)
  rw [List.append_nil] at h5
  exact ((RT.serRead h1 (by decide)).bind h5).congr rfl (by rw [h2])

theorem RT.tx {t : CTransaction} {e : Bytes} (h : t.ser = .ok e) (hs : t.ScriptsFit) :
    RT .btcTrunc CTransaction.deser e t := by
  unfold CTransaction.ser at h
  obtain ⟨a, ha, h⟩ := Except.bind_eq_ok h
  obtain ⟨b, hb, h⟩ := Except.bind_eq_ok h
  obtain ⟨c, hc, h⟩ := Except.bind_eq_ok h
  obtain ⟨d, hd, h⟩ := Except.bind_eq_ok h
  cases h
  obtain ⟨h1, h2⟩ := packS_ok (by omega) ha
  obtain ⟨g1, g2, g3, g4⟩ := packU_ok hd
  have h5 := (RT.serRead g1 (by decide)).bind
    (f := fun n => P.lift (CTransaction.new t.vin t.vout (unpackU n) (unpackS 4 a)))
    (RT.lift (a := t) (by
      unfold CTransaction.new
      rw [g2, h2, if_neg (by simp; omega)]))
  rw [List.append_nil] at h5
  unfold CTransaction.deser
  rw [List.append_assoc, List.append_assoc]
  apply RT.bind (RT.serRead h1 (by decide))
  apply RT.bind (RT.vector hb (fun i hi e he => RT.txin he (hs.1 i hi)))
  apply RT.bind (RT.vector hc (fun i hi e he => RT.txout he (hs.2 i hi)))
  exact h5

theorem deserializeAll_of_RT {α} {tr} {de : P α} {e : Bytes} {a : α} (h : RT tr de e a) :
    deserializeAll de e = .ok a := by
  have := h.reads []
  rw [List.append_nil] at this
  simp [deserializeAll, this]

/-! When serialization succeeds -/

theorem serVarInt_total {n : Nat} (h : n < 2 ^ 64) : ∃ e, serVarInt n = .ok e := by
  unfold serVarInt
  rw [if_neg (by omega)]
  split
  · exact ⟨_, rfl⟩
  · have hp : ∀ k : Nat, (n : Int) < 2 ^ (8 * k) → packU k n = .ok (leBytes k n) := by
      intro k hk
      unfold packU
      rw [if_pos ⟨by omega, hk⟩]
      rfl
    split
    · rw [hp 2 (by omega)]; exact ⟨_, rfl⟩
    · split
      · rw [hp 4 (by omega)]; exact ⟨_, rfl⟩
      · rw [hp 8 (by omega)]; exact ⟨_, rfl⟩

theorem serBytes_total {b : Bytes} (h : b.length < 2 ^ 64) : ∃ e, serBytes b = .ok e := by
  obtain ⟨e, he⟩ := serVarInt_total h
  unfold serBytes
  rw [he]
  exact ⟨_, rfl⟩

theorem serEach_total {α} {ser : α → Py Bytes} : ∀ {xs : List α}, (∀ x ∈ xs, ∃ e, ser x = .ok e) →
    ∃ e, serEach ser xs = .ok e
  | [], _ => ⟨_, rfl⟩
  | x :: xs, h => by
    obtain ⟨a, ha⟩ := h x (by simp)
    obtain ⟨b, hb⟩ := serEach_total (xs := xs) (fun y hy => h y (by simp [hy]))
    unfold serEach
    rw [ha, hb]
    exact ⟨_, rfl⟩

theorem COutPoint.ser_total {o : COutPoint} (h : o.Valid) : ∃ e, o.ser = .ok e := by
  obtain ⟨h1, h2, h3⟩ := h
  unfold COutPoint.ser packU
  rw [if_pos ⟨h2, by omega⟩]
  simp only [pyAssert, h1, beq_self_eq_true, if_true]
  exact ⟨_, rfl⟩

theorem CTxIn.ser_total {i : CTxIn} (h : i.Valid) (hs : i.scriptSig.length < 2 ^ 64) : ∃ e, i.ser = .ok e := by
  obtain ⟨h1, h2, h3⟩ := h
  obtain ⟨a, ha⟩ := COutPoint.ser_total h1
  obtain ⟨b, hb⟩ := serBytes_total hs
  unfold CTxIn.ser packU
  rw [ha, hb, if_pos ⟨h2, by omega⟩]
  exact ⟨_, rfl⟩

theorem CTxOut.ser_total {o : CTxOut} (h : -(2 ^ 63) ≤ o.nValue ∧ o.nValue < 2 ^ 63) (hs : o.scriptPubKey.length < 2 ^ 64) :
    ∃ e, o.ser = .ok e := by
  obtain ⟨b, hb⟩ := serBytes_total hs
  unfold CTxOut.ser packS
  rw [hb, if_pos (by simpa using h)]
  exact ⟨_, rfl⟩

theorem CTransaction.ser_total {t : CTransaction} (h : t.Valid) (hs : t.ScriptsFit)
    (hv : -(2 ^ 31) ≤ t.nVersion ∧ t.nVersion < 2 ^ 31)
    (ho : ∀ o ∈ t.vout, -(2 ^ 63) ≤ o.nValue ∧ o.nValue < 2 ^ 63)
    (hi : t.vin.length < 2 ^ 64) (hl : t.vout.length < 2 ^ 64) : ∃ e, t.ser = .ok e := by
  obtain ⟨h1, h2, h3⟩ := h
  have hms : MAX_SIZE < 2 ^ 64 := by decide
  obtain ⟨n1, hn1⟩ := serVarInt_total hi
  obtain ⟨n2, hn2⟩ := serVarInt_total hl
  obtain ⟨b, hb⟩ := serEach_total (ser := CTxIn.ser) (xs := t.vin)
    (fun i hi => CTxIn.ser_total (h1 i hi) (by have := hs.1 i hi; omega))
  obtain ⟨c, hc⟩ := serEach_total (ser := CTxOut.ser) (xs := t.vout)
    (fun o hi => CTxOut.ser_total (ho o hi) (by have := hs.2 o hi; omega))
  unfold CTransaction.ser serVector packS packU
  rw [hn1, hn2, hb, hc, if_pos (by simpa using hv), if_pos ⟨h2, by omega⟩]
  exact ⟨_, rfl⟩

end Verif.Btc
