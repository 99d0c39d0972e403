import Verif.Lemmas.Block
import Verif.Props.Script
import Mathlib.Tactic.Ring
/-! Lemmas about CheckTransaction, CheckProofOfWork, CheckBlock. -/
namespace Verif.Btc
open Verif

theorem bind_unit_ok {β} {x : Py Unit} {f : Unit → Py β} {b : β} : (x >>= f) = .ok b ↔ x = .ok () ∧ f () = .ok b := by
  rcases x with e | ⟨⟩
  · exact ⟨fun h => (by cases h), fun h => (by cases h.1)⟩
  · exact ⟨fun h => ⟨rfl, h⟩, fun h => h.2⟩

theorem bind_ok_iff {α β} {x : Py α} {f : α → Py β} {b : β} : (x >>= f) = .ok b ↔ ∃ a, x = .ok a ∧ f a = .ok b := by
  constructor
  · intro h
    obtain ⟨a, h1, h2⟩ := Except.bind_eq_ok h
    exact ⟨a, h1, h2⟩
  · rintro ⟨a, h1, h2⟩
    rw [h1]
    exact h2

/-- `if c: raise`. -/
theorem raise_ok {c : Prop} [Decidable c] {e : PyErr} {u : Unit} : (if c then (.error e : Py Unit) else pure ()) = .ok u ↔ ¬ c := by
  by_cases h : c
  · rw [if_pos h]; exact ⟨fun g => (by cases g), fun g => absurd h g⟩
  · rw [if_neg h]; exact ⟨fun _ => h, fun _ => rfl⟩

/-! ## Transactions -/

theorem isNull_iff (o : COutPoint) : o.isNull = true ↔ o = nullOut := by
  obtain ⟨a, n⟩ := o
  simp [COutPoint.isNull, nullOut]

theorem isCoinbase_iff (t : CTransaction) : t.isCoinbase = true ↔ Coinbase t := by
  unfold CTransaction.isCoinbase Coinbase
  rcases h : t.vin with _ | ⟨i, _ | ⟨j, l⟩⟩
  · simp
  · simp [isNull_iff]
  · simp

theorem isCoinbase_false (t : CTransaction) : t.isCoinbase = false ↔ ¬ Coinbase t := by
  rw [← isCoinbase_iff, Bool.not_eq_true]

theorem checkOuts_eq : ∀ (os : List CTxOut) (n : Int), 0 ≤ n → n ≤ MAX_MONEY →
    (((∀ o ∈ os, 0 ≤ o.nValue) ∧ n + (os.map (·.nValue)).sum ≤ MAX_MONEY) ∧ checkOuts n os = .ok ()) ∨
      (¬ ((∀ o ∈ os, 0 ≤ o.nValue) ∧ n + (os.map (·.nValue)).sum ≤ MAX_MONEY) ∧ checkOuts n os = .error .validation)
  | [], n, h, h' => .inl ⟨⟨by simp, by simpa using h'⟩, rfl⟩
  | o :: os, n, h, h' => by
    have hs : ∀ os : List CTxOut, (∀ o ∈ os, 0 ≤ o.nValue) → 0 ≤ (os.map (·.nValue)).sum := by
      intro os
      induction os with
      | nil => simp
      | cons o os ih =>
        intro h
        have h1 := h o (by simp)
        have h2 := ih (fun x hx => h x (by simp [hx]))
        simp only [List.map_cons, List.sum_cons]
        omega
    rw [checkOuts]
    simp only [List.mem_cons, forall_eq_or_imp, List.map_cons, List.sum_cons]
    by_cases h1 : o.nValue < 0
    · rw [if_pos h1]
      exact .inr ⟨fun g => by omega, rfl⟩
    rw [if_neg h1]
    by_cases h2 : o.nValue > MAX_MONEY
    · rw [if_pos h2]
      refine .inr ⟨fun g => ?_, rfl⟩
      have := hs os g.1.2
      omega
    rw [if_neg h2]
    have e : moneyRange (n + o.nValue) = decide (0 ≤ n + o.nValue ∧ n + o.nValue ≤ MAX_MONEY) := rfl
    by_cases h3 : moneyRange (n + o.nValue) = false
    · rw [if_pos h3]
      refine .inr ⟨fun g => ?_, rfl⟩
      have := hs os g.1.2
      rw [e, decide_eq_false_iff_not] at h3
      omega
    rw [if_neg h3]
    rw [Bool.not_eq_false, e, decide_eq_true_eq] at h3
    rcases checkOuts_eq os (n + o.nValue) h3.1 h3.2 with ⟨g, g'⟩ | ⟨g, g'⟩
    · exact .inl ⟨⟨⟨by omega, g.1⟩, by omega⟩, g'⟩
    · exact .inr ⟨fun k => g ⟨k.1.2, by omega⟩, g'⟩

theorem checkDups_eq : ∀ (is : List CTxIn) (seen : List Bytes) (old : List COutPoint), (∀ i ∈ is, i.prevout.Valid) → old.Nodup →
    (∀ b, b ∈ seen ↔ ∃ o ∈ old, o.ser = .ok b) →
    ((old ++ is.map (·.prevout)).Nodup ∧ checkDups seen is = .ok ()) ∨
      (¬ (old ++ is.map (·.prevout)).Nodup ∧ checkDups seen is = .error .validation)
  | [], seen, old, _, hn, _ => .inl ⟨by simpa using hn, rfl⟩
  | i :: is, seen, old, hv, hn, hs => by
    obtain ⟨b, hb⟩ := COutPoint.ser_total (hv i (by simp))
    rw [checkDups, hb, Except.bind_ok]
    by_cases h : b ∈ seen
    · rw [if_pos h]
      refine .inr ⟨fun g => ?_, rfl⟩
      obtain ⟨o, ho, hob⟩ := (hs b).mp h
      have := PF.outpoint.inj hob hb
      subst this
      exact (List.nodup_append.mp g).2.2 _ ho _ (by simp) rfl
    · rw [if_neg h]
      have hi : i.prevout ∉ old := fun hm => h ((hs b).mpr ⟨_, hm, hb⟩)
      have := checkDups_eq is (b :: seen) (old ++ [i.prevout]) (fun j hj => hv j (by simp [hj]))
        (List.nodup_append.mpr ⟨hn, by simp, by
          intro a ha b hb e
          simp at hb
          subst hb; subst e
          exact hi ha⟩)
        (by
          intro c
          simp only [List.mem_cons, hs c, List.mem_append, List.not_mem_nil, or_false]
          constructor
          · rintro (rfl | ⟨o, ho, e⟩)
            · exact ⟨_, .inr rfl, hb⟩
            · exact ⟨o, .inl ho, e⟩
          · rintro ⟨o, ho | rfl, e⟩
            · exact .inr ⟨o, ho, e⟩
            · rw [hb] at e
              exact .inl (by injection e with e; exact e.symm))
      simpa [List.append_assoc] using this

theorem checkTransaction_eq {t : CTransaction} (h : t.Valid) {b : Bytes} (hb : t.ser = .ok b) :
    (TxRules t b.length ∧ checkTransaction t = .ok ()) ∨ (¬ TxRules t b.length ∧ checkTransaction t = .error .validation) := by
  unfold checkTransaction
  by_cases h1 : t.vin = []
  · rw [if_pos h1]
    exact .inr ⟨fun g => g.inputs h1, rfl⟩
  rw [if_neg h1]
  by_cases h2 : t.vout = []
  · rw [if_pos h2]
    exact .inr ⟨fun g => g.outputs h2, rfl⟩
  rw [if_neg h2, hb]
  simp only [Except.bind_ok, pure_bind]
  by_cases h3 : b.length > MAX_BLOCK_SIZE
  · rw [if_pos h3]
    refine .inr ⟨fun g => ?_, rfl⟩
    have := g.small
    unfold MAX_BLOCK_SIZE at h3
    omega
  rw [if_neg h3]
  have hM : MAX_MONEY = 2100000000000000 := rfl
  rcases checkOuts_eq t.vout 0 (by omega) (by omega) with ⟨h4, h5⟩ | ⟨h4, h5⟩
  swap
  · rw [h5]
    refine .inr ⟨fun g => h4 ⟨g.positive, ?_⟩, rfl⟩
    have := g.total
    omega
  rw [h5, Except.bind_ok]
  rcases checkDups_eq t.vin [] [] (fun i hi => (h.1 i hi).1) (by simp) (by simp) with ⟨h6, h7⟩ | ⟨h6, h7⟩
  swap
  · rw [h7]
    exact .inr ⟨fun g => h6 (g.distinct), rfl⟩
  rw [h7, Except.bind_ok]
  have rest : ∀ (_ : ∀ i, t.vin = [i] → i.prevout = nullOut → 2 ≤ i.scriptSig.length ∧ i.scriptSig.length ≤ 100)
      (_ : ¬ Coinbase t → nullOut ∉ spends t), TxRules t b.length := fun c s =>
    { inputs := h1, outputs := h2, small := by unfold MAX_BLOCK_SIZE at h3; omega, positive := h4.1,
      total := by have := h4.2; omega, distinct := h6, coinbase := c, spending := s }
  by_cases h8 : t.isCoinbase = true
  · rw [if_pos h8]
    obtain ⟨i, hi, hnull⟩ := (isCoinbase_iff t).mp h8
    simp only [hi]
    by_cases h9 : 2 ≤ i.scriptSig.length ∧ i.scriptSig.length ≤ 100
    · rw [if_pos h9]
      refine .inl ⟨rest (fun j hj _ => ?_) (fun hc => absurd ⟨i, hi, hnull⟩ hc), rfl⟩
      rw [hi] at hj
      cases hj
      exact h9
    · rw [if_neg h9]
      exact .inr ⟨fun g => h9 (g.coinbase i hi hnull), rfl⟩
  · rw [if_neg h8]
    have h8' : ¬ Coinbase t := fun hc => h8 ((isCoinbase_iff t).mpr hc)
    have e : (t.vin.any (·.prevout.isNull) = true) ↔ nullOut ∈ spends t := by
      simp only [List.any_eq_true, isNull_iff, spends, List.mem_map]
    by_cases h9 : t.vin.any (·.prevout.isNull) = true
    · rw [if_pos h9]
      exact .inr ⟨fun g => g.spending h8' (e.mp h9), rfl⟩
    · rw [if_neg h9]
      exact .inl ⟨rest (fun i hi hnull => absurd ⟨i, hi, hnull⟩ h8') (fun _ hm => h9 (e.mpr hm)), rfl⟩

theorem checkTransaction_iff {t : CTransaction} (h : t.Valid) :
    checkTransaction t = .ok () ↔ ∃ b, t.ser = .ok b ∧ TxRules t b.length := by
  constructor
  · intro hc
    rcases hb : t.ser with e | b
    · unfold checkTransaction at hc
      rw [hb] at hc
      by_cases h1 : t.vin = []
      · rw [if_pos h1] at hc; cases hc
      rw [if_neg h1] at hc
      by_cases h2 : t.vout = []
      · rw [if_pos h2] at hc; cases hc
      rw [if_neg h2] at hc
      cases hc
    · rcases checkTransaction_eq h hb with ⟨g, _⟩ | ⟨_, g⟩
      · exact ⟨b, rfl, g⟩
      · rw [g] at hc; cases hc
  · rintro ⟨b, hb, g⟩
    rcases checkTransaction_eq h hb with ⟨_, g'⟩ | ⟨g', _⟩
    · exact g'
    · exact absurd g g'

/-! ## Proof of work -/

theorem uint256FromStr_eq {s : Bytes} (h : s.length = 32) : uint256FromStr s = .ok (leNat s) := by
  have key : ∀ k, 4 * k ≤ s.length →
      ((List.range k).map fun i => leNat ((s.drop (4 * i)).take 4) <<< (i * 32)).foldl (· + ·) 0 = leNat (s.take (4 * k)) := by
    intro k
    induction k with
    | zero => intro _; rfl
    | succ k ih =>
      intro hk
      rw [List.range_succ, List.map_append, List.foldl_append, ih (by omega)]
      rw [show 4 * (k + 1) = 4 * k + 4 by omega, List.take_add, leNat_append]
      simp only [List.map_cons, List.map_nil, List.foldl_cons, List.foldl_nil]
      rw [Nat.shiftLeft_eq, show (s.take (4 * k)).length = 4 * k by rw [List.length_take]; omega,
        show 2 ^ (k * 32) = 256 ^ (4 * k) by rw [show (256 : Nat) = 2 ^ 8 from rfl, ← pow_mul]; congr 1; omega]
      ring
  unfold uint256FromStr
  have ht : s.take 32 = s := List.take_of_length_le (by omega)
  rw [ht]
  simp only
  rw [if_neg (by simp [h]), key 8 (by omega)]
  rw [show 4 * 8 = 32 from rfl, ht]

theorem uint256FromCompact_eq {c : Nat} (hc : c < 2 ^ 32) : uint256FromCompact c =
    if c / 2 ^ 24 < 3 then .error .valueError else .ok (c % 2 ^ 24 * 256 ^ (c / 2 ^ 24 - 3)) := by
  unfold uint256FromCompact
  have h1 : (c >>> 24) &&& 0xff = c / 2 ^ 24 := by
    rw [Nat.shiftRight_eq_div_pow, show 0xff = 2 ^ 8 - 1 from rfl, Nat.and_two_pow_sub_one_eq_mod]
    omega
  have h2 : c &&& 0xffffff = c % 2 ^ 24 := by
    rw [show 0xffffff = 2 ^ 24 - 1 from rfl, Nat.and_two_pow_sub_one_eq_mod]
  simp only [h1, h2, Nat.shiftLeft_eq, pow_mul]
  rfl

theorem powRange_some (l t : Nat) : powRange (some l) t = .ok (decide (0 < t ∧ t ≤ l)) := by
  unfold powRange
  by_cases h : 0 < t <;> simp [h]

/-- With a limit of `None` nothing is enough work. -/
theorem checkProofOfWork_none {c : Nat} {hash : Bytes} (hc : c < 2 ^ 32) :
    checkProofOfWork none hash c = .error (if c / 2 ^ 24 < 3 then .valueError else if c % 2 ^ 24 = 0 then .validation else .typeError) := by
  unfold checkProofOfWork
  rw [uint256FromCompact_eq hc]
  by_cases h : c / 2 ^ 24 < 3
  · rw [if_pos h, if_pos h]
    rfl
  · rw [if_neg h, if_neg h, Except.bind_ok]
    unfold powRange
    by_cases h0 : c % 2 ^ 24 = 0
    · rw [if_pos h0, h0, Nat.zero_mul, if_neg (by omega)]
      rfl
    · rw [if_neg h0, if_pos (Nat.mul_pos (by omega) (Nat.pow_pos (by omega)))]
      rfl

theorem checkProofOfWork_eq {limit c : Nat} {hash : Bytes} (hc : c < 2 ^ 32) (hh : hash.length = 32) :
    (c / 2 ^ 24 < 3 → checkProofOfWork limit hash c = .error .valueError) ∧
    (3 ≤ c / 2 ^ 24 → (Enough limit hash (c % 2 ^ 24 * 256 ^ (c / 2 ^ 24 - 3)) ∧ checkProofOfWork limit hash c = .ok ()) ∨
      (¬ Enough limit hash (c % 2 ^ 24 * 256 ^ (c / 2 ^ 24 - 3)) ∧ checkProofOfWork limit hash c = .error .validation)) := by
  unfold checkProofOfWork
  rw [uint256FromCompact_eq hc, uint256FromStr_eq hh]
  constructor
  · intro h
    rw [if_pos h]
    rfl
  · intro h
    rw [if_neg (by omega)]
    generalize c % 2 ^ 24 * 256 ^ (c / 2 ^ 24 - 3) = t
    simp only [Except.bind_ok, powRange_some]
    unfold Enough
    by_cases h1 : ¬ (0 < t ∧ t ≤ limit)
    · rw [if_pos (decide_eq_false h1)]
      exact .inr ⟨fun g => h1 ⟨g.1, g.2.1⟩, rfl⟩
    · rw [if_neg (by simpa using h1)]
      by_cases h2 : leNat hash > t
      · rw [if_pos h2]
        exact .inr ⟨fun g => by omega, rfl⟩
      · rw [if_neg h2]
        exact .inl ⟨by omega, rfl⟩

/-! ## Blocks -/

theorem getSigOpCount_iff {s : Bytes} {n : Nat} : getSigOpCount s false = .ok n ↔ ∃ ts, WFToks ts ∧ s = scriptOf ts ∧ n = sigOpSum false none ts := by
  constructor
  · intro h
    by_cases hv : ∃ ts, WFToks ts ∧ s = scriptOf ts
    · obtain ⟨ts, h1, rfl⟩ := hv
      rw [(C73_valid_partial h1 false).1 (by simp)] at h
      exact ⟨ts, h1, rfl, by injection h with h; exact h.symm⟩
    · rw [(C73_invalid_partial hv).1] at h
      cases h
  · rintro ⟨ts, h1, rfl, rfl⟩
    exact (C73_valid_partial h1 false).1 (by simp)

theorem sumM_iff {α} {f : α → Bytes} : ∀ {l : List α} {n : Nat}, sumM (fun a => getSigOpCount (f a) false) l = .ok n ↔ SigOpTotal (l.map f) n
  | [], n => by
    constructor
    · intro h; cases h; exact .nil
    · intro h; cases h; rfl
  | a :: l, n => by
    rw [sumM, bind_ok_iff]
    constructor
    · rintro ⟨k, h1, h⟩
      obtain ⟨m, h2, h3⟩ := bind_ok_iff.mp h
      cases h3
      obtain ⟨ts, g1, g2, rfl⟩ := getSigOpCount_iff.mp h1
      rw [List.map_cons, g2]
      exact .cons g1 (sumM_iff.mp h2)
    · intro h
      rw [List.map_cons] at h
      generalize he : f a = s at h
      cases h with
      | cons h1 h2 =>
        exact ⟨_, getSigOpCount_iff.mpr ⟨_, h1, rfl, rfl⟩, bind_ok_iff.mpr ⟨_, sumM_iff.mpr h2, rfl⟩⟩

theorem SigOpTotal.append : ∀ {l l' : List Bytes} {n : Nat}, SigOpTotal (l ++ l') n ↔ ∃ a b, SigOpTotal l a ∧ SigOpTotal l' b ∧ n = a + b
  | [], l', n => by
    constructor
    · intro h; exact ⟨0, n, .nil, h, by omega⟩
    · rintro ⟨a, b, h, h', rfl⟩
      cases h
      simpa using h'
  | x :: l, l', n => by
    constructor
    · intro h
      rw [List.cons_append] at h
      generalize hx : x = y at h
      cases h with
      | cons h1 h2 =>
        obtain ⟨a, b, g1, g2, rfl⟩ := SigOpTotal.append.mp h2
        subst hx
        exact ⟨_, b, .cons h1 g1, g2, by omega⟩
    · rintro ⟨a, b, h, h', rfl⟩
      cases h with
      | cons h1 h2 =>
        rw [Nat.add_assoc]
        exact .cons h1 (SigOpTotal.append.mpr ⟨_, _, h2, h', rfl⟩)

theorem getLegacySigOpCount_iff {t : CTransaction} {n : Nat} : getLegacySigOpCount t = .ok n ↔ SigOpTotal (scripts t) n := by
  unfold getLegacySigOpCount scripts
  rw [SigOpTotal.append, bind_ok_iff]
  constructor
  · rintro ⟨a, h1, h⟩
    obtain ⟨b, h2, h3⟩ := bind_ok_iff.mp h
    cases h3
    exact ⟨a, b, sumM_iff.mp h1, sumM_iff.mp h2, rfl⟩
  · rintro ⟨a, b, h1, h2, rfl⟩
    exact ⟨a, sumM_iff.mpr h1, bind_ok_iff.mpr ⟨b, sumM_iff.mpr h2, rfl⟩⟩

theorem getHash_iff {H : HashFns} {t : CTransaction} {x : Bytes} : t.getHash H = .ok x ↔ ∃ e, t.ser = .ok e ∧ x = H.hash256 e := by
  unfold CTransaction.getHash
  rw [bind_ok_iff]
  constructor
  · rintro ⟨e, h, h'⟩; cases h'; exact ⟨e, h, rfl⟩
  · rintro ⟨e, h, rfl⟩; exact ⟨e, h, rfl⟩

theorem Serialized.cons {t ts e es} (h : t.ser = .ok e) (h' : Serialized ts es) : Serialized (t :: ts) (e :: es) := by
  unfold Serialized at *
  simp [h, h']

theorem Serialized.cons_inv {t ts l} (h : Serialized (t :: ts) l) : ∃ e es, l = e :: es ∧ t.ser = .ok e ∧ Serialized ts es := by
  unfold Serialized at *
  match l with
  | [] => simp at h
  | e :: es =>
    simp only [List.map_cons, List.cons.injEq] at h
    exact ⟨e, es, rfl, h.1, h.2⟩

theorem Serialized.inj : ∀ {ts ts' : List CTransaction} {es : List Bytes}, Serialized ts es → Serialized ts' es → ts = ts'
  | [], [], _, _, _ => rfl
  | [], _ :: _, es, h, h' => by
    obtain ⟨_, _, rfl, _⟩ := h'.cons_inv
    simp [Serialized] at h
  | _ :: _, [], es, h, h' => by
    obtain ⟨_, _, rfl, _⟩ := h.cons_inv
    simp [Serialized] at h'
  | t :: ts, t' :: ts', es, h, h' => by
    obtain ⟨e, es, rfl, h1, h2⟩ := h.cons_inv
    obtain ⟨_, _, he, g1, g2⟩ := h'.cons_inv
    cases he
    rw [PF.tx.inj h1 g1, Serialized.inj h2 g2]

theorem Serialized.unique : ∀ {ts : List CTransaction} {es es' : List Bytes}, Serialized ts es → Serialized ts es' → es = es'
  | [], es, es', h, h' => by
    simp only [Serialized, List.map_nil] at h h'
    rw [List.map_eq_nil_iff.mp h.symm, List.map_eq_nil_iff.mp h'.symm]
  | t :: ts, es, es', h, h' => by
    obtain ⟨e, l, rfl, h1, h2⟩ := h.cons_inv
    obtain ⟨e', l', rfl, g1, g2⟩ := h'.cons_inv
    rw [h1] at g1
    cases g1
    rw [Serialized.unique h2 g2]

theorem Serialized.mem : ∀ {ts : List CTransaction} {es : List Bytes} {e : Bytes}, Serialized ts es → e ∈ es → ∃ t ∈ ts, t.ser = .ok e
  | [], es, e, h, he => by
    simp only [Serialized, List.map_nil] at h
    rw [List.map_eq_nil_iff.mp h.symm] at he
    simp at he
  | t :: ts, es, e, h, he => by
    obtain ⟨e', l, rfl, h1, h2⟩ := h.cons_inv
    rcases List.mem_cons.mp he with rfl | he
    · exact ⟨t, by simp, h1⟩
    · obtain ⟨u, hu, h3⟩ := h2.mem he
      exact ⟨u, by simp [hu], h3⟩

theorem Serialized.getHash {H : HashFns} : ∀ {ts : List CTransaction} {es : List Bytes}, Serialized ts es →
    ts.mapM (·.getHash H) = .ok (es.map H.hash256)
  | [], es, h => by
    simp only [Serialized, List.map_nil] at h
    rw [List.map_eq_nil_iff.mp h.symm]
    rfl
  | t :: ts, es, h => by
    obtain ⟨e, l, rfl, h1, h2⟩ := h.cons_inv
    rw [List.mapM_cons, getHash_iff.mpr ⟨e, h1, rfl⟩, h2.getHash]
    rfl

/-- `es` are the serializations of `ts`, and what the loop of CheckBlock makes sure. -/
structure RestRules (H : HashFns) (ts : List CTransaction) (es : List Bytes) (room : Nat) : Prop where
  each : ∀ t ∈ ts, ¬ Coinbase t ∧ ∃ e, t.ser = .ok e ∧ TxRules t e.length
  ids : (es.map H.hash256).Nodup
  sigops : ∃ n, SigOpTotal (ts.flatMap scripts) n ∧ n ≤ room

theorem checkTxs_iff {H : HashFns} : ∀ {ts : List CTransaction} {seen : List Bytes} {n : Nat}, (∀ t ∈ ts, t.Valid) → n ≤ 20000 →
    (checkTxs H seen n ts = .ok () ↔ ∃ es, Serialized ts es ∧ RestRules H ts es (20000 - n) ∧ ∀ e ∈ es, H.hash256 e ∉ seen)
  | [], seen, n, _, _ => by
    refine ⟨fun _ => ⟨[], rfl, ⟨by simp, by simp, 0, .nil, by omega⟩, by simp⟩, fun _ => rfl⟩
  | t :: ts, seen, n, hv, hn => by
    have hM : MAX_BLOCK_SIGOPS = 20000 := rfl
    rw [checkTxs]
    constructor
    · intro h
      by_cases h1 : t.isCoinbase = true
      · rw [if_pos h1] at h; cases h
      rw [if_neg h1] at h
      obtain ⟨h2, h⟩ := bind_unit_ok.mp h
      obtain ⟨txid, h3, h⟩ := bind_ok_iff.mp h
      by_cases h4 : txid ∈ seen
      · rw [if_pos h4] at h; cases h
      rw [if_neg h4] at h
      obtain ⟨k, h5, h⟩ := bind_ok_iff.mp h
      by_cases h6 : n + k > MAX_BLOCK_SIGOPS
      · rw [if_pos h6] at h; cases h
      rw [if_neg h6] at h
      obtain ⟨es, g1, g2, g3⟩ := (checkTxs_iff (fun u hu => hv u (by simp [hu])) (by omega)).mp h
      obtain ⟨e, he, rfl⟩ := getHash_iff.mp h3
      obtain ⟨e', he', hr⟩ := (checkTransaction_iff (hv t (by simp))).mp h2
      obtain ⟨m, g4, g5⟩ := g2.sigops
      refine ⟨e :: es, g1.cons he, ⟨?_, ?_, k + m, ?_, by omega⟩, ?_⟩
      · intro u hu
        rcases List.mem_cons.mp hu with rfl | hu
        · exact ⟨fun hc => h1 ((isCoinbase_iff u).mpr hc), e', he', hr⟩
        · exact g2.each u hu
      · rw [List.map_cons, List.nodup_cons]
        refine ⟨fun hm => ?_, g2.ids⟩
        obtain ⟨x, hx, hxe⟩ := List.mem_map.mp hm
        exact g3 x hx (by simp [hxe])
      · rw [List.flatMap_cons]
        exact SigOpTotal.append.mpr ⟨k, m, getLegacySigOpCount_iff.mp h5, g4, rfl⟩
      · intro x hx
        rcases List.mem_cons.mp hx with rfl | hx
        · exact h4
        · exact fun hm => g3 x hx (by simp [hm])
    · rintro ⟨es, h1, h2, h3⟩
      obtain ⟨e, es, rfl, he, h1⟩ := h1.cons_inv
      obtain ⟨h4, h5⟩ := h2.each t (by simp)
      obtain ⟨m, h6, h7⟩ := h2.sigops
      rw [List.flatMap_cons] at h6
      obtain ⟨a, b, h8, h9, rfl⟩ := SigOpTotal.append.mp h6
      have hid := h2.ids
      rw [List.map_cons, List.nodup_cons] at hid
      rw [if_neg (fun hc => h4 ((isCoinbase_iff t).mp hc)), (checkTransaction_iff (hv t (by simp))).mpr h5, Except.bind_ok,
        getHash_iff.mpr ⟨e, he, rfl⟩, Except.bind_ok, if_neg (h3 e (by simp)), getLegacySigOpCount_iff.mpr h8, Except.bind_ok,
        if_neg (by omega)]
      refine (checkTxs_iff (fun u hu => hv u (by simp [hu])) (by omega)).mpr ⟨es, h1, ⟨fun u hu => h2.each u (by simp [hu]), hid.2,
        b, h9, by omega⟩, fun x hx hm => ?_⟩
      rcases List.mem_cons.mp hm with hm | hm
      · exact hid.1 (List.mem_map.mpr ⟨x, hx, hm⟩)
      · exact h3 x (by simp [hx]) hm

theorem serEach_serialized : ∀ {ts : List CTransaction} {b : Bytes}, serEach CTransaction.ser ts = .ok b → ∃ es, Serialized ts es
  | [], _, _ => ⟨[], rfl⟩
  | t :: ts, b, h => by
    unfold serEach at h
    obtain ⟨e, he, h⟩ := Except.bind_eq_ok h
    obtain ⟨bs, hbs, h⟩ := Except.bind_eq_ok h
    obtain ⟨es, hes⟩ := serEach_serialized hbs
    exact ⟨e :: es, hes.cons he⟩

theorem CBlock.ser_serialized {b : CBlock} {s : Bytes} (h : b.ser = .ok s) : ∃ hb es, b.header.ser = .ok hb ∧ Serialized b.vtx es ∧
    ∃ v, serVector CTransaction.ser b.vtx = .ok v ∧ s = hb ++ v := by
  unfold CBlock.ser at h
  obtain ⟨hb, h1, h⟩ := Except.bind_eq_ok h
  obtain ⟨v, h2, h⟩ := Except.bind_eq_ok h
  cases h
  have h2' := h2
  unfold serVector at h2'
  obtain ⟨l, hl, h2'⟩ := Except.bind_eq_ok h2'
  obtain ⟨bs, hbs, h2'⟩ := Except.bind_eq_ok h2'
  obtain ⟨es, hes⟩ := serEach_serialized hbs
  exact ⟨hb, es, h1, hes, v, h2, rfl⟩

theorem calcMerkleRoot_eq {H : HashFns} {b : CBlock} {es : List Bytes} (h : Serialized b.vtx es) (hn : b.vtx ≠ []) :
    ∃ n r S, Merkle H.hash256 (es.map H.hash256) n r S ∧ b.calcMerkleRoot H = .ok r := by
  have hne : es.map H.hash256 ≠ [] := by
    intro h0
    have := congrArg List.length h
    simp only [List.length_map] at this
    have h1 := congrArg List.length h0
    simp only [List.length_map, List.length_nil] at h1
    exact hn (List.length_eq_zero_iff.mp (by omega))
  obtain ⟨t, h1, h2⟩ := buildMerkleTree_eq H (es.map H.hash256)
  obtain ⟨n, r, S, h3, h4, _⟩ := h2.merkle hne
  refine ⟨n, r, S, h3, ?_⟩
  unfold CBlock.calcMerkleRoot buildMerkleTreeFromTxs
  rw [if_neg hn, h.getHash]
  simp only [Except.bind_ok, h1, h4]
  rfl

theorem CBlockHeader.ser_ok {h : CBlockHeader} {b : Bytes} (hb : h.ser = .ok b) : b.length = 80 ∧ h.hashPrevBlock.length = 32 ∧
    h.hashMerkleRoot.length = 32 ∧ 0 ≤ h.nBits ∧ h.nBits < 2 ^ 32 := by
  unfold CBlockHeader.ser at hb
  obtain ⟨a, ha, hb⟩ := Except.bind_eq_ok hb
  obtain ⟨_, h1, hb⟩ := Except.bind_eq_ok hb
  obtain ⟨_, h2, hb⟩ := Except.bind_eq_ok hb
  obtain ⟨c, hc, hb⟩ := Except.bind_eq_ok hb
  obtain ⟨d, hd, hb⟩ := Except.bind_eq_ok hb
  obtain ⟨e, he, hb⟩ := Except.bind_eq_ok hb
  cases hb
  have h1 := pyAssert_ok h1
  have h2 := pyAssert_ok h2
  simp only [beq_iff_eq] at h1 h2
  have e1 := (packS_ok (by omega) ha).1
  have e2 := (packU_ok hc).1
  have e3 := packU_ok hd
  have e4 := (packU_ok he).1
  refine ⟨?_, h1, h2, e3.2.2.1, e3.2.2.2⟩
  simp only [List.length_append]
  omega

theorem getHeader_eq {b : CBlock} (h1 : b.header.hashPrevBlock.length = 32) (h2 : b.header.hashMerkleRoot.length = 32) :
    b.getHeader = .ok b.header := by
  unfold CBlock.getHeader CBlockHeader.new
  rw [h1, h2]
  rfl

theorem checkBlock_iff {H : HashFns} {limit : Nat} {b : CBlock} {pow merkle : Bool} {now : Int} (hv : ∀ t ∈ b.vtx, t.Valid) :
    checkBlock H limit b pow merkle now = .ok () ↔
      ∃ s head c e ts es, BlockRules H.hash256 limit b pow merkle now s head c e ts es := by
  unfold checkBlock
  constructor
  · intro h
    obtain ⟨hd, h1, h⟩ := bind_ok_iff.mp h
    have hd' : hd = b.header := by
      unfold CBlock.getHeader CBlockHeader.new at h1
      obtain ⟨_, _, h1⟩ := bind_ok_iff.mp h1
      obtain ⟨_, _, h1⟩ := bind_ok_iff.mp h1
      cases h1
      rfl
    subst hd'
    obtain ⟨h2, h⟩ := bind_unit_ok.mp h
    rcases hvtx : b.vtx with _ | ⟨c, ts⟩
    · rw [hvtx] at h; cases h
    rw [hvtx] at h
    simp only at h
    obtain ⟨s, h3, h⟩ := bind_ok_iff.mp h
    by_cases h4 : s.length > MAX_BLOCK_SIZE
    · rw [if_pos h4] at h; cases h
    rw [if_neg h4] at h
    by_cases h5 : c.isCoinbase = false
    · rw [if_pos h5] at h; cases h
    rw [if_neg h5] at h
    obtain ⟨h6, h⟩ := bind_unit_ok.mp h
    obtain ⟨es, g1, g2, _⟩ := (checkTxs_iff (fun u hu => hv u (by simp [hvtx, hu])) (by omega)).mp h6
    obtain ⟨head, es0, k1, k2, v, k3, k4⟩ := CBlock.ser_serialized h3
    have k2' := k2
    rw [hvtx] at k2'
    obtain ⟨e, es', he0, he, k5⟩ := k2'.cons_inv
    have := k5.unique g1
    subst this
    obtain ⟨m1, _, _, m2, m3⟩ := CBlockHeader.ser_ok k1
    refine ⟨s, head, c, e, ts, es', ⟨h3, k1, he, g1⟩, ?_, ?_, by unfold MAX_BLOCK_SIZE at h4; omega, ⟨hvtx, ?_⟩, g2.each, g2.ids, g2.sigops, ?_⟩
    · intro hp
      unfold checkBlockHeader at h2
      rw [if_pos hp] at h2
      unfold CBlockHeader.getHash at h2
      rw [k1] at h2
      simp only [Except.bind_ok, pure_bind, bind_assoc, Except.pure_eq] at h2
      obtain ⟨h2, _⟩ := bind_unit_ok.mp h2
      have hp := checkProofOfWork_eq (limit := limit) (c := b.header.nBits.toNat) (hash := H.hash256 head) (by omega) (H.sha256_len _)
      by_cases hs : b.header.nBits.toNat / 2 ^ 24 < 3
      · rw [hp.1 hs] at h2; cases h2
      · refine ⟨by omega, ?_⟩
        rcases hp.2 (by omega) with ⟨q, _⟩ | ⟨_, q⟩
        · exact q
        · rw [q] at h2; cases h2
    · unfold checkBlockHeader at h2
      by_cases ht : b.header.nTime > now + 2 * 60 * 60
      · simp only [if_pos ht] at h2
        by_cases hp : pow = true
        · rw [if_pos hp] at h2
          obtain ⟨_, _, h2⟩ := bind_ok_iff.mp h2
          obtain ⟨_, _, h2⟩ := bind_ok_iff.mp h2
          cases h2
        · rw [if_neg hp] at h2
          cases h2
      · omega
    · exact (isCoinbase_iff c).mp (by simpa using h5)
    · intro hm
      rw [if_pos hm] at h
      obtain ⟨n, r, S, q1, q2⟩ := calcMerkleRoot_eq (H := H) k2 (by rw [hvtx]; simp)
      rw [q2] at h
      simp only [Except.bind_ok] at h
      by_cases hr : b.header.hashMerkleRoot ≠ r
      · rw [if_pos hr] at h; cases h
      · rw [not_not.mp hr, ← he0]
        exact ⟨n, S, q1⟩
  · rintro ⟨s, head, c, e, ts, es, h⟩
    obtain ⟨k0, k1, k2, k3⟩ := h.serialized
    obtain ⟨m1, m4, m5, m2, m3⟩ := CBlockHeader.ser_ok k1
    rw [getHeader_eq m4 m5, Except.bind_ok]
    have hh : checkBlockHeader H limit b.header pow now = .ok () := by
      unfold checkBlockHeader
      have ht := h.time
      rcases hp : pow with _ | _
      · rw [if_neg (by simp), if_neg (by omega)]
        rfl
      · rw [if_pos rfl]
        unfold CBlockHeader.getHash
        rw [k1]
        simp only [Except.bind_ok, Except.pure_eq]
        obtain ⟨w1, w2⟩ := h.work hp
        have hp := checkProofOfWork_eq (limit := limit) (c := b.header.nBits.toNat) (hash := H.hash256 head) (by omega) (H.sha256_len _)
        rcases hp.2 w1 with ⟨_, q⟩ | ⟨q, _⟩
        · rw [q, Except.bind_ok, if_neg (by omega)]
        · exact absurd w2 q
    rw [hh, Except.bind_ok, h.first.1]
    simp only
    have h1 := h.small
    have hM : MAX_BLOCK_SIZE = 1000000 := rfl
    rw [k0, Except.bind_ok, if_neg (by omega), if_neg (by rw [isCoinbase_false]; exact fun q => q h.first.2),
      (checkTxs_iff (fun u hu => hv u (by simp [h.first.1, hu])) (by omega)).mpr ⟨es, k3, ⟨h.others, h.distinct, h.sigops⟩, by simp⟩,
      Except.bind_ok]
    rcases hm : merkle with _ | _
    · rw [if_neg (by simp)]
      rfl
    · rw [if_pos rfl]
      obtain ⟨n, S, q⟩ := h.root hm
      have hs : Serialized b.vtx (e :: es) := by rw [h.first.1]; exact k3.cons k2
      obtain ⟨n', r, S', q1, q2⟩ := calcMerkleRoot_eq (H := H) hs (by rw [h.first.1]; simp)
      obtain ⟨_, hr, _⟩ := q.unique q1
      rw [q2, Except.bind_ok, if_neg (by simp [hr])]
      rfl

end Verif.Btc
