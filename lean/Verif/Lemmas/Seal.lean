import Verif.Spec.Seal
import Verif.Lemmas.Script
import Verif.Lemmas.BtcInj
import Verif.Lemmas.ProofRun
import Verif.Lemmas.Classes
/-! # Lemmas about seals -/
namespace Verif.Seal
open Verif Btc

section
variable {T : Table} {H : HashFns} {ini : List Nat} {t : PTree}

theorem eval_bind {α β} (p : Prog α) (f : α → Prog β) : (p >>= f).eval T H ini t =
    (do let r ← p.eval T H ini t; (match r with | .ok a => (f a).eval T H ini t | .error e => .ok (.error e))) := by
  show (p.bind f).eval T H ini t = _
  induction p with
  | ret a => cases a <;> rfl
  | read π k ih =>
    simp only [Prog.bind, Prog.eval]
    cases (TVal.sub t).walk T ini π with
    | error e => rfl
    | ok v => simp only [Except.bind_ok, ih]
  | cls π k ih =>
    simp only [Prog.bind, Prog.eval]
    cases (TVal.sub t).walk T ini π with
    | error e => rfl
    | ok v => 
      simp only [Except.bind_ok]
      cases v.asProof with
      | error e => rfl
      | ok v => simp only [Except.bind_ok, ih]
  | hash π k ih =>
    simp only [Prog.bind, Prog.eval]
    cases (TVal.sub t).walk T ini π with
    | error e => rfl
    | ok v => 
      simp only [Except.bind_ok]
      cases v.asProof with
      | error e => rfl
      | ok v => 
        simp only [Except.bind_ok]
        cases v.hash T H with
        | error e => rfl
        | ok v => simp only [Except.bind_ok, ih]
  | dataHash π k ih =>
    simp only [Prog.bind, Prog.eval]
    cases (TVal.sub t).walk T ini π with
    | error e => rfl
    | ok v => 
      simp only [Except.bind_ok]
      cases v.asProof with
      | error e => rfl
      | ok v => 
        simp only [Except.bind_ok]
        cases v.dataHash T H with
        | error e => rfl
        | ok v => simp only [Except.bind_ok, ih]

theorem eval_bind_ok {α β} {p : Prog α} {f : α → Prog β} {b : β} : (p >>= f).eval T H ini t = .ok (.ok b) ↔
    ∃ a, p.eval T H ini t = .ok (.ok a) ∧ (f a).eval T H ini t = .ok (.ok b) := by
  rw [eval_bind]
  rcases p.eval T H ini t with e | e | a
  · constructor
    · intro h; cases h
    · rintro ⟨a, h, _⟩; cases h
  · constructor
    · intro h; cases h
    · rintro ⟨a, h, _⟩; cases h
  · constructor
    · intro h; exact ⟨a, rfl, h⟩
    · rintro ⟨a', h, h'⟩; cases h; exact h'

theorem eval_lift_ok {α} {x : Py α} {a : α} : (lift x).eval T H ini t = .ok (.ok a) ↔ x = .ok a := by
  simp [lift, Prog.eval]

theorem eval_onCls_ok {α} {π : List Nat} {c : Nat} {k : Prog α} {a : α} : (onCls π c k).eval T H ini t = .ok (.ok a) ↔
    (∃ q, (TVal.sub t).walk T ini π = .ok (.sub q) ∧ q.cls = c) ∧ k.eval T H ini t = .ok (.ok a) := by
  unfold onCls
  simp only [Prog.eval]
  rcases (TVal.sub t).walk T ini π with e | v | q
  · constructor
    · intro h; cases h
    · rintro ⟨⟨q, h, _⟩, _⟩; cases h
  · constructor
    · intro h; cases h
    · rintro ⟨⟨q, h, _⟩, _⟩; cases h
  · simp only [Except.bind_ok, TVal.asProof]
    split
    · next h => 
      constructor
      · intro h'; exact ⟨⟨q, rfl, h⟩, h'⟩
      · exact fun h' => h'.2
    · next h =>
      constructor
      · intro h'; cases h'
      · rintro ⟨⟨q, h', h''⟩, _⟩; cases h'; exact absurd h'' h

theorem eval_cls_ok {α} {π : List Nat} {k : Nat → Prog α} {a : α} : (Prog.cls π k).eval T H ini t = .ok (.ok a) ↔
    ∃ q, (TVal.sub t).walk T ini π = .ok (.sub q) ∧ (k q.cls).eval T H ini t = .ok (.ok a) := by
  simp only [Prog.eval]
  rcases (TVal.sub t).walk T ini π with e | v | q
  · constructor
    · intro h; cases h
    · rintro ⟨q, h, _⟩; cases h
  · constructor
    · intro h; cases h
    · rintro ⟨q, h, _⟩; cases h
  · constructor
    · intro h; exact ⟨q, rfl, h⟩
    · rintro ⟨q', h, h'⟩; cases h; exact h'

theorem eval_hash_ok {α} {π : List Nat} {k : Bytes → Prog α} {a : α} : (Prog.hash π k).eval T H ini t = .ok (.ok a) ↔
    ∃ q h, (TVal.sub t).walk T ini π = .ok (.sub q) ∧ q.hash T H = .ok h ∧ (k h).eval T H ini t = .ok (.ok a) := by
  simp only [Prog.eval]
  rcases (TVal.sub t).walk T ini π with e | v | q
  · constructor
    · intro h; cases h
    · rintro ⟨q, h, hw, _⟩; cases hw
  · constructor
    · intro h; cases h
    · rintro ⟨q, h, hw, _⟩; cases hw
  · simp only [Except.bind_ok, TVal.asProof]
    constructor
    · intro h
      obtain ⟨x, hx, h⟩ := Except.bind_eq_ok h
      exact ⟨q, x, rfl, hx, h⟩
    · rintro ⟨q', h, hw, hh, h'⟩
      cases hw
      rw [hh]; exact h'

theorem eval_read_ok {α} {π : List Nat} {k : Option PVal → Prog α} {a : α} : (Prog.read π k).eval T H ini t = .ok (.ok a) ↔
    ∃ v, (TVal.sub t).walk T ini π = .ok v ∧ (k (match v with | .prim w => some w | .sub _ => none)).eval T H ini t = .ok (.ok a) := by
  simp only [Prog.eval]
  constructor
  · intro h; obtain ⟨v, hv, h⟩ := Except.bind_eq_ok h; exact ⟨v, hv, h⟩
  · rintro ⟨v, hv, h⟩; rw [hv]; exact h

theorem eval_getTx_ok {π : List Nat} {x : CTransaction} : (getTx π).eval T H ini t = .ok (.ok x) ↔
    (∃ q, (TVal.sub t).walk T ini π = .ok (.sub q) ∧ q.cls = Cls.txProof) ∧ (TVal.sub t).walk T ini (π ++ [0]) = .ok (.prim (.tx x)) := by
  unfold getTx
  rw [eval_onCls_ok, eval_read_ok]
  refine and_congr_right fun _ => ?_
  constructor
  · rintro ⟨v, hv, h⟩
    rw [hv]
    rcases v with v | q
    · cases v <;> simp [Prog.eval] at h
      rw [h]
    · simp [Prog.eval] at h
  · intro h
    exact ⟨_, h, rfl⟩

theorem eval_getI_ok {π : List Nat} {i : Int} : (getI π).eval T H ini t = .ok (.ok i) ↔ (TVal.sub t).walk T ini (π ++ [0]) = .ok (.prim (.int i)) := by
  unfold getI
  rw [eval_read_ok]
  constructor
  · rintro ⟨v, hv, h⟩
    rw [hv]
    rcases v with v | q
    · cases v <;> simp [Prog.eval] at h
      rw [h]
    · simp [Prog.eval] at h
  · intro h
    exact ⟨_, h, rfl⟩

theorem eval_outpoint_ok {π : List Nat} {o : COutPoint} : (outpoint π).eval T H ini t = .ok (.ok o) ↔
    (∃ q, (TVal.sub t).walk T ini π = .ok (.sub q) ∧ q.cls = Cls.btcSeal) ∧ (TVal.sub t).walk T ini (π ++ [0]) = .ok (.prim (.outpoint o)) := by
  unfold outpoint
  rw [eval_onCls_ok, eval_read_ok]
  refine and_congr_right fun _ => ?_
  constructor
  · rintro ⟨v, hv, h⟩
    rw [hv]
    rcases v with v | q
    · cases v <;> simp [Prog.eval] at h
      rw [h]
    · simp [Prog.eval] at h
  · intro h
    exact ⟨_, h, rfl⟩

theorem walk_append : ∀ (π ρ : List Nat) (v : TVal), v.walk T ini (π ++ ρ) = (do let w ← v.walk T ini π; w.walk T ini ρ)
  | [], _, _ => rfl
  | i :: π, ρ, .prim v => rfl
  | i :: π, ρ, .sub q => by
    simp only [List.cons_append, TVal.walk]
    cases q.attr T ini i with
    | error e => rfl
    | ok w => simp only [Except.bind_ok]; exact walk_append π ρ w

theorem attr_ok {i : Nat} {v : TVal} {q : PTree} : q.attr T ini i = .ok v ↔ q.get? i = some v := by
  unfold PTree.attr
  cases q.get? i <;> simp

/-- One more attribute. -/
theorem walk_snoc {π : List Nat} {i : Nat} {v : TVal} {q : PTree} (h : (TVal.sub t).walk T ini π = .ok (.sub q)) :
    (TVal.sub t).walk T ini (π ++ [i]) = .ok v ↔ q.get? i = some v := by
  rw [walk_append, h]
  simp only [Except.bind_ok, TVal.walk]
  constructor
  · intro h
    obtain ⟨w, hw, h⟩ := Except.bind_eq_ok h
    cases h
    exact attr_ok.mp hw
  · intro h
    rw [attr_ok.mpr h]; rfl

theorem walk_nil {q : PTree} : (TVal.sub t).walk T ini [] = .ok (.sub q) ↔ q = t := by
  simp [TVal.walk, eq_comm]

end

/-! ## The shape of checked trees -/

section
variable {H : HashFns} {g : GuMapDecl}

local notation "C" => classes H g

theorem shape_tx {q : PTree} (hc : q.cls = Cls.txProof) (hk : q.Checked C) {v : TVal} (hg : q.get? 0 = some v) : ∃ x, q = txT x ∧ v = .prim (.tx x) := by
  rcases q with ⟨c, fs⟩ | ⟨c, d⟩
  · simp only [PTree.cls] at hc
    subst hc
    simp only [PTree.Checked, Cls.txProof, classes] at hk
    rcases fs with _ | ⟨w, fs⟩ | ⟨q, fs⟩
    · simp [PFields.Checked] at hk
    · simp only [PFields.Checked] at hk
      obtain ⟨h1, h2⟩ := hk
      cases w <;> simp [PrimTy.check] at h1
      rcases fs with _ | ⟨w, fs⟩ | ⟨q, fs⟩ <;> simp [PFields.Checked] at h2
      simp [PTree.get?, PFields.get?] at hg
      exact ⟨_, rfl, hg.symm⟩
    · simp [PFields.Checked, PrimTy.check] at hk
  · simp [PTree.get?] at hg

theorem shape_io {q : PTree} (hc : q.cls = Cls.txInProof ∨ q.cls = Cls.txOutProof) (hk : q.Checked C) {i : Nat} {v : TVal} (hg : q.get? i = some v) :
    ∃ (n : Int) (p : PTree), q = .node q.cls (.prim (.int n) (.sub p .nil)) ∧ 0 ≤ n ∧ n ≤ 0xffffffff ∧ p.Checked C := by
  rcases q with ⟨c, fs⟩ | ⟨c, d⟩
  · simp only [PTree.cls] at hc
    have ha : (C c).attrs = [.prim (.uint 0xffffffff), .proof Cls.txProof] := by rcases hc with rfl | rfl <;> rfl
    simp only [PTree.Checked, ha] at hk
    rcases fs with _ | ⟨w, fs⟩ | ⟨q, fs⟩
    · simp [PFields.Checked] at hk
    · simp only [PFields.Checked] at hk
      obtain ⟨h1, h2⟩ := hk
      cases w <;> simp [PrimTy.check] at h1
      next n =>
      rcases fs with _ | ⟨w, fs⟩ | ⟨q, fs⟩
      · simp [PFields.Checked] at h2
      · simp [PFields.Checked] at h2
      · simp only [PFields.Checked] at h2
        obtain ⟨_, h3, h4⟩ := h2
        rcases fs with _ | ⟨w, fs⟩ | ⟨_, fs⟩ <;> simp [PFields.Checked] at h4
        exact ⟨n, q, rfl, by omega, by omega, h3⟩
    · simp [PFields.Checked, PrimTy.check] at hk
  · simp [PTree.get?] at hg

theorem shape_seal {q : PTree} (hc : q.cls = Cls.btcSeal) (hk : q.Checked C) {i : Nat} {v : TVal} (hg : q.get? i = some v) :
    ∃ (o : COutPoint) (n : Bytes), q = sealT o n ∧ n.length = 16 := by
  rcases q with ⟨c, fs⟩ | ⟨c, d⟩
  · simp only [PTree.cls] at hc
    subst hc
    simp only [PTree.Checked, Cls.btcSeal, classes] at hk
    rcases fs with _ | ⟨w, fs⟩ | ⟨q, fs⟩
    · simp [PFields.Checked] at hk
    · simp only [PFields.Checked] at hk
      obtain ⟨h1, h2⟩ := hk
      cases w <;> simp [PrimTy.check] at h1
      rcases fs with _ | ⟨w, fs⟩ | ⟨q, fs⟩
      · simp [PFields.Checked] at h2
      · simp only [PFields.Checked] at h2
        obtain ⟨h3, h4⟩ := h2
        cases w <;> simp [PrimTy.check] at h3
        rcases fs with _ | ⟨w, fs⟩ | ⟨q, fs⟩ <;> simp [PFields.Checked] at h4
        exact ⟨_, _, rfl, h3⟩
      · simp [PFields.Checked, PrimTy.check] at h2
    · simp [PFields.Checked, PrimTy.check] at hk
  · simp [PTree.get?] at hg

theorem shape_witness {q : PTree} (hc : q.cls = Cls.btcWitness) (hk : q.Checked C) {i : Nat} {v : TVal} (hg : q.get? i = some v) :
    ∃ a b c, q = witnessT a b c ∧ a.Checked C ∧ b.Checked C ∧ c.Checked C := by
  rcases q with ⟨c, fs⟩ | ⟨c, d⟩
  · simp only [PTree.cls] at hc
    subst hc
    simp only [PTree.Checked, Cls.btcWitness, classes] at hk
    rcases fs with _ | ⟨w, fs⟩ | ⟨a, fs⟩
    · simp [PFields.Checked] at hk
    · simp [PFields.Checked] at hk
    · simp only [PFields.Checked] at hk
      obtain ⟨_, h1, h2⟩ := hk
      rcases fs with _ | ⟨w, fs⟩ | ⟨b, fs⟩
      · simp [PFields.Checked] at h2
      · simp [PFields.Checked] at h2
      · simp only [PFields.Checked] at h2
        obtain ⟨_, h3, h4⟩ := h2
        rcases fs with _ | ⟨w, fs⟩ | ⟨c, fs⟩
        · simp [PFields.Checked] at h4
        · simp [PFields.Checked] at h4
        · simp only [PFields.Checked] at h4
          obtain ⟨_, h5, h6⟩ := h4
          rcases fs with _ | ⟨w, fs⟩ | ⟨q, fs⟩ <;> simp [PFields.Checked] at h6
          exact ⟨a, b, c, rfl, h1, h3, h5⟩
  · simp [PTree.get?] at hg

/-! ## Scripts -/

theorem opItem (op : Byte) : coerceItem (.op op) = .ok [op] := rfl

theorem dataItem {d : Bytes} (h : d.length < 0x4c) : coerceItem (.data d) = .ok (BitVec.ofNat 8 d.length :: d) := by
  simp [coerceItem, encodePushdata, h]

theorem mkScript_opReturn {h : Bytes} (hl : h.length = 32) : mkScript [.op OP_RETURN, .data h] = .ok (opReturnScript h) := by
  simp only [mkScript, opItem, dataItem (d := h) (by omega), hl, Except.bind_ok]
  simp [opReturnScript, pure, Except.pure, Except.bind_ok]

theorem mkScript_p2sh {k : Bytes} (hl : k.length = 20) : mkScript [.op OP_HASH160, .data k, .op OP_EQUAL] = .ok (p2shScript k) := by
  simp only [mkScript, opItem, dataItem (d := k) (by omega), hl, Except.bind_ok]
  simp [p2shScript, pure, Except.pure, Except.bind_ok]

theorem mkScript_p2pkh {k : Bytes} (hl : k.length = 20) :
    mkScript [.op OP_DUP, .op OP_HASH160, .data k, .op OP_EQUALVERIFY, .op OP_CHECKSIG] = .ok (p2pkhScript k) := by
  simp only [mkScript, opItem, dataItem (d := k) (by omega), hl, Except.bind_ok]
  simp [p2pkhScript, pure, Except.pure, Except.bind_ok]

theorem pyAssert_ok {b : Bool} : pyAssert b = .ok () ↔ b = true := by cases b <;> simp [pyAssert]

theorem scriptMatches_eq {h spk : Bytes} (hl : h.length = 32) : scriptMatches H h spk = pyAssert (decide (CommitsTo H h spk)) := by
  have h20 : (H.hash160 h).length = 20 := H.ripemd160_len _
  unfold scriptMatches
  rw [mkScript_opReturn hl, mkScript_p2sh h20, mkScript_p2pkh h20]
  simp only [Except.bind_ok, CommitsTo, show h160 H h = H.hash160 h from rfl]
  by_cases h1 : spk = opReturnScript h
  · simp [h1, pyAssert, pure, Except.pure]
  · by_cases h2 : spk = p2shScript (H.hash160 h)
    · rw [if_neg h1, if_pos h2]; simp [h2, pyAssert, pure, Except.pure]
    · rw [if_neg h1, if_neg h2]; simp only [h1, h2, false_or]
      by_cases h3 : spk = p2pkhScript (H.hash160 h)
      · simp [h3]
      · rw [beq_false_of_ne h3]; simp [h3]

/-! ## Hashes of transactions -/

theorem xor_inj : ∀ (pad a b : Bytes), a.length ≤ pad.length → b.length ≤ pad.length →
    List.zipWith (· ^^^ ·) a pad = List.zipWith (· ^^^ ·) b pad → a = b
  | [], [], [], _, _, _ => rfl
  | _ :: _, [], [], _, _, _ => rfl
  | p :: pad, x :: a, y :: b, ha, hb, h => by
    simp only [List.zipWith_cons_cons, List.cons.injEq] at h
    rw [xor_inj pad a b (by simpa using ha) (by simpa using hb) h.2]
    have : x = y := by
      have := congrArg (· ^^^ p) h.1
      simpa [BitVec.xor_assoc] using this
    rw [this]
  | _ :: _, [], _ :: _, _, _, h => by simp at h
  | _ :: _, _ :: _, [], _, _, h => by simp at h
  | [], _ :: _, _, ha, _, _ => by simp at ha
  | [], [], _ :: _, _, hb, _ => by simp at hb

theorem xor_xor : ∀ (pad a : Bytes), a.length ≤ pad.length → List.zipWith (· ^^^ ·) (List.zipWith (· ^^^ ·) a pad) pad = a
  | _, [], _ => by simp
  | p :: pad, x :: a, h => by
    simp only [List.zipWith_cons_cons]
    rw [xor_xor pad a (by simpa using h), BitVec.xor_assoc, BitVec.xor_self, BitVec.xor_zero]
  | [], _ :: _, h => by simp at h

theorem xorPad_length : Prf.xorPad.length = 32 := by decide

theorem xorWithPad_xorWithPad {h : Bytes} (hl : h.length = 32) : Prf.xorWithPad (Prf.xorWithPad h) = h :=
  xor_xor _ _ (by rw [hl, xorPad_length]; exact Nat.le_refl _)

theorem xorWithPad_inj {a b : Bytes} (ha : a.length = 32) (hb : b.length = 32) (h : Prf.xorWithPad a = Prf.xorWithPad b) : a = b := by
  rw [← xorWithPad_xorWithPad ha, h, xorWithPad_xorWithPad hb]

theorem hash_txT (x : CTransaction) : (txT x).hash C H = (do let h ← x.getHash H; return Prf.xorWithPad h) := rfl

theorem hash_txT_ok {x : CTransaction} {h : Bytes} : (txT x).hash C H = .ok h ↔ ∃ id, HasTxid H x id ∧ h = Prf.xorWithPad id := by
  rw [hash_txT]
  unfold CTransaction.getHash HasTxid
  cases x.ser with
  | error e =>
    constructor
    · intro h; cases h
    · rintro ⟨id, ⟨b, hb, _⟩, _⟩; cases hb
  | ok b =>
    constructor
    · intro h; exact ⟨_, ⟨b, rfl, rfl⟩, (Except.ok.inj h).symm⟩
    · rintro ⟨id, ⟨b, hb, rfl⟩, rfl⟩; cases hb; rfl

theorem HasTxid.length {x : CTransaction} {id : Bytes} (h : HasTxid H x id) : id.length = 32 := by
  obtain ⟨b, _, rfl⟩ := h; exact H.sha256_len _

theorem pyGetItem_ok {α} {xs : List α} {i : Int} (hi : 0 ≤ i) {a : α} : pyGetItem xs i = .ok a ↔ xs[i.toNat]? = some a := by
  unfold pyGetItem
  simp only [show ¬ i < 0 by omega, if_false]
  cases xs[i.toNat]? <;> simp

theorem serEq_ok {o o' : COutPoint} (h : serEq COutPoint.ser o o' = .ok true) : o = o' := by
  unfold serEq at h
  obtain ⟨a, ha, h⟩ := Except.bind_eq_ok h
  obtain ⟨b, hb, h⟩ := Except.bind_eq_ok h
  have h := Except.ok.inj h
  rw [beq_iff_eq] at h
  subst h
  exact PF.inj PF.outpoint ha hb

/-! ## Reading -/

variable {ini : List Nat} {t : PTree}

theorem get_of_walk {π : List Nat} {i : Nat} {v : TVal} {q : PTree} (h : (TVal.sub t).walk C ini π = .ok (.sub q))
    (h' : (TVal.sub t).walk C ini (π ++ [i]) = .ok v) : q.get? i = some v := (walk_snoc h).mp h'

theorem getTx_inv {π : List Nat} {x : CTransaction} {q : PTree} (hq : (TVal.sub t).walk C ini π = .ok (.sub q)) (hk : q.Checked C) :
    (getTx π).eval C H ini t = .ok (.ok x) ↔ q = txT x := by
  rw [eval_getTx_ok]
  constructor
  · rintro ⟨⟨q', h1, h2⟩, h3⟩
    rw [hq] at h1; cases h1
    obtain ⟨x', rfl, h⟩ := shape_tx h2 hk (get_of_walk hq h3)
    cases h; rfl
  · rintro rfl
    exact ⟨⟨_, hq, rfl⟩, (walk_snoc hq).mpr rfl⟩

theorem txin_inv {π : List Nat} {inp : CTxIn} {q : PTree} (hq : (TVal.sub t).walk C ini π = .ok (.sub q)) (hk : q.Checked C) :
    (txin π).eval C H ini t = .ok (.ok inp) ↔ ∃ i x, q = txinT i (txT x) ∧ 0 ≤ i ∧ x.vin[i.toNat]? = some inp := by
  unfold txin
  simp only [eval_onCls_ok, eval_bind_ok, eval_lift_ok]
  constructor
  · rintro ⟨⟨q', h1, h2⟩, x, h3, i, h4, h5⟩
    rw [hq] at h1; cases h1
    obtain ⟨n, p, hs, h0, h0', hp⟩ := shape_io (.inl h2) hk (get_of_walk hq (eval_getI_ok.mp h4))
    rw [h2] at hs
    subst hs
    have hw : (TVal.sub t).walk C ini (π ++ [1]) = .ok (.sub p) := (walk_snoc hq).mpr rfl
    rw [getTx_inv hw hp] at h3
    subst h3
    have := get_of_walk hq (eval_getI_ok.mp h4)
    simp [PTree.get?, PFields.get?] at this
    subst this
    rw [pyGetItem_ok h0] at h5
    exact ⟨n, x, rfl, h0, h5⟩
  · rintro ⟨i, x, rfl, h0, h5⟩
    have hx : (txT x).Checked C := by simp [txT, PTree.Checked, PFields.Checked, Cls.txProof, classes, PrimTy.check]
    have hw : (TVal.sub t).walk C ini (π ++ [1]) = .ok (.sub (txT x)) := (walk_snoc hq).mpr rfl
    exact ⟨⟨_, hq, rfl⟩, x, (getTx_inv hw hx).mpr rfl, i, eval_getI_ok.mpr ((walk_snoc hq).mpr rfl), (pyGetItem_ok h0).mpr h5⟩

theorem txout_inv {π : List Nat} {out : CTxOut} {q : PTree} (hq : (TVal.sub t).walk C ini π = .ok (.sub q)) (hk : q.Checked C) :
    (txout π).eval C H ini t = .ok (.ok out) ↔ ∃ i x, q = txoutT i (txT x) ∧ 0 ≤ i ∧ x.vout[i.toNat]? = some out := by
  unfold txout
  simp only [eval_onCls_ok, eval_bind_ok, eval_lift_ok]
  constructor
  · rintro ⟨⟨q', h1, h2⟩, x, h3, i, h4, h5⟩
    rw [hq] at h1; cases h1
    obtain ⟨n, p, hs, h0, h0', hp⟩ := shape_io (.inr h2) hk (get_of_walk hq (eval_getI_ok.mp h4))
    rw [h2] at hs
    subst hs
    have hw : (TVal.sub t).walk C ini (π ++ [1]) = .ok (.sub p) := (walk_snoc hq).mpr rfl
    rw [getTx_inv hw hp] at h3
    subst h3
    have := get_of_walk hq (eval_getI_ok.mp h4)
    simp [PTree.get?, PFields.get?] at this
    subst this
    rw [pyGetItem_ok h0] at h5
    exact ⟨n, x, rfl, h0, h5⟩
  · rintro ⟨i, x, rfl, h0, h5⟩
    have hx : (txT x).Checked C := by simp [txT, PTree.Checked, PFields.Checked, Cls.txProof, classes, PrimTy.check]
    have hw : (TVal.sub t).walk C ini (π ++ [1]) = .ok (.sub (txT x)) := (walk_snoc hq).mpr rfl
    exact ⟨⟨_, hq, rfl⟩, x, (getTx_inv hw hx).mpr rfl, i, eval_getI_ok.mpr ((walk_snoc hq).mpr rfl), (pyGetItem_ok h0).mpr h5⟩

theorem outpoint_inv {π : List Nat} {o : COutPoint} {q : PTree} (hq : (TVal.sub t).walk C ini π = .ok (.sub q)) (hk : q.Checked C) :
    (outpoint π).eval C H ini t = .ok (.ok o) ↔ ∃ n, q = sealT o n := by
  rw [eval_outpoint_ok]
  constructor
  · rintro ⟨⟨q', h1, h2⟩, h3⟩
    rw [hq] at h1; cases h1
    have := get_of_walk hq h3
    obtain ⟨o', n, rfl, _⟩ := shape_seal h2 hk this
    simp [sealT, PTree.get?, PFields.get?] at this
    subst this
    exact ⟨n, rfl⟩
  · rintro ⟨n, rfl⟩
    exact ⟨⟨_, hq, rfl⟩, (walk_snoc hq).mpr rfl⟩

theorem txproof_ok {α} {π : List Nat} {k : List Nat → Prog α} {a : α} : (txproof π k).eval C H ini t = .ok (.ok a) ↔
    ∃ q, (TVal.sub t).walk C ini π = .ok (.sub q) ∧ (((q.cls = Cls.txInProof ∨ q.cls = Cls.txOutProof) ∧ (k (π ++ [1])).eval C H ini t = .ok (.ok a)) ∨
      (q.cls = Cls.outPointProof ∧ (k (π ++ [0])).eval C H ini t = .ok (.ok a))) := by
  unfold txproof
  rw [eval_cls_ok]
  refine exists_congr fun q => and_congr_right fun _ => ?_
  split
  · next h => 
    constructor
    · intro h'; exact .inl ⟨h, h'⟩
    · rintro (⟨_, h'⟩ | ⟨h', _⟩)
      · exact h'
      · rcases h with h | h <;> rw [h] at h' <;> cases h'
  · next h =>
    split
    · next h2 => 
      constructor
      · intro h'; exact .inr ⟨h2, h'⟩
      · rintro (⟨h', _⟩ | ⟨_, h'⟩)
        · exact absurd h' h
        · exact h'
    · next h2 =>
      constructor
      · intro h'; cases h'
      · rintro (⟨h', _⟩ | ⟨h', _⟩)
        · exact absurd h' h
        · exact absurd h' h2

/-- What `verify()` establishes. -/
theorem verify_inv (hk : t.Checked C) (h : (witnessVerify []).eval C H ini t = .ok (.ok ())) :
    ∃ o n i x c, t = witnessT (sealT o n) (txinT i (txT x)) c ∧ c.Checked C ∧ 0 ≤ i ∧ (∃ inp, x.vin[i.toNat]? = some inp ∧ inp.prevout = o) ∧
      ∀ j p, c = txoutT j p → ∃ hh, (txT x).hash C H = .ok hh ∧ p.hash C H = .ok hh := by
  unfold witnessVerify at h
  simp only [eval_onCls_ok, eval_bind_ok, eval_lift_ok, List.nil_append] at h
  obtain ⟨⟨q, h1, h2⟩, o, ho, inp, hin, e, he, _, ha, h3⟩ := h
  rw [walk_nil] at h1
  subst h1
  have hw0 : (TVal.sub q).walk C ini [] = .ok (.sub q) := rfl
  obtain ⟨⟨qs, hqs, _⟩, _⟩ := eval_outpoint_ok.mp ho
  obtain ⟨a, b, c, rfl, hka, hkb, hkc⟩ := shape_witness h2 hk ((walk_snoc (π := []) hw0).mp hqs)
  have hwa : (TVal.sub (witnessT a b c)).walk C ini [0] = .ok (.sub a) := rfl
  have hwb : (TVal.sub (witnessT a b c)).walk C ini [1] = .ok (.sub b) := rfl
  have hwc : (TVal.sub (witnessT a b c)).walk C ini [2] = .ok (.sub c) := rfl
  obtain ⟨n, rfl⟩ := (outpoint_inv hwa hka).mp ho
  obtain ⟨i, x, rfl, h0, hx⟩ := (txin_inv hwb hkb).mp hin
  rw [pyAssert_ok] at ha
  subst ha
  refine ⟨o, n, i, x, c, rfl, hkc, h0, ⟨inp, hx, (serEq_ok he).symm⟩, ?_⟩
  rintro j p rfl
  rw [txproof_ok] at h3
  obtain ⟨q1, hq1, h3⟩ := h3
  rw [hwb] at hq1
  cases hq1
  rcases h3 with ⟨_, h3⟩ | ⟨h3, _⟩
  · rw [txproof_ok] at h3
    obtain ⟨q2, hq2, h3⟩ := h3
    rw [hwc] at hq2
    cases hq2
    rcases h3 with ⟨_, h3⟩ | ⟨h3, _⟩
    · rw [eval_hash_ok] at h3
      obtain ⟨p1, hh1, hp1, hhh1, h3⟩ := h3
      rw [eval_hash_ok] at h3
      obtain ⟨p2, hh2, hp2, hhh2, h3⟩ := h3
      cases hp1
      cases hp2
      rw [eval_lift_ok, pyAssert_ok, beq_iff_eq] at h3
      subst h3
      exact ⟨_, hhh1, hhh2⟩
    · cases h3
  · cases h3

/-- What `verify_hash(h)` establishes. -/
theorem verifyHash_inv (hk : t.Checked C) {h : Bytes} : (witnessVerifyHash H h []).eval C H ini t = .ok (.ok ()) ↔
    h.length = 32 ∧ ∃ a b j x, t = witnessT a b (txoutT j (txT x)) ∧ 0 ≤ j ∧ ∃ out, x.vout[j.toNat]? = some out ∧ CommitsTo H h out.scriptPubKey := by
  unfold witnessVerifyHash
  simp only [eval_onCls_ok, eval_bind_ok, eval_lift_ok, List.nil_append, pyAssert_ok, beq_iff_eq]
  have hw0 : (TVal.sub t).walk C ini [] = .ok (.sub t) := rfl
  constructor
  · rintro ⟨⟨q, h1, h2⟩, _, hl, out, ho, hm⟩
    rw [walk_nil] at h1
    subst h1
    rw [pyAssert_ok, beq_iff_eq] at hl
    refine ⟨hl, ?_⟩
    rw [scriptMatches_eq hl, pyAssert_ok, decide_eq_true_iff] at hm
    have h3 : ∃ c, (TVal.sub q).walk C ini [2] = .ok (.sub c) := by
      unfold txout at ho
      rw [eval_onCls_ok] at ho
      obtain ⟨⟨c, hc, _⟩, _⟩ := ho
      exact ⟨c, hc⟩
    obtain ⟨c, hc⟩ := h3
    obtain ⟨a, b, c', rfl, hka, hkb, hkc⟩ := shape_witness h2 hk ((walk_snoc (π := []) hw0).mp hc)
    have hwc : (TVal.sub (witnessT a b c')).walk C ini [2] = .ok (.sub c') := rfl
    obtain ⟨j, x, rfl, h0, hx⟩ := (txout_inv hwc hkc).mp ho
    exact ⟨a, b, j, x, rfl, h0, out, hx, hm⟩
  · rintro ⟨hl, a, b, j, x, rfl, h0, out, hx, hm⟩
    have hwc : (TVal.sub (witnessT a b (txoutT j (txT x)))).walk C ini [2] = .ok (.sub (txoutT j (txT x))) := rfl
    refine ⟨⟨_, rfl, rfl⟩, (), pyAssert_ok.mpr (beq_iff_eq.mpr hl), out, (txout_inv hwc ?_).mpr ⟨j, x, rfl, h0, hx⟩, ?_⟩
    · simp only [PTree.Checked, witnessT, Cls.btcWitness, classes, PFields.Checked] at hk
      exact hk.2.2.2.2.2.1
    · rw [scriptMatches_eq hl, pyAssert_ok, decide_eq_true_iff]; exact hm

/-- Both together, exactly. -/
theorem both_inv (hk : t.Checked C) {h : Bytes} {ini' : List Nat} (hv : (witnessVerify []).eval C H ini t = .ok (.ok ()))
    (hh : (witnessVerifyHash H h []).eval C H ini' t = .ok (.ok ())) :
    ∃ o n i x j x', t = fullWitnessT o n i x j x' ∧ Shows H o i x j x' h := by
  obtain ⟨o, n, i, x, c, rfl, hkc, h0, hin, hc⟩ := verify_inv hk hv
  obtain ⟨hl, a, b, j, x', he, hj, hout⟩ := (verifyHash_inv hk).mp hh
  simp only [witnessT, PTree.node.injEq, PFields.sub.injEq, true_and, and_true] at he
  obtain ⟨rfl, rfl, rfl⟩ := he
  obtain ⟨hh, h1, h2⟩ := hc _ _ rfl
  obtain ⟨id, hid, rfl⟩ := hash_txT_ok.mp h1
  obtain ⟨id', hid', he⟩ := hash_txT_ok.mp h2
  have := xorWithPad_inj hid.length hid'.length he
  subst this
  exact ⟨o, n, i, x, j, x', rfl, hl, h0, hj, hin, hout, id, hid, hid'⟩

theorem CTransaction.prevout_ser {x : CTransaction} {id : Bytes} (h : HasTxid H x id) {i : Nat} {inp : CTxIn} (hi : x.vin[i]? = some inp) :
    ∃ e, inp.prevout.ser = .ok e := by
  obtain ⟨b, hb, _⟩ := h
  unfold CTransaction.ser at hb
  obtain ⟨a, ha, hb⟩ := Except.bind_eq_ok hb
  obtain ⟨b, hb, _⟩ := Except.bind_eq_ok hb
  unfold serVector at hb
  obtain ⟨n, hn, hb⟩ := Except.bind_eq_ok hb
  obtain ⟨d, hd, _⟩ := Except.bind_eq_ok hb
  have : ∀ (xs : List CTxIn) (i : Nat) (d : Bytes), serEach CTxIn.ser xs = .ok d → xs[i]? = some inp → ∃ e, inp.ser = .ok e := by
    intro xs
    induction xs with
    | nil => intro i d _ h; simp at h
    | cons y xs ih =>
      intro i d hd hi
      unfold serEach at hd
      obtain ⟨e, he, hd⟩ := Except.bind_eq_ok hd
      obtain ⟨e', he', hd⟩ := Except.bind_eq_ok hd
      cases i with
      | zero => simp at hi; subst hi; exact ⟨e, he⟩
      | succ i => exact ih i _ he' (by simpa using hi)
  obtain ⟨e, he⟩ := this x.vin i d hd hi
  unfold CTxIn.ser at he
  obtain ⟨e, he, _⟩ := Except.bind_eq_ok he
  exact ⟨e, he⟩

theorem verify_full {o : COutPoint} {n : Bytes} {i j : Int} {x x' : CTransaction} {h : Bytes} (hs : Shows H o i x j x' h) :
    (witnessVerify []).eval C H ini (fullWitnessT o n i x j x') = .ok (.ok ()) := by
  obtain ⟨hl, hi, hj, ⟨inp, hinp, rfl⟩, ⟨out, hout, hc⟩, id, hid, hid'⟩ := hs
  obtain ⟨e, he⟩ := CTransaction.prevout_ser hid hinp
  have h1 : (txT x).hash C H = .ok (Prf.xorWithPad id) := hash_txT_ok.mpr ⟨id, hid, rfl⟩
  have h2 : (txT x').hash C H = .ok (Prf.xorWithPad id) := hash_txT_ok.mpr ⟨id, hid', rfl⟩
  unfold witnessVerify
  simp only [eval_onCls_ok, eval_bind_ok, eval_lift_ok, List.nil_append]
  refine ⟨⟨_, rfl, rfl⟩, inp.prevout, ?_, inp, ?_, true, ?_, (), rfl, ?_⟩
  · rw [eval_outpoint_ok]; exact ⟨⟨_, rfl, rfl⟩, rfl⟩
  · unfold txin
    simp only [eval_onCls_ok, eval_bind_ok, eval_lift_ok]
    exact ⟨⟨_, rfl, rfl⟩, x, eval_getTx_ok.mpr ⟨⟨_, rfl, rfl⟩, rfl⟩, i, eval_getI_ok.mpr rfl, (pyGetItem_ok hi).mpr hinp⟩
  · unfold serEq; rw [he]; simp only [Except.bind_ok, beq_self_eq_true]; rfl
  · rw [txproof_ok]
    refine ⟨_, rfl, .inl ⟨.inl rfl, ?_⟩⟩
    rw [txproof_ok]
    refine ⟨_, rfl, .inl ⟨.inr rfl, ?_⟩⟩
    rw [eval_hash_ok]
    refine ⟨_, _, rfl, h1, ?_⟩
    rw [eval_hash_ok]
    refine ⟨_, _, rfl, h2, ?_⟩
    rw [eval_lift_ok, pyAssert_ok, beq_iff_eq]

theorem verifyHash_full {o : COutPoint} {n : Bytes} {i j : Int} {x x' : CTransaction} {h : Bytes} (hs : Shows H o i x j x' h) :
    (witnessVerifyHash H h []).eval C H ini (fullWitnessT o n i x j x') = .ok (.ok ()) := by
  obtain ⟨hl, hi, hj, ⟨inp, hinp, rfl⟩, ⟨out, hout, hc⟩, id, hid, hid'⟩ := hs
  unfold witnessVerifyHash
  simp only [eval_onCls_ok, eval_bind_ok, eval_lift_ok, List.nil_append, pyAssert_ok, beq_iff_eq]
  refine ⟨⟨_, rfl, rfl⟩, (), pyAssert_ok.mpr (beq_iff_eq.mpr hl), out, ?_, ?_⟩
  · unfold txout
    simp only [eval_onCls_ok, eval_bind_ok, eval_lift_ok]
    exact ⟨⟨_, rfl, rfl⟩, x', eval_getTx_ok.mpr ⟨⟨_, rfl, rfl⟩, rfl⟩, j, eval_getI_ok.mpr rfl, (pyGetItem_ok hj).mpr hout⟩
  · rw [scriptMatches_eq hl, pyAssert_ok, decide_eq_true_iff]; exact hc

end
end Verif.Seal
