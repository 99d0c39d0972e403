import Verif.Lemmas.ScriptSat
import Verif.Lemmas.BlockCheck
import Verif.Props.Script
import Verif.Model.Sha256
/-! # C89–C97: what scripts do, and which outputs they let be spent -/
namespace Verif.Btc
open Verif

/-- The shortest byte string of a number. -/
def shortNum (n : Int) : Bytes := (bn2vch n).toOption.getD []

theorem shortNum_spec (n : Int) (h : n.natAbs < 2 ^ 63) : ShortestNum n (shortNum n) := by
  obtain ⟨b, h1, h2⟩ := (C71_bn2vch n).1 ⟨8, by decide, h⟩
  rw [shortNum, h1]
  exact h2

section
variable {C : Crypto} {num : Int → Bytes} {hn : ∀ n, n.natAbs < 2 ^ 63 → ShortestNum n (num n)}

/-! ## C89: EvalScript -/

/-- `EvalScript` leaves `s'` exactly if that is what the script does according to the language; if it does nothing according to the
language (because an operation cannot be performed, conditionals are not closed, or the bytes are no sequence of operations), it raises
`EvalScriptError`.  In Python's list the top of the stack is last. -/
theorem C89_eval {t : CTransaction} (ht : TxFits t) (i : Nat) {s : List Bytes} (hl : s.length < 2 ^ 61) (hs : ∀ x ∈ s, x.length < 2 ^ 32) (script : Bytes) :
    (∀ s', evalScript C s.reverse script t i = .ok s'.reverse ↔ Evals (here C num hn) t i script s s') ∧
    ((¬ ∃ s', Evals (here C num hn) t i script s s') → evalScript C s.reverse script t i = .error .evalScript) := by
  by_cases hp : IsProg script
  · obtain ⟨p, hw, rfl⟩ := hp
    have key := (evalScript_prog (L := here C num hn) rfl rfl ht i hl hs hw).1
    have key : evalScript C s.reverse (scriptOf p.toks) t i = ofOpt (p.eval (here C num hn) t i s) := key
    constructor
    · intro s'
      constructor
      · intro h
        refine ⟨p, hw, rfl, ?_⟩
        rw [key] at h
        rcases he : p.eval (here C num hn) t i s with _ | x <;> rw [he] at h
        · cases h
        · have : x.reverse = s'.reverse := Except.ok.inj h
          rw [List.reverse_inj.mp this]
      · rintro ⟨q, hq, h1, h2⟩
        have k2 : evalScript C s.reverse (scriptOf q.toks) t i = ofOpt (q.eval (here C num hn) t i s) :=
          (evalScript_prog (L := here C num hn) rfl rfl ht i hl hs hq).1
        rw [h1, k2, h2]
        rfl
    · intro h
      rw [key]
      rcases he : p.eval (here C num hn) t i s with _ | x
      · rfl
      · exact absurd ⟨x, p, hw, rfl, he⟩ h
  · refine ⟨fun s' => ⟨fun h => ?_, fun ⟨p, h1, h2, _⟩ => absurd ⟨p, h1, h2⟩ hp⟩, fun _ => evalScript_noprog (L := here C num hn) rfl rfl ht i hl hs hp⟩
    have := evalScript_noprog (L := here C num hn) rfl rfl ht i hl hs hp
    have h' : evalScript (here C num hn).C s.reverse script t i = .ok s'.reverse := h
    rw [this] at h'
    cases h'

/-- So it always either leaves a stack or raises `EvalScriptError`, and a script does one thing at most. -/
theorem C89_total {t : CTransaction} (ht : TxFits t) (i : Nat) {s : List Bytes} (hl : s.length < 2 ^ 61) (hs : ∀ x ∈ s, x.length < 2 ^ 32) (script : Bytes) :
    (∃ s', evalScript C s.reverse script t i = .ok s'.reverse ∧ ∀ s'', Evals (here C num hn) t i script s s'' ↔ s'' = s') ∨
    evalScript C s.reverse script t i = .error .evalScript ∧ ∀ s'', ¬ Evals (here C num hn) t i script s s'' := by
  obtain ⟨h1, h2⟩ := C89_eval (C := C) (num := num) (hn := hn) ht i hl hs script
  by_cases h : ∃ s', Evals (here C num hn) t i script s s'
  · obtain ⟨s', h⟩ := h
    have h3 := (h1 s').mpr h
    refine .inl ⟨s', h3, fun s'' => ⟨fun h4 => ?_, fun e => e ▸ h⟩⟩
    have h5 := (h1 s'').mpr h4
    rw [h3] at h5
    exact (List.reverse_inj.mp (Except.ok.inj h5)).symm
  · exact .inr ⟨h2 h, fun s'' h3 => h ⟨s'', h3⟩⟩

/-! ## C91: limits -/

/-- Pushes are limited like other operations. -/
def C91_statement : Prop := ∀ (C : Crypto) (t : CTransaction) (i : Nat) (script : Bytes) (s' : List Bytes), TxFits t →
  evalScript C [] script t i = .ok s' → s'.length ≤ 1000

/-- All limits hold but that on the number of values, which can be exceeded by as many as there are pushes of data. -/
theorem C91_limits_partial {t : CTransaction} (ht : TxFits t) (i : Nat) {s s' : List Bytes} (hl : s.length < 2 ^ 61) (hs : ∀ x ∈ s, x.length ≤ 520) (script : Bytes)
    (h : evalScript C s.reverse script t i = .ok s'.reverse) :
    script.length ≤ 10000 ∧ (∀ x ∈ s', x.length ≤ 520) ∧ ∃ ts, WFToks ts ∧ script = scriptOf ts ∧ (∀ u ∈ ts, Allowed u) ∧ (ts.filter counts).length ≤ 201 ∧
      s'.length ≤ max 1000 s.length + (ts.filter isData).length := by
  have hs2 : ∀ x ∈ s, x.length < 2 ^ 32 := fun x hx => by have := hs x hx; omega
  obtain ⟨p, hw, rfl, he⟩ := ((C89_eval (num := shortNum) (hn := shortNum_spec) ht i hl hs2 script).1 s').mp h
  have key := (evalScript_prog (L := here C shortNum shortNum_spec) rfl rfl ht i hl hs2 hw).2 s' he
  have hlen : (scriptOf p.toks).length ≤ 10000 := by
    apply Classical.byContradiction
    intro hh
    unfold Prog.eval at he
    rw [if_neg hh] at he
    cases he
  unfold Prog.eval at he
  rw [if_pos hlen] at he
  rcases hr : p.run (here C shortNum shortNum_spec) t i [] true true ⟨s, [], 0, p.toks⟩ with _ | st <;> rw [hr] at he
  · cases he
  · have e : st.main = s' := Option.some.inj he
    have h1 := run_limits p hr (Nat.zero_le _)
    have h2 := run_items (N := max 1000 s.length) (Nat.le_max_left _ _) p hr (Nat.le_max_right _ _)
    rw [e] at h2
    exact ⟨hlen, key.2 520 (Nat.le_refl _) (by decide) hs, p.toks, Prog.toks_wf hw, rfl, h1.1, by have := h1.2; omega, by omega⟩

/-! ## C92: VerifyScript -/

/-- What `VerifyScript` checks at the end. -/
theorem topTrue_ok {s : List Bytes} : (topTrue s.reverse = .ok () ∧ TopTrue s) ∨ (topTrue s.reverse = .error .validation ∧ ¬ TopTrue s) := by
  unfold topTrue TopTrue
  rw [List.getLast?_reverse]
  rcases s with _ | ⟨v, r⟩
  · exact .inr ⟨rfl, fun ⟨_, _, h, _⟩ => by cases h⟩
  · by_cases hv : Truthy v
    · exact .inl ⟨by simp only [List.head?_cons, (castToBool_iff v).mpr hv]; rfl, v, r, rfl, hv⟩
    · refine .inr ⟨?_, fun ⟨_, _, h, h'⟩ => by cases h; exact hv h'⟩
      have : castToBool v = false := by
        rw [← Bool.not_eq_true, castToBool_iff]
        exact hv
      simp only [List.head?_cons, this]
      rfl

/-- The stacks scripts leave are never too large. -/
theorem left {t : CTransaction} (ht : TxFits t) {i : Nat} {s s' : List Bytes} {script : Bytes} (hl : s.length ≤ 20000) (hs : ∀ x ∈ s, x.length ≤ 520)
    (h : Evals (here C num hn) t i script s s') : s'.length ≤ s.length + 11000 ∧ ∀ x ∈ s', x.length ≤ 520 := by
  have h1 := ((C89_eval ht i (by omega) (fun x hx => by have := hs x hx; omega) script).1 s').mpr h
  obtain ⟨h2, h3, ts, h4, rfl, -, -, h5⟩ := C91_limits_partial ht i (by omega) hs script h1
  have : ∀ ts : List Tok, (ts.filter isData).length ≤ (scriptOf ts).length := by
    intro ts
    induction ts with
    | nil => exact Nat.le_refl _
    | cons u ts ih =>
      have := u.bytes_length_pos
      have hf : ([u].filter isData).length ≤ 1 := List.length_filter_le isData [u]
      rw [scriptOf_cons, List.length_append, filter_cons_len]
      omega
  have := this ts
  exact ⟨by omega, h3⟩

/-- `VerifyScript` returns exactly if the output can be spent according to the language, with the rules of BIP 16 if the flag of
scripteval.py is given; otherwise it raises an exception derived from `ValidationError`.  The assertion never fails. -/
theorem C92_verify {t : CTransaction} (ht : TxFits t) (i : Nat) (ss sp : Bytes) (flags : List Flag) :
    (verifyScript C ss sp t i flags = .ok () ↔ Spends (here C num hn) t i (decide (Flag.p2sh ∈ flags)) ss sp) ∧
    (¬ Spends (here C num hn) t i (decide (Flag.p2sh ∈ flags)) ss sp →
      verifyScript C ss sp t i flags = .error .evalScript ∨ verifyScript C ss sp t i flags = .error .validation) := by
  have conv : ∀ {X : Py Unit} {P : Prop}, (X = .ok () ∧ P) ∨ ((X = .error .evalScript ∨ X = .error .validation) ∧ ¬ P) →
      (X = .ok () ↔ P) ∧ (¬ P → X = .error .evalScript ∨ X = .error .validation) := by
    rintro X P (⟨h1, h2⟩ | ⟨h1, h2⟩)
    · exact ⟨⟨fun _ => h2, fun _ => h1⟩, fun h => absurd h2 h⟩
    · refine ⟨⟨fun h => ?_, fun h => absurd h h2⟩, fun _ => h1⟩
      rcases h1 with h1 | h1 <;> rw [h1] at h <;> cases h
  apply conv
  unfold verifyScript
  have z : ([] : List Bytes) = ([] : List Bytes).reverse := rfl
  rcases C89_total (C := C) (num := num) (hn := hn) ht i (s := []) (by decide) (fun _ h => by cases h) ss with ⟨s1, e1, u1⟩ | ⟨e1, u1⟩
  · have e1 : evalScript C [] ss t i = .ok s1.reverse := e1
    rw [e1, okb]
    have b1 := left ht (by simp) (fun _ h => by cases h) ((u1 s1).mpr rfl)
    simp only [List.length_nil, Nat.zero_add] at b1
    rcases C89_total (C := C) (num := num) (hn := hn) ht i (s := s1) (by omega) (fun x hx => by have := b1.2 x hx; omega) sp with ⟨s2, e2, u2⟩ | ⟨e2, u2⟩
    · rw [e2, okb]
      have main : (∃ s s', Evals (here C num hn) t i ss [] s ∧ Evals (here C num hn) t i sp s s' ∧ TopTrue s') ↔ TopTrue s2 := by
        constructor
        · rintro ⟨s, s', h1, h2, h3⟩
          rw [(u1 s).mp h1] at h2
          rw [(u2 s').mp h2] at h3
          exact h3
        · exact fun h => ⟨s1, s2, (u1 s1).mpr rfl, (u2 s2).mpr rfl, h⟩
      rcases topTrue_ok (s := s2) with ⟨e3, h3⟩ | ⟨e3, h3⟩
      · rw [e3, okb]
        by_cases hf : Flag.p2sh ∈ flags
        · by_cases hp : isP2sh sp = true
          · rw [if_pos ⟨hf, hp⟩]
            obtain ⟨h, hl, hsp⟩ := (C74_is_p2sh sp).mp hp
            have hsp : sp = scriptOf (scriptHashToks h) := by rw [hsp, scriptHash_bytes hl]
            by_cases ho : isPushOnly ss = true
            · rw [if_neg (by rw [ho]; decide)]
              have hne : s1 ≠ [] := by
                have := (u2 s2).mpr rfl
                rw [hsp] at this
                obtain ⟨x, r, e, _⟩ := (evals_scriptHash (L := here C num hn) rfl hl).mp this
                rw [e]
                exact List.cons_ne_nil _ _
              rcases s1 with _ | ⟨r, s1⟩
              · exact absurd rfl hne
              · have ea : pyAssert (decide ((r :: s1).reverse.length ≠ 0)) = .ok () := by
                  simp [pyAssert]
                have ep : pop (r :: s1).reverse = .ok (r, s1.reverse) := by
                  simp [pop]
                rw [ea, okb, ep, okb]
                have b2 := b1.2
                have l2 : s1.length < 2 ^ 61 := by have := b1.1; rw [List.length_cons] at this; omega
                rcases C89_total (C := C) (num := num) (hn := hn) ht i (s := s1) l2 (fun x hx => by have := b2 x (List.mem_cons_of_mem _ hx); omega) r with ⟨s3, e4, u3⟩ | ⟨e4, u3⟩
                · simp only
                  rw [e4, okb]
                  have inner : (∃ r' s s', Evals (here C num hn) t i ss [] (r' :: s) ∧ Evals (here C num hn) t i r' s s' ∧ TopTrue s') ↔ TopTrue s3 := by
                    constructor
                    · rintro ⟨r', s, s', h1, h2, h3⟩
                      have := (u1 _).mp h1
                      obtain ⟨rfl, rfl⟩ := List.cons.inj this
                      rw [(u3 s').mp h2] at h3
                      exact h3
                    · exact fun h => ⟨r, s1, s3, (u1 _).mpr rfl, (u3 s3).mpr rfl, h⟩
                  rcases topTrue_ok (s := s3) with ⟨e5, h5⟩ | ⟨e5, h5⟩
                  · exact .inl ⟨e5, main.mpr h3, fun _ _ _ _ => ⟨(C69_is_push_only ss).mp ho, inner.mpr h5⟩⟩
                  · exact .inr ⟨.inr e5, fun hh => h5 (inner.mp (hh.redeem (by simpa using hf) h hl hsp).2)⟩
                · simp only
                  rw [e4, errb]
                  refine .inr ⟨.inl rfl, fun hh => ?_⟩
                  obtain ⟨r', s, s', h1, h2, _⟩ := (hh.redeem (by simpa using hf) h hl hsp).2
                  have := (u1 _).mp h1
                  obtain ⟨rfl, rfl⟩ := List.cons.inj this
                  exact u3 _ h2
            · rw [if_pos (by simpa using ho)]
              exact .inr ⟨.inr rfl, fun hh => ho ((C69_is_push_only ss).mpr (hh.redeem (by simpa using hf) h hl hsp).1)⟩
          · rw [if_neg (fun h => hp h.2)]
            refine .inl ⟨rfl, main.mpr h3, fun _ h hl hsp => ?_⟩
            rw [scriptHash_bytes hl] at hsp
            exact absurd ((C74_is_p2sh sp).mpr ⟨h, hl, hsp⟩) hp
        · rw [if_neg (fun h => hf h.1)]
          exact .inl ⟨rfl, main.mpr h3, fun h => by simp [hf] at h⟩
      · rw [e3, errb]
        exact .inr ⟨.inr rfl, fun hh => h3 (main.mp hh.script)⟩
    · rw [e2, errb]
      refine .inr ⟨.inl rfl, fun hh => ?_⟩
      obtain ⟨s, s', h1, h2, _⟩ := hh.script
      rw [(u1 s).mp h1] at h2
      exact u2 _ h2
  · have e1 : evalScript C [] ss t i = .error .evalScript := e1
    rw [e1, errb]
    refine .inr ⟨.inl rfl, fun hh => ?_⟩
    obtain ⟨s, s', h1, _⟩ := hh.script
    exact u1 _ h1

/-- What is left of `Spends` without BIP 16. -/
theorem spends_false {L : Lang} {t : CTransaction} {i : Nat} {ss sp : Bytes} : Spends L t i false ss sp ↔ ∃ s s', Evals L t i ss [] s ∧ Evals L t i sp s s' ∧ TopTrue s' :=
  ⟨fun h => h.script, fun h => ⟨h, fun h => by cases h⟩⟩

/-- ... and of outputs that BIP 16 says nothing about. -/
theorem spends_other {L : Lang} {t : CTransaction} {i : Nat} {b : Bool} {ss sp : Bytes} (h : sp.length ≠ 23) :
    Spends L t i b ss sp ↔ ∃ s s', Evals L t i ss [] s ∧ Evals L t i sp s s' ∧ TopTrue s' :=
  ⟨fun h => h.script, fun h' => ⟨h', fun _ x hx e => absurd (by rw [e, scriptHash_length hx]) h⟩⟩

theorem ff_false : ¬ Truthy (here C num hn).ff := by
  show ¬ Truthy [0x00#8]
  decide

/-! ## C93: pay to script hash -/

/-- The flag exported by either module makes `VerifyScript` follow BIP 16. -/
def C93_statement : Prop := ∀ (C : Crypto) (t : CTransaction) (i : Nat) (ss sp : Bytes) (f : Flag), TxFits t → f = .p2sh ∨ f = .scriptP2sh →
  verifyScript C ss sp t i [f] = .ok () → Spends (here C shortNum shortNum_spec) t i true ss sp

/-- With the flag of scripteval.py, who spends an output for a script hash shows a script with that hash and satisfies it, by pushes. -/
theorem C93_p2sh_partial {t : CTransaction} (ht : TxFits t) (i : Nat) {h : Bytes} (hl : h.length = 20) (ss : Bytes) (flags : List Flag) (hf : Flag.p2sh ∈ flags) :
    verifyScript C ss (scriptOf (scriptHashToks h)) t i flags = .ok () ↔
    (∃ ts, WFToks ts ∧ ss = scriptOf ts ∧ ∀ u ∈ ts, u.isPush = true) ∧
    ∃ r s s', Evals (here C num hn) t i ss [] (r :: s) ∧ s.length ≤ 999 ∧ C.H.ripemd160 (C.H.sha256 r) = h ∧ Evals (here C num hn) t i r s s' ∧ TopTrue s' := by
  rw [(C92_verify (num := num) (hn := hn) ht i ss _ flags).1]
  have hd : decide (Flag.p2sh ∈ flags) = true := by simpa using hf
  have uniq : ∀ {a b}, Evals (here C num hn) t i ss [] a → Evals (here C num hn) t i ss [] b → a = b := by
    intro a b ha hb
    rcases C89_total (C := C) (num := num) (hn := hn) ht i (s := []) (by decide) (fun _ h => by cases h) ss with ⟨s1, e1, u1⟩ | ⟨e1, u1⟩
    · rw [(u1 a).mp ha, (u1 b).mp hb]
    · exact absurd ha (u1 a)
  constructor
  · intro hh
    obtain ⟨h1, r, s, s', h2, h3, h4⟩ := hh.redeem hd h hl rfl
    obtain ⟨a, a', g1, g2, g3⟩ := hh.script
    rw [uniq g1 h2] at g2
    obtain ⟨x, y, e, e2, rfl⟩ := (evals_scriptHash rfl hl).mp g2
    obtain ⟨rfl, rfl⟩ := List.cons.inj e
    obtain ⟨v, w, e3, e4⟩ := g3
    obtain ⟨rfl, rfl⟩ := List.cons.inj e3
    exact ⟨h1, r, s, s', h2, e2, (truthy_bool ff_false _).mp e4, h3, h4⟩
  · rintro ⟨h1, r, s, s', h2, h3, h4, h5, h6⟩
    refine ⟨⟨r :: s, _, h2, (evals_scriptHash rfl hl).mpr ⟨r, s, rfl, h3, rfl⟩, _, _, rfl, (truthy_bool ff_false _).mpr h4⟩, fun _ h' hl' e => ⟨h1, r, s, s', h2, h5, h6⟩⟩

/-- Only one script can be shown, if hashes do not collide. -/
theorem C93_binding_partial {t t' : CTransaction} (ht : TxFits t) (ht' : TxFits t') (i i' : Nat) {h : Bytes} (hl : h.length = 20) (ss ss' : Bytes)
    (h1 : verifyScript C ss (scriptOf (scriptHashToks h)) t i [.p2sh] = .ok ()) (h2 : verifyScript C ss' (scriptOf (scriptHashToks h)) t' i' [.p2sh] = .ok ()) :
    ∃ r s r' s', Evals (here C num hn) t i ss [] (r :: s) ∧ Evals (here C num hn) t' i' ss' [] (r' :: s') ∧
      (CollisionFree (fun m => C.H.ripemd160 (C.H.sha256 m)) [r, r'] → r = r') := by
  obtain ⟨_, r, s, _, a1, _, a2, _⟩ := (C93_p2sh_partial (num := num) (hn := hn) ht i hl ss _ (by simp)).mp h1
  obtain ⟨_, r', s', _, b1, _, b2, _⟩ := (C93_p2sh_partial (num := num) (hn := hn) ht' i' hl ss' _ (by simp)).mp h2
  exact ⟨r, s, r', s', a1, b1, fun hc => hc r (by simp) r' (by simp) (a2.trans b2.symm)⟩

/-! ## C94: pay to public key hash -/

/-- An output for a key hash is spent exactly by a scriptSig that leaves a signature of what is to be signed and on top of it the key with that hash. -/
theorem C94_accepts {t : CTransaction} (ht : TxFits t) (i : Nat) {h : Bytes} (hl : h.length = 20) (ss : Bytes) (flags : List Flag) :
    verifyScript C ss (scriptOf (keyHashToks h)) t i flags = .ok () ↔
    ∃ key sig r, Evals (here C num hn) t i ss [] (key :: sig :: r) ∧ r.length ≤ 997 ∧ C.H.ripemd160 (C.H.sha256 key) = h ∧
      goodSig C t i (without [sig] (keyHashToks h)) sig key = true := by
  rw [(C92_verify (num := num) (hn := hn) ht i ss _ flags).1, spends_other (by rw [keyHash_length hl]; decide)]
  constructor
  · rintro ⟨s, s', h1, h2, h3⟩
    obtain ⟨key, sig, r, rfl, hr, hh, rfl⟩ := (evals_keyHash rfl hl).mp h2
    obtain ⟨v, w, e3, e4⟩ := h3
    obtain ⟨rfl, rfl⟩ := List.cons.inj e3
    exact ⟨key, sig, r, h1, hr, hh, (truthy_bool ff_false _).mp e4⟩
  · rintro ⟨key, sig, r, h1, hr, hh, h2⟩
    exact ⟨_, _, h1, (evals_keyHash rfl hl).mpr ⟨key, sig, r, rfl, hr, hh, rfl⟩, _, _, rfl, (truthy_bool ff_false _).mpr h2⟩

/-- In particular, pushes of a signature and a key. -/
theorem C94_pushes {t : CTransaction} (ht : TxFits t) (i : Nat) {h : Bytes} (hl : h.length = 20) {sig key : Bytes} (hs : sig.length ≤ 520) (hk : key.length ≤ 520) (flags : List Flag) :
    verifyScript C (scriptOf [.push (shortest sig) sig, .push (shortest key) key]) (scriptOf (keyHashToks h)) t i flags = .ok () ↔
    C.H.ripemd160 (C.H.sha256 key) = h ∧ goodSig C t i (without [sig] (keyHashToks h)) sig key = true := by
  rw [C94_accepts (num := shortNum) (hn := shortNum_spec) ht i hl]
  have hle : ∀ d ∈ [sig, key], d.length ≤ 520 := by
    intro d hd
    simp only [List.mem_cons, List.not_mem_nil, or_false] at hd
    rcases hd with rfl | rfl <;> assumption
  have e : ∀ s', Evals (here C shortNum shortNum_spec) t i (scriptOf [.push (shortest sig) sig, .push (shortest key) key]) [] s' ↔ s' = [key, sig] := fun s' =>
    evals_pushes (l := [sig, key]) rfl hle (by have := pushToks_length hle; simp only [List.length_cons, List.length_nil] at this; omega)
  constructor
  · rintro ⟨k, g, r, h1, _, h2, h3⟩
    have := (e _).mp h1
    simp only [List.cons.injEq] at this
    obtain ⟨rfl, rfl, rfl⟩ := this
    exact ⟨h2, h3⟩
  · rintro ⟨h1, h2⟩
    exact ⟨key, sig, [], (e _).mpr rfl, by decide, h1, h2⟩

/-! ## C95: signatures of m of n keys -/

/-- A subset of the keys in the order in which they are written. -/
theorem matching_reverse {good : Bytes → Bytes → Bool} {sigs keys : List Bytes} : matching good sigs.reverse keys.reverse = true ↔
    ∃ ks, ks.Sublist keys ∧ ks.length = sigs.length ∧ ∀ p ∈ sigs.zip ks, good p.1 p.2 = true := by
  rw [matching_iff]
  have zr : ∀ {a b : List Bytes}, a.length = b.length → a.reverse.zip b.reverse = (a.zip b).reverse := by
    intro a
    induction a with
    | nil => intro b h; rfl
    | cons x a ih =>
      rintro (_ | ⟨y, b⟩) h
      · cases h
      · have h : a.length = b.length := by simpa using h
        rw [List.reverse_cons, List.reverse_cons, List.zip_append (by simpa using h), ih h]
        simp
  constructor
  · rintro ⟨ks, h1, h2, h3⟩
    refine ⟨ks.reverse, by have := h1.reverse; rwa [List.reverse_reverse] at this, by simpa using h2, fun p hp => h3 p ?_⟩
    have := zr (a := sigs) (b := ks.reverse) (by simpa using h2.symm)
    rw [List.reverse_reverse] at this
    rw [this, List.mem_reverse]
    exact hp
  · rintro ⟨ks, h1, h2, h3⟩
    refine ⟨ks.reverse, h1.reverse, by simpa using h2, fun p hp => h3 p ?_⟩
    rw [zr h2.symm, List.mem_reverse] at hp
    exact hp

/-- An output for `m` of some keys is spent exactly by a scriptSig that leaves `m` signatures (and one value below them that is ignored), which belong to `m`
of the keys, in the same order. -/
theorem C95_accepts {t : CTransaction} (ht : TxFits t) (i : Nat) {m : Nat} {keys : List Bytes} (hm : 1 ≤ m) (hmn : m ≤ keys.length) (hn' : keys.length ≤ 16)
    (hk : ∀ k ∈ keys, k.length ≤ 520) (h23 : (scriptOf (multisigToks m keys)).length ≠ 23) (ss : Bytes) (flags : List Flag) :
    verifyScript C ss (scriptOf (multisigToks m keys)) t i flags = .ok () ↔
    ∃ sigs x r ks, sigs.length = m ∧ Evals (here C num hn) t i ss [] (sigs.reverse ++ x :: r) ∧ m + 1 + r.length + keys.length + 2 ≤ 1000 ∧
      ks.Sublist keys ∧ ks.length = m ∧ ∀ p ∈ sigs.zip ks, goodSig C t i (without sigs (multisigToks m keys)) p.1 p.2 = true := by
  rw [(C92_verify (num := num) (hn := hn) ht i ss _ flags).1, spends_other h23]
  have wr : ∀ sigs code, without sigs.reverse code = without sigs code := by
    intro sigs code
    unfold without
    simp
  constructor
  · rintro ⟨s, s', h1, h2, h3⟩
    obtain ⟨g1, g2, rfl⟩ := (evals_multisig rfl hm hmn hn' hk).mp h2
    obtain ⟨v, w, e3, e4⟩ := h3
    obtain ⟨rfl, rfl⟩ := List.cons.inj e3
    have e4 := (truthy_bool ff_false _).mp e4
    have ht1 : (s.take m).length = m := by rw [List.length_take]; omega
    rcases hd : s.drop m with _ | ⟨x, r⟩
    · have := congrArg List.length hd
      rw [List.length_drop, List.length_nil] at this
      omega
    · have e5 : s = (s.take m).reverse.reverse ++ x :: r := by rw [List.reverse_reverse, ← hd, List.take_append_drop]
      rw [← List.reverse_reverse (s.take m), matching_reverse] at e4
      obtain ⟨ks, k1, k2, k3⟩ := e4
      have hdl := congrArg List.length hd
      rw [List.length_drop, List.length_cons] at hdl
      refine ⟨(s.take m).reverse, x, r, ks, by simpa using g1 |> fun h => by omega, by rw [← e5]; exact h1, by omega, k1, by rw [k2, List.length_reverse, ht1], fun p hp => ?_⟩
      have := k3 p hp
      rw [List.reverse_reverse] at this
      rw [wr]
      exact this
  · rintro ⟨sigs, x, r, ks, hl, h1, h2, k1, k2, k3⟩
    have ht1 : (sigs.reverse ++ x :: r).take m = sigs.reverse := by rw [List.take_append_of_le_length (by simp [hl]), List.take_of_length_le (by simp [hl])]
    refine ⟨_, _, h1, (evals_multisig rfl hm hmn hn' hk).mpr ⟨by simp [hl], by simp [hl]; omega, rfl⟩, _, _, rfl, (truthy_bool ff_false _).mpr ?_⟩
    rw [ht1, matching_reverse, wr]
    exact ⟨ks, k1, by rw [k2, hl], k3⟩

/-- In particular, pushes of the signatures. -/
theorem C95_pushes {t : CTransaction} (ht : TxFits t) (i : Nat) {m : Nat} {keys sigs : List Bytes} (hm : 1 ≤ m) (hmn : m ≤ keys.length) (hn' : keys.length ≤ 16)
    (hk : ∀ k ∈ keys, k.length ≤ 520) (h23 : (scriptOf (multisigToks m keys)).length ≠ 23) (hs : ∀ g ∈ sigs, g.length ≤ 520) (hl : sigs.length = m) (flags : List Flag) :
    verifyScript C (scriptOf (.push .direct [] :: sigs.map fun g => .push (shortest g) g)) (scriptOf (multisigToks m keys)) t i flags = .ok () ↔
    ∃ ks, ks.Sublist keys ∧ ks.length = m ∧ ∀ p ∈ sigs.zip ks, goodSig C t i (without sigs (multisigToks m keys)) p.1 p.2 = true := by
  rw [C95_accepts (num := shortNum) (hn := shortNum_spec) ht i hm hmn hn' hk h23]
  have hle : ∀ d ∈ [] :: sigs, d.length ≤ 520 := by
    intro d hd
    rcases List.mem_cons.mp hd with rfl | hd
    · decide
    · exact hs d hd
  have e : ∀ s', Evals (here C shortNum shortNum_spec) t i (scriptOf (.push .direct [] :: sigs.map fun g => .push (shortest g) g)) [] s' ↔ s' = sigs.reverse ++ [[]] := by
    intro s'
    have := evals_pushes (L := here C shortNum shortNum_spec) (t := t) (i := i) (l := [] :: sigs) (s := []) (s' := s') rfl hle
      (by have := pushToks_length hle; simp only [List.length_cons] at this; omega)
    rw [List.reverse_cons, List.append_nil] at this
    exact this
  constructor
  · rintro ⟨g, x, r, ks, h1, h2, _, h3⟩
    have h2 := (e _).mp h2
    have hg : g.reverse = sigs.reverse := List.append_inj_left h2 (by simp [h1, hl])
    rw [List.reverse_inj.mp hg] at h3
    exact ⟨ks, h3⟩
  · rintro ⟨ks, h⟩
    exact ⟨sigs, [], [], ks, hl, (e _).mpr rfl, by simp; omega, h⟩

/-! ## C96: outputs that can not be spent -/

/-- An output whose script begins with 0x6a (OP_RETURN) can not be spent, whatever comes after. -/
theorem C96_return {t : CTransaction} (ht : TxFits t) (i : Nat) (ss rest : Bytes) (flags : List Flag) : verifyScript C ss (0x6a#8 :: rest) t i flags ≠ .ok () := by
  intro h
  have h := (C92_verify (num := shortNum) (hn := shortNum_spec) ht i ss _ flags).1.mp h
  obtain ⟨s, s', _, ⟨p, hw, e, he⟩, _⟩ := h.script
  rcases p with _ | ⟨u, r⟩ | r | ⟨neg, b, r⟩
  · cases e
  · have hu : u = .op 0x6a#8 := by
      rw [Prog.toks, scriptOf_cons] at e
      have hok := hw.1
      have e' : (Tok.op 0x6a#8).bytes ++ rest = u.bytes ++ scriptOf r.toks := e
      exact (tok_append_inj (t := .op 0x6a#8) (by decide) hok e').1.symm
    subst hu
    unfold Prog.eval at he
    split at he
    · rw [Prog.run] at he
      have hz : ∀ st, perform (here C shortNum shortNum_spec) t i (r.toks ++ []) st (.op 0x6a#8) = none := fun _ => rfl
      simp only [hz, Bool.and_self, if_true, Option.bind_eq_bind, Option.bind_none, tick, Bool.and_true] at he
      split at he
      · cases he
      · split at he
        · cases he
        · split at he <;> cases he
    · cases he
  · cases hw.1
  · rw [Prog.toks, scriptOf_cons] at e
    cases neg <;> cases e

/-- C96: the outputs for which `is_unspendable` is true. -/
theorem C96_unspendable {t : CTransaction} (ht : TxFits t) (i : Nat) (ss spk : Bytes) (flags : List Flag) (h : isUnspendable spk = true) :
    verifyScript C ss spk t i flags ≠ .ok () ∧ ∃ rest, spk = 0x6a#8 :: rest := by
  cases spk with
  | nil => simp [isUnspendable] at h
  | cons x rest =>
    have : x = 0x6a#8 := by simpa [isUnspendable, OP_RETURN] using h
    subst this
    exact ⟨C96_return ht i ss rest flags, rest, rfl⟩

example : isUnspendable [0x6a#8, 0x01#8, 0x07#8] = true ∧ isUnspendable [0x51#8, 0x6a#8] = false ∧ isUnspendable [] = false := by decide

/-! ## C97: VerifySignature -/

/-- An input is accepted only if it satisfies the output according to the current rules, those of BIP 16 included. -/
def C97_statement : Prop := ∀ (C : Crypto) (a t : CTransaction) (i : Nat), TxFits a → TxFits t → verifySignature C a t i = .ok () →
  ∃ x o, t.vin[i]? = some x ∧ a.vout[x.prevout.n.toNat]? = some o ∧ Spends (here C shortNum shortNum_spec) t i true x.scriptSig o.scriptPubKey

/-- The input exists, refers to an output of the other transaction by its hash, and spends it, leaving BIP 16 aside. -/
theorem C97_exact_partial {a t : CTransaction} (ht : TxFits t) (i : Int) :
    verifySignature C a t i = .ok () ↔ 0 ≤ i ∧ ∃ x o e, t.vin[i.toNat]? = some x ∧ 0 ≤ x.prevout.n ∧ a.vout[x.prevout.n.toNat]? = some o ∧
      a.ser = .ok e ∧ x.prevout.hash = C.H.sha256 (C.H.sha256 e) ∧ Spends (here C num hn) t i.toNat false x.scriptSig o.scriptPubKey := by
  unfold verifySignature
  by_cases h0 : i < 0
  · rw [if_pos h0]
    exact ⟨(fun h => nomatch h), fun h => by omega⟩
  · rw [if_neg h0]
    have hi : ((i.toNat : Nat) : Int) = i := Int.toNat_of_nonneg (by omega)
    rcases hx : t.vin[i.toNat]? with _ | x
    · exact ⟨(fun h => nomatch h), fun ⟨_, _, _, _, h, _⟩ => by cases h⟩
    · simp only
      by_cases h1 : x.prevout.n < 0
      · rw [if_pos h1]
        exact ⟨(fun h => nomatch h), fun ⟨_, x', _, _, h, h', _⟩ => by cases h; omega⟩
      · rw [if_neg h1]
        rcases ho : a.vout[x.prevout.n.toNat]? with _ | o
        · exact ⟨(fun h => nomatch h), fun ⟨_, x', o', _, h, _, h', _⟩ => by cases h; rw [ho] at h'; cases h'⟩
        · simp only
          rw [bind_ok_iff]
          constructor
          · rintro ⟨d, hd, h⟩
            obtain ⟨e, he, rfl⟩ := getHash_iff.mp hd
            by_cases h2 : x.prevout.hash ≠ C.H.hash256 e
            · rw [if_pos h2] at h; cases h
            · rw [if_neg h2] at h
              rw [← hi] at h
              have := (C92_verify (num := num) (hn := hn) ht _ _ _ _).1.mp h
              exact ⟨by omega, x, o, e, rfl, by omega, ho, he, Classical.not_not.mp h2, by simpa using this⟩
          · rintro ⟨_, x', o', e, h2, _, h3, h4, h5, h6⟩
            cases h2
            rw [ho] at h3
            cases h3
            refine ⟨_, getHash_iff.mpr ⟨e, h4, rfl⟩, ?_⟩
            rw [if_neg (fun h => h h5), ← hi]
            exact (C92_verify (num := num) (hn := hn) ht _ _ _ _).1.mpr (by simpa using h6)

/-! ## C90: agreement with the Satoshi client -/

/-- Without flags, `VerifyScript` accepts what the Satoshi client accepts. -/
def C90_statement : Prop := ∀ (C : Crypto) (t : CTransaction) (i : Nat) (ss sp : Bytes), TxFits t →
  (verifyScript C ss sp t i [] = .ok () ↔ Spends (satoshi C shortNum shortNum_spec) t i false ss sp)

theorem RS.top {c : Bool} : ∀ {s s' : List Bytes}, RS c s s' → (TopTrue s ↔ TopTrue s')
  | [], [], _ => Iff.rfl
  | x :: s, y :: s', h => by
    constructor
    · rintro ⟨_, _, e, h'⟩
      cases e
      exact ⟨y, s', rfl, h.1.truthy.mp h'⟩
    · rintro ⟨_, _, e, h'⟩
      cases e
      exact ⟨x, s, rfl, h.1.truthy.mpr h'⟩
  | [], _ :: _, h => h.elim
  | _ :: _, [], h => h.elim

theorem evals_rel {t : CTransaction} {i : Nat} {ts : List Tok} (hw : WFToks ts) {c : Bool} {s s' : List Bytes} (hs : NeverSeen c ts) (h : RS c s s') (hl : s.length + 3 * ts.length ≤ 1000) :
    (∀ a, Evals (here C num hn) t i (scriptOf ts) s a → ∃ b, Evals (satoshi C num hn) t i (scriptOf ts) s' b ∧ RS (seen c ts) a b ∧ a.length ≤ s.length + 3 * ts.length) ∧
    (∀ b, Evals (satoshi C num hn) t i (scriptOf ts) s' b → ∃ a, Evals (here C num hn) t i (scriptOf ts) s a ∧ RS (seen c ts) a b ∧ a.length ≤ s.length + 3 * ts.length) := by
  constructor
  · rintro a ⟨p, h1, h2, h3⟩
    have e := scriptOf_inj hw (Prog.toks_wf h1) h2
    rw [e] at hs hl
    have := eval_rel (C := C) (num := num) (hn := hn) (t := t) (i := i) hs h hl
    rw [h3] at this
    rcases hb : p.eval (satoshi C num hn) t i s' with _ | b <;> rw [hb] at this
    · exact this.elim
    · rw [e]
      exact ⟨b, ⟨p, h1, rfl, hb⟩, this⟩
  · rintro b ⟨p, h1, h2, h3⟩
    have e := scriptOf_inj hw (Prog.toks_wf h1) h2
    rw [e] at hs hl
    have := eval_rel (C := C) (num := num) (hn := hn) (t := t) (i := i) hs h hl
    rw [h3] at this
    rcases hb : p.eval (here C num hn) t i s with _ | a <;> rw [hb] at this
    · exact this.elim
    · rw [e]
      exact ⟨a, ⟨p, h1, rfl, hb⟩, this⟩

theorem seen_pushes : ∀ {ts : List Tok}, (∀ u ∈ ts, u.isPush = true) → seen false ts = false
  | [], _ => rfl
  | u :: ts, h => by
    have hu : u.makesTruth = false := by
      have := h u (by simp)
      rcases u with o | ⟨e, d⟩
      · have key : ∀ o : Byte, (Tok.op o).isPush = true → (Tok.op o).makesTruth = false := by decide
        exact key o this
      · unfold Tok.makesTruth
        simp
    rw [seen_cons, hu]
    exact seen_pushes (fun u hu => h u (List.mem_cons_of_mem _ hu))

/-- `VerifyScript` does agree with the Satoshi client on scripts in which no operation that sees the bytes of values comes after one that leaves a truth value,
and which are too short to leave more than 1000 values; for script hashes, if this is also so of the script shown.
The usual outputs for key hashes, script hashes, and multiple signatures are such scripts. -/
theorem C90_agree_partial {t : CTransaction} (ht : TxFits t) (i : Nat) {tss tsp : List Tok} (hw : WFToks tss) (hw' : WFToks tsp) (flags : List Flag) (hs : NeverSeen false (tss ++ tsp))
    (hl : 3 * (tss.length + tsp.length) ≤ 1000)
    (hr : ∀ r s tr, Evals (here C num hn) t i (scriptOf tss) [] (r :: s) → WFToks tr → r = scriptOf tr → NeverSeen false tr ∧ 3 * (tss.length + tr.length) ≤ 1000) :
    verifyScript C (scriptOf tss) (scriptOf tsp) t i flags = .ok () ↔ Spends (satoshi C num hn) t i (decide (Flag.p2sh ∈ flags)) (scriptOf tss) (scriptOf tsp) := by
  rw [(C92_verify (num := num) (hn := hn) ht i _ _ flags).1]
  obtain ⟨hs1, hs2⟩ := NeverSeen.append.mp hs
  obtain ⟨f1, f2⟩ := evals_rel (C := C) (num := num) (hn := hn) (t := t) (i := i) hw hs1 (RS.refl false []) (by simp only [List.length_nil]; omega)
  simp only [List.length_nil] at f1 f2
  have uniq : ∀ {a b}, Evals (here C num hn) t i (scriptOf tss) [] a → Evals (here C num hn) t i (scriptOf tss) [] b → a = b := by
    intro a b ha hb
    rcases C89_total (C := C) (num := num) (hn := hn) ht i (s := []) (by decide) (fun _ h => by cases h) (scriptOf tss) with ⟨s1, e1, u1⟩ | ⟨e1, u1⟩
    · rw [(u1 a).mp ha, (u1 b).mp hb]
    · exact absurd ha (u1 a)
  have redeem : (∀ u ∈ tss, u.isPush = true) →
      ((∃ r s s', Evals (here C num hn) t i (scriptOf tss) [] (r :: s) ∧ Evals (here C num hn) t i r s s' ∧ TopTrue s') ↔
       ∃ r s s', Evals (satoshi C num hn) t i (scriptOf tss) [] (r :: s) ∧ Evals (satoshi C num hn) t i r s s' ∧ TopTrue s') := by
    intro hp
    rw [seen_pushes hp] at f1 f2
    constructor
    · rintro ⟨r, s, s', h1, ⟨p, p1, p2, p3⟩, h3⟩
      obtain ⟨b, b1, b2, b3⟩ := f1 _ h1
      cases b2.eq
      obtain ⟨q1, q2⟩ := hr r s p.toks h1 (Prog.toks_wf p1) p2
      rw [List.length_cons] at b3
      obtain ⟨g1, _⟩ := evals_rel (C := C) (num := num) (hn := hn) (t := t) (i := i) (Prog.toks_wf p1) q1 (RS.refl false s) (by omega)
      obtain ⟨b', c1, c2, _⟩ := g1 s' ⟨p, p1, rfl, p3⟩
      exact ⟨r, s, b', b1, p2 ▸ c1, c2.top.mp h3⟩
    · rintro ⟨r, s, s', h1, ⟨p, p1, p2, p3⟩, h3⟩
      obtain ⟨b, b1, b2, b3⟩ := f2 _ h1
      cases b2.eq
      obtain ⟨q1, q2⟩ := hr r s p.toks b1 (Prog.toks_wf p1) p2
      rw [List.length_cons] at b3
      obtain ⟨_, g1⟩ := evals_rel (C := C) (num := num) (hn := hn) (t := t) (i := i) (Prog.toks_wf p1) q1 (RS.refl false s) (by omega)
      obtain ⟨b', c1, c2, _⟩ := g1 s' ⟨p, p1, rfl, p3⟩
      exact ⟨r, s, b', b1, p2 ▸ c1, c2.top.mpr h3⟩
  constructor
  · intro h
    constructor
    · obtain ⟨s, s', h1, h2, h3⟩ := h.script
      obtain ⟨b, b1, b2, b3⟩ := f1 _ h1
      obtain ⟨g1, _⟩ := evals_rel (C := C) (num := num) (hn := hn) (t := t) (i := i) hw' hs2 b2 (by omega)
      obtain ⟨b', c1, c2, _⟩ := g1 s' h2
      exact ⟨b, b', b1, c1, c2.top.mp h3⟩
    · intro hp x hx e
      obtain ⟨⟨ts, t1, t2, t3⟩, h2⟩ := h.redeem hp x hx e
      have e2 := scriptOf_inj hw t1 t2
      exact ⟨⟨ts, t1, t2, t3⟩, (redeem (e2 ▸ t3)).mp h2⟩
  · intro h
    constructor
    · obtain ⟨s, s', h1, h2, h3⟩ := h.script
      obtain ⟨b, b1, b2, b3⟩ := f2 _ h1
      obtain ⟨_, g1⟩ := evals_rel (C := C) (num := num) (hn := hn) (t := t) (i := i) hw' hs2 b2 (by omega)
      obtain ⟨b', c1, c2, _⟩ := g1 s' h2
      exact ⟨b, b', b1, c1, c2.top.mpr h3⟩
    · intro hp x hx e
      obtain ⟨⟨ts, t1, t2, t3⟩, h2⟩ := h.redeem hp x hx e
      have e2 := scriptOf_inj hw t1 t2
      exact ⟨⟨ts, t1, t2, t3⟩, (redeem (e2 ▸ t3)).mpr h2⟩

end

/-! ## Examples and counterexamples -/

namespace Ex

/-- Real hashes but SHA-1; a signature is the key followed by the hash. -/
def cr : Crypto := ⟨realHash, fun _ => List.replicate 20 0x00#8, fun _ => rfl, fun key h sig => sig == key ++ h⟩

/-- A transaction. -/
def tx : CTransaction := ⟨1, [⟨⟨List.replicate 32 0x07#8, 0⟩, [], 0xffffffff⟩], [⟨50, [0x51#8]⟩], 0⟩

theorem tx_fits : TxFits tx := ⟨by decide, by decide, by decide, by decide, by decide, by decide⟩

/-- The language of the Satoshi client. -/
abbrev sat : Lang := satoshi cr shortNum shortNum_spec
/-- The language of this library. -/
abbrev our : Lang := here cr shortNum shortNum_spec

-- C89: IF 2 ELSE 3 ENDIF ADD, with 1 on the stack above 5; unbalanced; not a script
example : evalScript cr [[0x05#8], [0x01#8]] [0x63#8, 0x52#8, 0x67#8, 0x53#8, 0x68#8, 0x93#8] tx 0 = .ok [[0x07#8]] := by decide +kernel
example : (Prog.cond false (.op (.op 0x52#8) (.els (.op (.op 0x53#8) .done))) (.op (.op 0x93#8) .done)).eval our tx 0 [[0x01#8], [0x05#8]] = some [[0x07#8]] := by decide +kernel
example : evalScript cr [[0x01#8]] [0x63#8, 0x51#8] tx 0 = .error .evalScript ∧ evalScript cr [] [0x51#8, 0x02#8, 0xff#8] tx 0 = .error .evalScript := by decide +kernel

end Ex

/-- 1001 zeros. -/
theorem C91_refuted : ¬ C91_statement := by
  intro h
  have := h Ex.cr Ex.tx 0 (scriptOf (pushToks (List.replicate 1001 []))) (List.replicate 1001 []) Ex.tx_fits ?_
  · rw [List.length_replicate] at this
    omega
  · have hle : ∀ d ∈ List.replicate 1001 ([] : Bytes), d.length ≤ 520 := fun d hd => by rw [(List.mem_replicate.mp hd).2]; decide
    have e := (evals_pushes (L := Ex.our) (t := Ex.tx) (i := 0) (s := []) (s' := List.replicate 1001 []) rfl hle (by decide +kernel)).mpr (by rw [List.reverse_replicate, List.append_nil])
    have := ((C89_eval Ex.tx_fits 0 (s := []) (by decide) (fun _ h => by cases h) _).1 _).mpr e
    rw [List.reverse_replicate] at this
    exact this

/-- 0 1 EQUAL SIZE NOT is true for the Satoshi client, for which false is the empty string, but not here. -/
theorem C90_refuted : ¬ C90_statement := by
  intro h
  have h1 := (h Ex.cr Ex.tx 0 [] [0x00#8, 0x51#8, 0x87#8, 0x82#8, 0x91#8] Ex.tx_fits).mpr (spends_false.mpr
    ⟨[], [[0x01#8], []], ⟨.done, trivial, rfl, rfl⟩, ⟨line [.push .direct [], .op 0x51#8, .op 0x87#8, .op 0x82#8, .op 0x91#8], line_wf (by decide)
      (by unfold IsCond; decide), by decide, by decide +kernel⟩, _, _, rfl, by decide⟩)
  have h2 : verifyScript Ex.cr [] [0x00#8, 0x51#8, 0x87#8, 0x82#8, 0x91#8] Ex.tx 0 [] = .error .validation := by decide +kernel
  rw [show ((0 : Nat) : Int) = 0 from rfl, h2] at h1
  cases h1

/-- The other direction fails too: after 1001 zeros, a push of 1 is accepted here. -/
theorem C90_refuted_other : ¬ ∀ (C : Crypto) (t : CTransaction) (i : Nat) (ss sp : Bytes), TxFits t → verifyScript C ss sp t i [] = .ok () →
    Spends (satoshi C shortNum shortNum_spec) t i false ss sp := by
  intro h
  have hle : ∀ d ∈ List.replicate 1001 ([] : Bytes), d.length ≤ 520 := fun d hd => by rw [(List.mem_replicate.mp hd).2]; decide
  have e1 := (evals_pushes (L := Ex.our) (t := Ex.tx) (i := 0) (s := []) (s' := List.replicate 1001 []) rfl hle (by decide +kernel)).mpr (by rw [List.reverse_replicate, List.append_nil])
  have e2 := (evals_pushes (L := Ex.our) (t := Ex.tx) (i := 0) (l := [[0x01#8]]) (s := List.replicate 1001 []) (s' := [0x01#8] :: List.replicate 1001 []) rfl (by decide) (by decide)).mpr rfl
  have h1 := h Ex.cr Ex.tx 0 (scriptOf (pushToks (List.replicate 1001 []))) (scriptOf (pushToks [[0x01#8]])) Ex.tx_fits
    ((C92_verify Ex.tx_fits 0 _ _ []).1.mpr (spends_false.mpr ⟨_, _, e1, e2, _, _, rfl, by decide⟩))
  obtain ⟨s, s', h1, _⟩ := h1.script
  rw [evals_line (pushToks_wf hle) pushToks_line] at h1
  have : (line (pushToks (List.replicate 1001 []))).eval Ex.sat Ex.tx 0 [] = none := by decide +kernel
  rw [this] at h1
  cases h1

/-- A script hash of the script 0, which nobody should be able to satisfy. -/
theorem C93_refuted : ¬ C93_statement := by
  intro h
  have h1 := h Ex.cr Ex.tx 0 [0x01#8, 0x00#8] (scriptOf (scriptHashToks (Ex.cr.H.ripemd160 (Ex.cr.H.sha256 [0x00#8])))) .scriptP2sh Ex.tx_fits (.inr rfl) (by decide +kernel)
  have h2 := (C92_verify Ex.tx_fits 0 _ _ [.p2sh]).1.mpr h1
  have h3 : verifyScript Ex.cr [0x01#8, 0x00#8] (scriptOf (scriptHashToks (Ex.cr.H.ripemd160 (Ex.cr.H.sha256 [0x00#8])))) Ex.tx 0 [.p2sh] = .error .validation := by decide +kernel
  rw [show ((0 : Nat) : Int) = 0 from rfl, h3] at h2
  cases h2

namespace Ex

/-- A transaction with an output for the hash of the script 0. -/
def from_ : CTransaction := ⟨1, [], [⟨50, scriptOf (scriptHashToks (cr.H.ripemd160 (cr.H.sha256 [0x00#8])))⟩], 0⟩

/-- One that spends it. -/
def to_ : CTransaction := ⟨1, [⟨⟨((from_.getHash cr.H).toOption).getD [], 0⟩, [0x01#8, 0x00#8], 0xffffffff⟩], [⟨50, [0x51#8]⟩], 0⟩

theorem from_fits : TxFits from_ := ⟨by decide, by decide, by decide, by decide +kernel, by decide, by decide⟩
theorem to_fits : TxFits to_ := ⟨by decide +kernel, by decide, by decide, by decide, by decide, by decide⟩

end Ex

/-- `VerifySignature` passes no flags. -/
theorem C97_refuted : ¬ C97_statement := by
  intro h
  obtain ⟨x, o, h1, h2, h3⟩ := h Ex.cr Ex.from_ Ex.to_ 0 Ex.from_fits Ex.to_fits (by decide +kernel)
  have h4 := (C92_verify Ex.to_fits 0 _ _ [.p2sh]).1.mpr h3
  have hx : x = ⟨⟨((Ex.from_.getHash Ex.cr.H).toOption).getD [], 0⟩, [0x01#8, 0x00#8], 0xffffffff⟩ := (Option.some.inj h1).symm
  subst hx
  have ho : o = ⟨50, scriptOf (scriptHashToks (Ex.cr.H.ripemd160 (Ex.cr.H.sha256 [0x00#8])))⟩ := (Option.some.inj h2).symm
  subst ho
  have h5 : verifyScript Ex.cr [0x01#8, 0x00#8] (scriptOf (scriptHashToks (Ex.cr.H.ripemd160 (Ex.cr.H.sha256 [0x00#8])))) Ex.to_ 0 [.p2sh] = .error .validation := by decide +kernel
  have h6 : verifyScript Ex.cr [0x01#8, 0x00#8] (scriptOf (scriptHashToks (Ex.cr.H.ripemd160 (Ex.cr.H.sha256 [0x00#8])))) Ex.to_ 0 [.p2sh] = .ok () := h4
  rw [h5] at h6
  cases h6

namespace Ex

/-- A key, its hash, and a signature of the transaction with it. -/
def key : Bytes := [0x02#8, 0x11#8]
def keyHash : Bytes := cr.H.ripemd160 (cr.H.sha256 key)
def sig : Bytes := key ++ digest cr.H (keyHashToks keyHash) tx 0 1 ++ [0x01#8]

-- C94: the signature is accepted; with another hash type, or for a transaction changed a little, it is not
example : verifyScript cr (scriptOf [.push (shortest sig) sig, .push (shortest key) key]) (scriptOf (keyHashToks keyHash)) tx 0 [] = .ok () :=
  (C94_pushes tx_fits 0 (cr.H.ripemd160_len _) (by decide +kernel) (by decide) []).mpr ⟨rfl, by decide +kernel⟩
example : verifyScript cr (scriptOf [.push (shortest sig) sig, .push (shortest key) key]) (scriptOf (keyHashToks keyHash)) tx 0 [] = .ok () := by decide +kernel
example : verifyScript cr (scriptOf [.push (shortest sig) (sig.dropLast ++ [0x02#8]), .push (shortest key) key]) (scriptOf (keyHashToks keyHash)) tx 0 [] = .error .validation := by decide +kernel
example : verifyScript cr (scriptOf [.push (shortest sig) sig, .push (shortest key) key]) (scriptOf (keyHashToks keyHash)) { tx with nVersion := 2 } 0 [] = .error .validation := by decide +kernel

/-- Three keys, and signatures with two of them. -/
def keys : List Bytes := [[0x02#8, 0x11#8], [0x02#8, 0x22#8], [0x02#8, 0x33#8]]
def sigBy (k : Bytes) : Bytes := k ++ digest cr.H (multisigToks 2 keys) tx 0 1 ++ [0x01#8]

-- C95: the first and the third key, in this order only
example : verifyScript cr (scriptOf (pushToks [[], sigBy [0x02#8, 0x11#8], sigBy [0x02#8, 0x33#8]])) (scriptOf (multisigToks 2 keys)) tx 0 [] = .ok () :=
  (C95_pushes tx_fits 0 (sigs := [sigBy [0x02#8, 0x11#8], sigBy [0x02#8, 0x33#8]]) (by decide) (by decide) (by decide) (by decide) (by decide) (by decide +kernel) rfl []).mpr
    ⟨[[0x02#8, 0x11#8], [0x02#8, 0x33#8]], by decide, by decide, fun p hp => by
      have hp : p ∈ [(sigBy [0x02#8, 0x11#8], ([0x02#8, 0x11#8] : Bytes)), (sigBy [0x02#8, 0x33#8], [0x02#8, 0x33#8])] := hp
      rw [List.mem_cons, List.mem_singleton] at hp
      rcases hp with rfl | rfl <;> decide +kernel⟩
example : verifyScript cr (scriptOf (pushToks [[], sigBy [0x02#8, 0x33#8], sigBy [0x02#8, 0x11#8]])) (scriptOf (multisigToks 2 keys)) tx 0 [] = .error .validation := by decide +kernel

-- C93: a script hash of a script for two of the keys, spent with the flag
example : verifyScript cr (scriptOf (pushToks [[], sigBy [0x02#8, 0x11#8], sigBy [0x02#8, 0x33#8], scriptOf (multisigToks 2 keys)]))
    (scriptOf (scriptHashToks (cr.H.ripemd160 (cr.H.sha256 (scriptOf (multisigToks 2 keys)))))) tx 0 [.p2sh] = .ok () := by decide +kernel

-- C96
example : evalScript cr [[0x01#8]] [0x6a#8, 0x51#8] tx 0 = .error .evalScript := by decide +kernel

-- C97
example : verifySignature cr from_ to_ 0 = .ok () ∧ verifySignature cr from_ to_ 1 = .error .validation ∧ verifySignature cr from_ tx 0 = .error .validation := by decide +kernel

-- C90: the usual outputs
example (h : Bytes) : NeverSeen false (pushToks [key, key] ++ keyHashToks h) ∧ NeverSeen false (pushToks [key] ++ scriptHashToks h) ∧ NeverSeen false (pushToks [[], key, key] ++ multisigToks 2 keys) := by
  simp [NeverSeen, pushToks, keyHashToks, scriptHashToks, multisigToks, keys, numTok, Tok.makesTruth, Tok.seesBytes]

end Ex

end Verif.Btc
