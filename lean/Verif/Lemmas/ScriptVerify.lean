import Verif.Lemmas.ScriptAll
import Verif.Spec.ScriptVerify
/-! # Particular scripts -/
namespace Verif.Btc
open Verif

/-- A program without conditionals. -/
def line : List Tok → Prog
  | [] => .done
  | u :: ts => .op u (line ts)

theorem line_toks : ∀ ts, (line ts).toks = ts
  | [] => rfl
  | u :: ts => by rw [line, Prog.toks, line_toks ts]

theorem line_wf : ∀ {ts : List Tok}, WFToks ts → (∀ u ∈ ts, ¬ IsCond u) → (line ts).WF false
  | [], _, _ => trivial
  | u :: ts, h, hc => by
    have := hc u (by simp)
    refine ⟨h u (by simp), fun h => this (.inl h), fun h => this (.inr (.inl h)), fun h => this (.inr (.inr (.inl h))), fun h => this (.inr (.inr (.inr h))), ?_⟩
    exact line_wf (fun t ht => h t (List.mem_cons_of_mem _ ht)) (fun t ht => hc t (List.mem_cons_of_mem _ ht))

theorem line_of : ∀ {p : Prog} {b : Bool}, p.WF b → (∀ u ∈ p.toks, ¬ IsCond u) → p = line p.toks
  | .done, _, _, _ => rfl
  | .op u r, b, h, hc => by
    rw [Prog.toks, line, ← line_of h.2.2.2.2.2 (fun u hu => hc u (by rw [Prog.toks]; exact List.mem_cons_of_mem _ hu))]
  | .els r, _, _, hc => absurd (.inr (.inr (.inl rfl))) (hc Prog.elseTok (by simp [Prog.toks]))
  | .cond neg b r, _, _, hc => absurd (by cases neg; exact .inl rfl; exact .inr (.inl rfl)) (hc (Prog.ifTok neg) (by simp [Prog.toks]))

theorem evals_line {L : Lang} {t : CTransaction} {i : Nat} {ts : List Tok} (hw : WFToks ts) (hc : ∀ u ∈ ts, ¬ IsCond u) {s s' : List Bytes} :
    Evals L t i (scriptOf ts) s s' ↔ (line ts).eval L t i s = some s' := by
  constructor
  · rintro ⟨p, h1, h2, h3⟩
    have h4 : ts = p.toks := scriptOf_inj hw (Prog.toks_wf h1) h2
    subst h4
    rw [← line_of h1 hc]
    exact h3
  · intro h
    exact ⟨line ts, line_wf hw hc, by rw [line_toks], h⟩

theorem line_eval {L : Lang} {t : CTransaction} {i : Nat} {ts : List Tok} {s : List Bytes} (hl : (scriptOf ts).length ≤ 10000) :
    (line ts).eval L t i s = ((line ts).run L t i [] true true ⟨s, [], 0, ts⟩).map St.main := by
  unfold Prog.eval
  rw [line_toks, if_pos hl]

theorem run_nil {L : Lang} {t : CTransaction} {i : Nat} {st : St} : (line []).run L t i [] true true st = some st := rfl

theorem run_push {L : Lang} (hL : L.strict = false) {t : CTransaction} {i : Nat} {e : PushEnc} {d : Bytes} (hd : d.length ≤ 520) {ts : List Tok} {st : St} :
    (line (.push e d :: ts)).run L t i [] true true st = (line ts).run L t i [] true true { st with main := d :: st.main } := by
  rw [line, Prog.run, tick, if_pos hd]
  simp only [Option.bind_eq_bind, Option.bind_some, Bool.and_self, if_true]
  rw [perform, Option.bind_some, limitAfter, if_neg (by rw [hL]; decide), Option.bind_some]

theorem run_push_none {L : Lang} {t : CTransaction} {i : Nat} {e : PushEnc} {d : Bytes} (hd : ¬ d.length ≤ 520) {ts : List Tok} {st : St} :
    (line (.push e d :: ts)).run L t i [] true true st = none := by
  rw [line, Prog.run, tick, if_neg hd]
  rfl

theorem run_op {L : Lang} {t : CTransaction} {i : Nat} {o : Byte} (hf : ¬ Forbidden o) (ho : 0x60 < o.toNat) {ts : List Tok} {st : St} (hc : st.count < 201) :
    (line (.op o :: ts)).run L t i [] true true st = ((perform L t i ts { st with count := st.count + 1 } (.op o)).bind limit).bind fun st => (line ts).run L t i [] true true st := by
  rw [line, Prog.run, tick, if_neg hf, if_neg (by omega), if_pos hc, line_toks, List.append_nil]
  simp only [Option.bind_eq_bind, Option.bind_some, Bool.and_self, if_true]
  rfl

theorem run_num {L : Lang} {t : CTransaction} {i : Nat} {n : Nat} (h1 : 1 ≤ n) (h16 : n ≤ 16) {ts : List Tok} {st : St} :
    (line (numTok n :: ts)).run L t i [] true true st = (limit { st with main := L.num n :: st.main }).bind fun st => (line ts).run L t i [] true true st := by
  have hn : n = 1 ∨ n = 2 ∨ n = 3 ∨ n = 4 ∨ n = 5 ∨ n = 6 ∨ n = 7 ∨ n = 8 ∨ n = 9 ∨ n = 10 ∨ n = 11 ∨ n = 12 ∨ n = 13 ∨ n = 14 ∨ n = 15 ∨ n = 16 := by omega
  have key : ∀ o : Byte, ¬ Forbidden o → o.toNat ≤ 0x60 → o ≠ 0xae#8 → o ≠ 0xaf#8 → o ≠ 0xac#8 → o ≠ 0xad#8 → o ≠ 0xab#8 → o ≠ 0x6b#8 → o ≠ 0x6c#8 → L.effect o.toNat st.main = some (L.num n :: st.main) →
      (line (.op o :: ts)).run L t i [] true true st = (limit { st with main := L.num n :: st.main }).bind fun st => (line ts).run L t i [] true true st := by
    intro o a1 a2 b1 b2 b3 b4 b5 b6 b7 he
    rw [line, Prog.run, tick, if_neg a1, if_pos a2]
    simp only [Option.bind_eq_bind, Option.bind_some, Bool.and_self, if_true]
    rw [perform, if_neg b1, if_neg b2, if_neg b3, if_neg b4, if_neg b5, if_neg b6, if_neg b7, he]
    rfl
  unfold numTok
  rcases hn with rfl | rfl | rfl | rfl | rfl | rfl | rfl | rfl | rfl | rfl | rfl | rfl | rfl | rfl | rfl | rfl <;>
    exact key _ (by decide) (by decide) (by decide) (by decide) (by decide) (by decide) (by decide) (by decide) (by decide) rfl

theorem limit_none {st : St} (h : ¬ st.main.length + st.alt.length ≤ 1000) : limit st = none := by rw [limit, if_neg h]
theorem limit_ok {st : St} (h : st.main.length + st.alt.length ≤ 1000) : limit st = some st := by rw [limit, if_pos h]

/-! ## Key hashes -/

theorem keyHash_length {h : Bytes} (hl : h.length = 20) : (scriptOf (keyHashToks h)).length = 25 := by
  simp [scriptOf, keyHashToks, Tok.bytes, little, hl]

theorem keyHash_wf {h : Bytes} (hl : h.length = 20) : WFToks (keyHashToks h) := by
  intro u hu
  simp only [keyHashToks, List.mem_cons, List.not_mem_nil, or_false] at hu
  rcases hu with rfl | rfl | rfl | rfl | rfl
  · exact show 0x4e < 0x76 by omega
  · exact show 0x4e < 0xa9 by omega
  · exact show h.length < 0x4c by omega
  · exact show 0x4e < 0x88 by omega
  · exact show 0x4e < 0xac by omega

theorem keyHash_line {h : Bytes} : ∀ u ∈ keyHashToks h, ¬ IsCond u := by
  intro u hu
  simp only [keyHashToks, List.mem_cons, List.not_mem_nil, or_false] at hu
  rcases hu with rfl | rfl | rfl | rfl | rfl <;> unfold IsCond Prog.ifTok Prog.elseTok Prog.endTok <;> simp

/-- Operations on the stack only. -/
def Plain (o : Byte) : Prop :=
  ¬ Forbidden o ∧ 0x60 < o.toNat ∧ o ≠ 0xae#8 ∧ o ≠ 0xaf#8 ∧ o ≠ 0xac#8 ∧ o ≠ 0xad#8 ∧ o ≠ 0xab#8 ∧ o ≠ 0x6b#8 ∧ o ≠ 0x6c#8

instance (o : Byte) : Decidable (Plain o) := by unfold Plain; infer_instance

theorem run_eff {L : Lang} {t : CTransaction} {i : Nat} {o : Byte} (hp : Plain o) {ts code : List Tok} {s a : List Bytes} {n : Nat} (hn : n < 201) :
    (line (.op o :: ts)).run L t i [] true true ⟨s, a, n, code⟩ = match L.effect o.toNat s with
      | none => none
      | some s' => if s'.length + a.length ≤ 1000 then (line ts).run L t i [] true true ⟨s', a, n + 1, code⟩ else none := by
  obtain ⟨hf, ho, b1, b2, b3, b4, b5, b6, b7⟩ := hp
  rw [run_op hf ho hn, perform, if_neg b1, if_neg b2, if_neg b3, if_neg b4, if_neg b5, if_neg b6, if_neg b7]
  rcases L.effect o.toNat s with _ | s'
  · rfl
  · simp only [Option.map_some, Option.bind_some, limit]
    split <;> rfl

theorem evals_keyHash {L : Lang} (hL : L.strict = false) {t : CTransaction} {i : Nat} {h : Bytes} (hl : h.length = 20) {s s' : List Bytes} :
    Evals L t i (scriptOf (keyHashToks h)) s s' ↔ ∃ key sig r, s = key :: sig :: r ∧ r.length ≤ 997 ∧ L.C.H.ripemd160 (L.C.H.sha256 key) = h ∧
      s' = L.bool (goodSig L.C t i (without [sig] (keyHashToks h)) sig key = true) :: r := by
  rw [evals_line (keyHash_wf hl) keyHash_line, line_eval (by rw [keyHash_length hl]; omega)]
  have e : (line (keyHashToks h)).run L t i [] true true ⟨s, [], 0, keyHashToks h⟩ =
      match s with
      | key :: sig :: r => if r.length ≤ 997 ∧ L.C.H.ripemd160 (L.C.H.sha256 key) = h then
          some ⟨L.bool (goodSig L.C t i (without [sig] (keyHashToks h)) sig key = true) :: r, [], 4, keyHashToks h⟩ else none
      | _ => none := by
    generalize hcode : keyHashToks h = code
    rw [show (line code) = line (keyHashToks h) by rw [hcode], keyHashToks, run_eff (by decide) (by decide)]
    rcases s with _ | ⟨key, s⟩
    · rfl
    simp only [show L.effect (BitVec.toNat 0x76#8) (key :: s) = some (key :: key :: s) from rfl]
    by_cases h1 : (key :: key :: s).length + ([] : List Bytes).length ≤ 1000
    · rw [if_pos h1, run_eff (by decide) (by decide)]
      simp only [show L.effect (BitVec.toNat 0xa9#8) (key :: key :: s) = some (L.C.H.ripemd160 (L.C.H.sha256 key) :: key :: s) from rfl]
      rw [if_pos (by simpa using h1), run_push hL (by omega), run_eff (by decide) (show 0 + 1 + 1 < 201 by omega)]
      simp only [show L.effect (BitVec.toNat 0x88#8) (h :: L.C.H.ripemd160 (L.C.H.sha256 key) :: key :: s) =
        if L.C.H.ripemd160 (L.C.H.sha256 key) = h then some (key :: s) else none from rfl]
      by_cases h2 : L.C.H.ripemd160 (L.C.H.sha256 key) = h
      · rw [if_pos h2]
        simp only
        rw [if_pos (by simp at h1 ⊢; omega), run_op (by decide) (by decide) (show 0 + 1 + 1 + 1 < 201 by omega)]
        rcases s with _ | ⟨sig, r⟩
        · rfl
        · have h3 : r.length ≤ 997 := by simp at h1; omega
          simp only
          rw [if_pos ⟨h3, h2⟩, perform, if_neg (by decide), if_neg (by decide), if_pos rfl, Option.bind_some, limit_ok (by simp; omega)]
          rfl
      · rw [if_neg h2]
        rcases s with _ | ⟨sig, r⟩
        · rfl
        · simp only
          rw [if_neg (fun h => h2 h.2)]
    · rw [if_neg h1]
      rcases s with _ | ⟨sig, r⟩
      · rfl
      · simp only
        rw [if_neg (fun h => h1 (by simp; omega))]
  rw [e]
  constructor
  · intro h
    split at h
    · next key sig r =>
      split at h
      · next hc =>
        cases h
        exact ⟨key, sig, r, rfl, hc.1, hc.2, rfl⟩
      · cases h
    · cases h
  · rintro ⟨key, sig, r, rfl, h1, h2, rfl⟩
    simp only
    rw [if_pos ⟨h1, h2⟩]
    rfl

/-! ## Script hashes -/

theorem scriptHash_length {h : Bytes} (hl : h.length = 20) : (scriptOf (scriptHashToks h)).length = 23 := by
  simp [scriptOf, scriptHashToks, Tok.bytes, little, hl]

theorem scriptHash_wf {h : Bytes} (hl : h.length = 20) : WFToks (scriptHashToks h) := by
  intro u hu
  simp only [scriptHashToks, List.mem_cons, List.not_mem_nil, or_false] at hu
  rcases hu with rfl | rfl | rfl
  · exact show 0x4e < 0xa9 by omega
  · exact show h.length < 0x4c by omega
  · exact show 0x4e < 0x87 by omega

theorem scriptHash_line {h : Bytes} : ∀ u ∈ scriptHashToks h, ¬ IsCond u := by
  intro u hu
  simp only [scriptHashToks, List.mem_cons, List.not_mem_nil, or_false] at hu
  rcases hu with rfl | rfl | rfl <;> unfold IsCond Prog.ifTok Prog.elseTok Prog.endTok <;> simp

theorem scriptHash_bytes {h : Bytes} (hl : h.length = 20) : scriptOf (scriptHashToks h) = [0xa9#8, 0x14#8] ++ h ++ [0x87#8] := by
  simp [scriptOf, scriptHashToks, Tok.bytes, little, hl]

theorem evals_scriptHash {L : Lang} (hL : L.strict = false) {t : CTransaction} {i : Nat} {h : Bytes} (hl : h.length = 20) {s s' : List Bytes} :
    Evals L t i (scriptOf (scriptHashToks h)) s s' ↔ ∃ x r, s = x :: r ∧ r.length ≤ 999 ∧ s' = L.bool (L.C.H.ripemd160 (L.C.H.sha256 x) = h) :: r := by
  rw [evals_line (scriptHash_wf hl) scriptHash_line, line_eval (by rw [scriptHash_length hl]; omega)]
  have e : (line (scriptHashToks h)).run L t i [] true true ⟨s, [], 0, scriptHashToks h⟩ =
      match s with
      | x :: r => if r.length ≤ 999 then some ⟨L.bool (L.C.H.ripemd160 (L.C.H.sha256 x) = h) :: r, [], 2, scriptHashToks h⟩ else none
      | _ => none := by
    generalize hcode : scriptHashToks h = code
    rw [show (line code) = line (scriptHashToks h) by rw [hcode], scriptHashToks, run_eff (by decide) (by decide)]
    rcases s with _ | ⟨x, r⟩
    · rfl
    simp only [show L.effect (BitVec.toNat 0xa9#8) (x :: r) = some (L.C.H.ripemd160 (L.C.H.sha256 x) :: r) from rfl]
    by_cases h1 : r.length ≤ 999
    · rw [if_pos (by simp; omega), run_push hL (by omega), run_eff (by decide) (show 0 + 1 < 201 by omega)]
      simp only [show L.effect (BitVec.toNat 0x87#8) (h :: L.C.H.ripemd160 (L.C.H.sha256 x) :: r) = some (L.bool (L.C.H.ripemd160 (L.C.H.sha256 x) = h) :: r) from rfl]
      rw [if_pos (by simp; omega), if_pos h1]
      rfl
    · rw [if_neg (by simp; omega), if_neg h1]
  rw [e]
  constructor
  · intro h
    split at h
    · next x r =>
      split at h
      · next hc =>
        cases h
        exact ⟨x, r, rfl, hc, rfl⟩
      · cases h
    · cases h
  · rintro ⟨x, r, rfl, h1, rfl⟩
    simp only
    rw [if_pos h1]
    rfl

theorem truthy_bool {L : Lang} (hff : ¬ Truthy L.ff) (c : Prop) [Decidable c] : Truthy (L.bool c) ↔ c := by
  unfold Lang.bool
  by_cases h : c
  · rw [if_pos h]
    exact ⟨fun _ => h, fun _ => by decide⟩
  · rw [if_neg h]
    exact ⟨fun g => absurd g hff, fun g => absurd g h⟩

/-! ## Pushes, and several keys -/

/-- Pushes as short as possible. -/
def pushToks (l : List Bytes) : List Tok := l.map fun d => .push (shortest d) d

theorem run_pushes {L : Lang} (hL : L.strict = false) {t : CTransaction} {i : Nat} {ts : List Tok} : ∀ (l : List Bytes) (st : St), (∀ d ∈ l, d.length ≤ 520) →
    (line (pushToks l ++ ts)).run L t i [] true true st = (line ts).run L t i [] true true { st with main := l.reverse ++ st.main }
  | [], _, _ => rfl
  | d :: l, st, h => by
    show (line (.push (shortest d) d :: (pushToks l ++ ts))).run L t i [] true true st = _
    rw [run_push hL (h d (by simp)), run_pushes hL l _ (fun x hx => h x (List.mem_cons_of_mem _ hx)), List.reverse_cons, List.append_assoc]
    rfl

theorem shortest_ok {d : Bytes} (h : d.length ≤ 520) : (Tok.push (shortest d) d).Ok := (encodePushdata_ok (d := d) (by omega)).2

theorem num_arg (L : Lang) {n : Nat} (hn : n ≤ 16) : arg (L.num n) = some (n : Int) := by
  have h1 := L.num_spec n (by omega)
  have h2 : L.num n = if n = 0 then [] else [BitVec.ofNat 8 n] := by
    have : numOf (if n = 0 then [] else [BitVec.ofNat 8 n]) = n := by
      have key : ∀ m, m < 17 → numOf (if m = 0 then [] else [BitVec.ofNat 8 m]) = m := by decide
      exact key n (by omega)
    by_cases h0 : n = 0
    · subst h0
      exact (h1.2 [] this (by simp)).symm
    · rw [if_neg h0] at this ⊢
      have hne : 1 ≤ (L.num n).length := by
        rcases hx : L.num n with _ | ⟨a, b⟩
        · rw [hx] at h1
          have := h1.1
          rw [numOf_nil] at this
          omega
        · simp
      exact (h1.2 _ this (by simpa using hne)).symm
  unfold arg
  rw [if_pos (by rw [h2]; split <;> simp), h1.1]

theorem pushToks_wf {l : List Bytes} (h : ∀ d ∈ l, d.length ≤ 520) : WFToks (pushToks l) := by
  intro u hu
  obtain ⟨d, hd, rfl⟩ := List.mem_map.mp hu
  exact shortest_ok (h d hd)

theorem pushToks_line {l : List Bytes} : ∀ u ∈ pushToks l, ¬ IsCond u := by
  intro u hu
  obtain ⟨d, hd, rfl⟩ := List.mem_map.mp hu
  unfold IsCond Prog.ifTok Prog.elseTok Prog.endTok
  simp

theorem push_length {d : Bytes} (h : d.length ≤ 520) : (Tok.push (shortest d) d).bytes.length ≤ 523 := by
  unfold shortest
  split
  · simp [Tok.bytes, little]; omega
  split
  · simp [Tok.bytes, little]; omega
  split
  · simp [Tok.bytes, little]; omega
  · omega

theorem pushToks_length : ∀ {l : List Bytes}, (∀ d ∈ l, d.length ≤ 520) → (scriptOf (pushToks l)).length ≤ 523 * l.length
  | [], _ => by simp [pushToks, scriptOf]
  | d :: l, h => by
    have h1 := push_length (h d (by simp))
    have h2 := pushToks_length (fun x hx => h x (List.mem_cons_of_mem d hx))
    show (scriptOf (Tok.push (shortest d) d :: pushToks l)).length ≤ _
    rw [scriptOf_cons, List.length_append, List.length_cons]
    omega

theorem numTok_ok {n : Nat} (h : n ≤ 16) : (numTok n).Ok := by
  have key : ∀ n, n < 17 → (numTok n).Ok := by decide
  exact key n (by omega)

theorem numTok_line {n : Nat} (h : n ≤ 16) : ¬ IsCond (numTok n) := by
  have key : ∀ n, n < 17 → ¬ (numTok n = Prog.ifTok false ∨ numTok n = Prog.ifTok true ∨ numTok n = Prog.elseTok ∨ numTok n = Prog.endTok) := by decide
  exact key n (by omega)

theorem bool_congr {L : Lang} {a b : Prop} {da : Decidable a} {db : Decidable b} (h : a ↔ b) : @Lang.bool L a da = @Lang.bool L b db := by
  unfold Lang.bool
  by_cases ha : a
  · rw [if_pos ha, if_pos (h.mp ha)]
  · rw [if_neg ha, if_neg (fun hb => ha (h.mpr hb))]

theorem multi_toks (m : Nat) (keys : List Bytes) : multisigToks m keys = numTok m :: (pushToks keys ++ [numTok keys.length, .op 0xae#8]) := rfl

theorem evals_multisig {L : Lang} (hL : L.strict = false) {t : CTransaction} {i : Nat} {m : Nat} {keys : List Bytes} (hm : 1 ≤ m) (hmn : m ≤ keys.length) (hn : keys.length ≤ 16)
    (hk : ∀ k ∈ keys, k.length ≤ 520) {s s' : List Bytes} :
    Evals L t i (scriptOf (multisigToks m keys)) s s' ↔ m + 1 ≤ s.length ∧ s.length + keys.length + 2 ≤ 1000 ∧
      s' = L.bool (matching (goodSig L.C t i (without (s.take m) (multisigToks m keys))) (s.take m) keys.reverse = true) :: s.drop (m + 1) := by
  have hw : WFToks (multisigToks m keys) := by
    rw [multi_toks]
    refine WFToks.cons (numTok_ok (by omega)) (wf_append (pushToks_wf hk) (WFToks.cons (numTok_ok hn) (WFToks.cons (show 0x4e < 0xae by omega) fun _ h => by cases h)))
  have hc : ∀ u ∈ multisigToks m keys, ¬ IsCond u := by
    rw [multi_toks]
    intro u hu
    rcases List.mem_cons.mp hu with rfl | hu
    · exact numTok_line (by omega)
    rcases List.mem_append.mp hu with hu | hu
    · exact pushToks_line u hu
    rcases List.mem_cons.mp hu with rfl | hu
    · exact numTok_line hn
    rcases List.mem_cons.mp hu with rfl | hu
    · unfold IsCond Prog.ifTok Prog.elseTok Prog.endTok
      simp
    · cases hu
  have hlen : (scriptOf (multisigToks m keys)).length ≤ 10000 := by
    have h1 := pushToks_length hk
    have h2 : ∀ n, (numTok n).bytes.length = 1 := fun _ => rfl
    rw [multi_toks, scriptOf_cons, scriptOf_append, scriptOf_cons, List.length_append, List.length_append, List.length_append, h2, h2]
    have h3 : (scriptOf [Tok.op 0xae#8]).length = 1 := rfl
    rw [h3]
    omega
  rw [evals_line hw hc, line_eval hlen]
  generalize hcode : multisigToks m keys = code
  rw [show (line code) = line (multisigToks m keys) by rw [hcode], multi_toks, run_num hm (by omega)]
  by_cases h1 : s.length + 1 ≤ 1000
  · rw [limit_ok (by simp only [List.length_cons, List.length_nil]; omega), Option.bind_some, run_pushes hL _ _ hk, run_num (by omega) hn]
    by_cases h2 : s.length + keys.length + 2 ≤ 1000
    · rw [limit_ok (by simp only [List.length_cons, List.length_nil, List.length_append, List.length_reverse]; omega), Option.bind_some, run_op (by decide) (by decide) (show 0 < 201 by omega), perform, if_pos rfl]
      have hmul : ∀ (a : List Bytes) (n : Nat) (c : List Tok), n + keys.length ≤ 201 → multisig L t i false ⟨L.num keys.length :: (keys.reverse ++ L.num m :: s), a, n, c⟩ =
          if m + 1 ≤ s.length then some ⟨L.bool (matching (goodSig L.C t i (without (s.take m) c)) (s.take m) keys.reverse = true) :: s.drop (m + 1), a, n + keys.length, c⟩ else none := by
        intro a n c hn2
        unfold multisig
        simp only [num_arg L hn, num_arg L (show m ≤ 16 by omega), Option.bind_eq_bind, Option.bind_some, Int.toNat_natCast, Bool.false_eq_true, if_false]
        rw [if_neg (by omega), List.drop_append_of_le_length (by rw [List.length_reverse]; omega), List.drop_eq_nil_of_le (by rw [List.length_reverse]; omega), List.nil_append]
        simp only [num_arg L (show m ≤ 16 by omega), Option.bind_some, Int.toNat_natCast]
        rw [if_neg (by omega)]
        by_cases h3 : m + 1 ≤ s.length
        · rw [if_pos h3]
          rcases hd : s.drop m with _ | ⟨x, r⟩
          · have := List.drop_eq_nil_iff.mp hd; omega
          · have hr : s.drop (m + 1) = r := by
              rw [← List.drop_drop, hd]; rfl
            simp only [hr]
            have htk : List.take keys.length (keys.reverse ++ L.num m :: s) = keys.reverse := by
              rw [List.take_append_of_le_length (by rw [List.length_reverse]; omega), List.take_of_length_le (by rw [List.length_reverse]; omega)]
            congr 3
            exact bool_congr (by rw [htk])
        · rw [if_neg h3, List.drop_eq_nil_of_le (by omega)]
      rw [hmul _ _ _ (by show 0 + 1 + keys.length ≤ 201; omega)]
      by_cases h3 : m + 1 ≤ s.length
      · rw [if_pos h3, Option.bind_some, limit_ok (by simp only [List.length_cons, List.length_nil, List.length_drop]; omega), Option.bind_some, run_nil, Option.map_some]
        constructor
        · intro h
          exact ⟨h3, h2, (Option.some.inj h).symm⟩
        · rintro ⟨-, -, rfl⟩
          rfl
      · rw [if_neg h3]
        exact ⟨(fun h => by cases h), fun h => absurd h.1 h3⟩
    · rw [limit_none (by simp only [List.length_cons, List.length_nil, List.length_append, List.length_reverse]; omega)]
      exact ⟨(fun h => by cases h), fun h => absurd h.2.1 h2⟩
  · rw [limit_none (by simp only [List.length_cons, List.length_nil]; omega)]
    exact ⟨(fun h => by cases h), fun h => by omega⟩

/-- Pushes only. -/
theorem evals_pushes {L : Lang} (hL : L.strict = false) {t : CTransaction} {i : Nat} {l : List Bytes} (hl : ∀ d ∈ l, d.length ≤ 520) (hlen : (scriptOf (pushToks l)).length ≤ 10000)
    {s s' : List Bytes} : Evals L t i (scriptOf (pushToks l)) s s' ↔ s' = l.reverse ++ s := by
  rw [evals_line (pushToks_wf hl) pushToks_line, line_eval hlen]
  have := run_pushes hL (t := t) (i := i) (ts := []) l ⟨s, [], 0, pushToks l⟩ hl
  rw [List.append_nil] at this
  rw [this, run_nil]
  exact ⟨fun h => (Option.some.inj h).symm, fun h => by rw [h]; rfl⟩

end Verif.Btc
