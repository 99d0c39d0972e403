import Verif.Lemmas.ScriptSim
/-! # Scripts that are no programs, and all scripts -/
namespace Verif.Btc
open Verif

/-! ## Conditionals that are not closed -/

/-- The number of conditionals that are open after the operations, if there were `d`; none if one is closed that is not open. -/
def depth : List Tok → Nat → Option Nat
  | [], d => some d
  | u :: ts, d =>
    if u = Prog.ifTok false ∨ u = Prog.ifTok true then depth ts (d + 1)
    else if u = Prog.elseTok then (if d = 0 then none else depth ts d)
    else if u = Prog.endTok then (if d = 0 then none else depth ts (d - 1))
    else depth ts d

/-- The operations close `d` conditionals. -/
def Parsed : Nat → List Tok → Prop
  | 0, ts => ∃ q : Prog, q.WF false ∧ ts = q.toks
  | d + 1, ts => ∃ (p : Prog) (rest : List Tok), p.WF true ∧ ts = p.toks ++ Prog.endTok :: rest ∧ Parsed d rest

theorem parsed : ∀ (ts : List Tok) (d : Nat), WFToks ts → depth ts d = some 0 → Parsed d ts
  | [], d, _, h => by
    cases h
    exact ⟨.done, trivial, rfl⟩
  | u :: ts, d, hw, h => by
    have hw' : WFToks ts := fun t ht => hw t (List.mem_cons_of_mem _ ht)
    have hu : u.Ok := hw u (by simp)
    rw [depth] at h
    split at h
    · next h1 =>
      have : ∃ neg, u = Prog.ifTok neg := by rcases h1 with h1 | h1 <;> exact ⟨_, h1⟩
      obtain ⟨neg, rfl⟩ := this
      obtain ⟨p, rest, p1, p2, p3⟩ := parsed ts (d + 1) hw' h
      rcases d with _ | d
      · obtain ⟨q, q1, rfl⟩ := p3
        exact ⟨.cond neg p q, ⟨p1, q1⟩, by rw [p2]; rfl⟩
      · obtain ⟨p', rest', q1, rfl, q2⟩ := p3
        exact ⟨.cond neg p p', rest', ⟨p1, q1⟩, by rw [p2]; simp [Prog.toks], q2⟩
    · next h1 =>
      split at h
      · next h2 =>
        subst h2
        split at h
        · cases h
        · rcases d with _ | d
          · contradiction
          · obtain ⟨p, rest, p1, p2, p3⟩ := parsed ts (d + 1) hw' h
            exact ⟨.els p, rest, ⟨rfl, p1⟩, by rw [p2]; rfl, p3⟩
      · next h2 =>
        split at h
        · next h3 =>
          subst h3
          split at h
          · cases h
          · rcases d with _ | d
            · contradiction
            · exact ⟨.done, ts, trivial, rfl, parsed ts d hw' h⟩
        · next h3 =>
          have hn : u ≠ Prog.ifTok false ∧ u ≠ Prog.ifTok true := ⟨fun h => h1 (.inl h), fun h => h1 (.inr h)⟩
          rcases d with _ | d
          · obtain ⟨q, q1, q2⟩ := parsed ts 0 hw' h
            exact ⟨.op u q, ⟨hu, hn.1, hn.2, h2, h3, q1⟩, by rw [q2]; rfl⟩
          · obtain ⟨p, rest, p1, p2, p3⟩ := parsed ts (d + 1) hw' h
            exact ⟨.op u p, rest, ⟨hu, hn.1, hn.2, h2, h3, p1⟩, by rw [p2]; rfl, p3⟩

/-- One round of any operation. -/
theorem any_step {L : Lang} (hL : L.strict = false) {t : CTransaction} {script : Bytes} (hF : Fixed L t script) {i : Nat} {M B : Nat} (hM : 520 ≤ M) (hM2 : M < 2 ^ 32) (hB : B < 2 ^ 62)
    {pre : Bytes} {u : Tok} {after : List Tok} (hsc : script = pre ++ scriptOf (u :: after)) (hwf : WFToks (u :: after))
    {st : St} {es : EvalState} (h : Rel script st es) {n : Nat} (hb : Bounded M B st (n + 1)) :
    evalStep L.C script t i es ⟨u.opcode, u.data, pre.length⟩ = .error .evalScript ∨
      ∃ es' st', evalStep L.C script t i es ⟨u.opcode, u.data, pre.length⟩ = .ok es' ∧ Rel script st' es' ∧ Bounded M B st' n ∧
        depth (u :: after) es.exec.length = depth after es'.exec.length := by
  have hff : L.ff.length ≤ 1 := by rw [hF.ff]; exact Nat.le_refl 1
  have conv : ∀ {a : Option St} {ex : List Bool}, Sim script ex a (evalStep L.C script t i es ⟨u.opcode, u.data, pre.length⟩) →
      (∀ st', a = some st' → Bounded M B st' n) → depth (u :: after) es.exec.length = depth after ex.length →
      (evalStep L.C script t i es ⟨u.opcode, u.data, pre.length⟩ = .error .evalScript ∨
      ∃ es' st', evalStep L.C script t i es ⟨u.opcode, u.data, pre.length⟩ = .ok es' ∧ Rel script st' es' ∧ Bounded M B st' n ∧
        depth (u :: after) es.exec.length = depth after es'.exec.length) := by
    intro a ex hs h1 h2
    rcases a with _ | st'
    · exact .inl hs
    · obtain ⟨es', g1, g2, g3⟩ := hs
      exact .inr ⟨es', st', g1, g2, h1 st' rfl, by rw [h2, g3]⟩
  have fail : ∀ {o : Option St}, Sim script [] (o.bind fun _ => (none : Option St).bind limit) (evalStep L.C script t i es ⟨u.opcode, u.data, pre.length⟩) →
      evalStep L.C script t i es ⟨u.opcode, u.data, pre.length⟩ = .error .evalScript := by
    intro o hs
    rcases o with _ | o <;> exact hs
  have cb : ∀ {a : St → Option St}, (∀ s s', a s = some s' → AllLe M s.main → AllLe M s.alt → AllLe M s'.main ∧ AllLe M s'.alt) →
      ∀ st', ((tick st u).bind fun st => (a st).bind limit) = some st' → Bounded M B st' n := by
    intro a ha st' hst
    obtain ⟨st1, g1, g2⟩ := Option.bind_eq_some_iff.mp hst
    obtain ⟨t1, t2, -⟩ := tick_some g1
    obtain ⟨st2, g3, g4⟩ := Option.bind_eq_some_iff.mp g2
    obtain ⟨rfl, hl⟩ := limit_some g4
    have := hb.len'
    obtain ⟨a1, a2⟩ := ha _ _ g3 (by rw [t1]; exact hb.small) (by rw [t2]; exact hb.small')
    exact ⟨a1, a2, by omega, by omega⟩
  by_cases hif : ∃ neg, u = Prog.ifTok neg
  · obtain ⟨neg, rfl⟩ := hif
    have hd : ∀ x, depth (Prog.ifTok neg :: after) es.exec.length = depth after (es.exec ++ [x]).length := by
      intro x
      rw [depth, if_pos (by cases neg <;> simp), List.length_append]
      rfl
    have hdata : (Prog.ifTok neg).data = none := rfl
    have hopc : (Prog.ifTok neg).opcode = if neg then 0x64#8 else 0x63#8 := rfl
    by_cases hx : checkExec es.exec = true
    · refine conv (ex := es.exec ++ [xor neg (truthy (st.main.headD []))]) (a := (tick st (Prog.ifTok neg)).bind fun st => (match st.main with
            | _ :: s => some { st with main := s }
            | [] => none : Option St).bind limit) ?_ ?_ (hd _)
      · rw [hdata, hopc]
        refine cond_sim (o := if neg then 0x64#8 else 0x63#8) (by cases neg <;> simp) h pre.length fun st1 es1 h1 h2 h3 => ?_
        have hm := (tick_some h1).1
        unfold evalOp
        simp only
        rw [hx, if_neg (by cases neg <;> decide), if_neg (by cases neg <;> decide), if_neg (by cases neg <;> decide), if_neg (by cases neg <;> decide),
          if_neg (by cases neg <;> decide), if_neg (by cases neg <;> decide), if_pos (by cases neg <;> decide), if_pos rfl, h2.main, hm]
        rcases st.main with _ | ⟨v, s⟩
        · rw [checkArgs_rev, if_pos (by simp), errb]; exact rfl
        · rw [checkArgs_rev, if_neg (by simp), okb, pop_rev, okb]
          refine ⟨_, rfl, ⟨rfl, h2.alt, h2.count, h2.code⟩, ?_⟩
          simp only [h3, List.headD_cons]
          congr 2
          cases neg
          · simp only [Bool.false_eq_true, if_false, Bool.false_xor]
            rw [if_neg (by decide), Bool.eq_iff_iff, castToBool_iff, truthy, decide_eq_true_iff]
          · simp only [if_true, Bool.true_xor]
            rw [if_pos (by decide)]
            congr 1
            rw [Bool.eq_iff_iff, castToBool_iff, truthy, decide_eq_true_iff]
      · refine cb fun s s' h1 h2 h3 => ?_
        rcases hmm : s.main with _ | ⟨v, r⟩
        · rw [hmm] at h1; cases h1
        · rw [hmm] at h1 h2
          cases h1
          exact ⟨(AllLe.cons.mp h2).2, h3⟩
    · have hx' : checkExec es.exec = false := by cases h : checkExec es.exec <;> simp_all
      refine conv (ex := es.exec ++ [false]) (a := (tick st (Prog.ifTok neg)).bind fun st => (some st).bind limit) ?_ ?_ (hd _)
      · rw [hdata, hopc]
        refine cond_sim (o := if neg then 0x64#8 else 0x63#8) (by cases neg <;> simp) h pre.length fun st1 es1 h1 h2 h3 => ?_
        unfold evalOp
        simp only
        rw [hx', if_neg (by cases neg <;> decide), if_neg (by cases neg <;> decide), if_neg (by cases neg <;> decide), if_neg (by cases neg <;> decide),
          if_neg (by cases neg <;> decide), if_neg (by cases neg <;> decide), if_pos (by cases neg <;> decide), if_neg (by decide)]
        exact ⟨_, rfl, ⟨h2.main, h2.alt, h2.count, h2.code⟩, by simp only [h3]⟩
      · refine cb fun s s' h1 h2 h3 => ?_
        cases h1
        exact ⟨h2, h3⟩
  · have hif' : ¬ (u = Prog.ifTok false ∨ u = Prog.ifTok true) := by rintro (h | h) <;> exact hif ⟨_, h⟩
    by_cases hel : u = Prog.elseTok
    · subst hel
      by_cases h0 : es.exec.length = 0
      · have h0' : es.exec = [] := List.length_eq_zero_iff.mp h0
        refine .inl (fail (cond_sim (o := 0x67#8) (a := fun _ => none) (ex := []) (by simp) h pre.length fun st1 es1 h1 h2 h3 => ?_))
        show evalOp L.C script t i (checkExec es.exec) ⟨0x67#8, none, pre.length⟩ es1 = .error .evalScript
        unfold evalOp
        simp only
        rw [if_neg (by decide), if_neg (by decide), if_neg (by decide), if_pos (by decide), h3, h0']
        rfl
      · have hne : es.exec ≠ [] := fun h => h0 (by rw [h]; rfl)
        refine conv (ex := es.exec.dropLast ++ [!es.exec.getLast hne]) (a := (tick st Prog.elseTok).bind fun st => (some st).bind limit) ?_ ?_ ?_
        · refine cond_sim (o := 0x67#8) (by simp) h pre.length fun st1 es1 h1 h2 h3 => ?_
          have : evalOp L.C script t i (checkExec es.exec) ⟨0x67#8, none, pre.length⟩ es1 = .ok { es1 with exec := es.exec.dropLast ++ [!es.exec.getLast hne] } := by
            unfold evalOp
            simp only
            rw [if_neg (by decide), if_neg (by decide), if_neg (by decide), if_pos (by decide), h3, List.getLast?_eq_some_getLast hne]
          rw [this]
          exact ⟨_, rfl, ⟨h2.main, h2.alt, h2.count, h2.code⟩, rfl⟩
        · refine cb fun s s' h1 h2 h3 => ?_
          cases h1
          exact ⟨h2, h3⟩
        · rw [depth, if_neg hif', if_pos rfl, if_neg h0, List.length_append, List.length_dropLast, List.length_singleton, Nat.sub_add_cancel (by omega)]
    · by_cases hen : u = Prog.endTok
      · subst hen
        by_cases h0 : es.exec.length = 0
        · refine .inl (fail (cond_sim (o := 0x68#8) (a := fun _ => none) (ex := []) (by simp) h pre.length fun st1 es1 h1 h2 h3 => ?_))
          show evalOp L.C script t i (checkExec es.exec) ⟨0x68#8, none, pre.length⟩ es1 = .error .evalScript
          unfold evalOp
          simp only
          rw [if_neg (by decide), if_neg (by decide), if_neg (by decide), if_neg (by decide), if_pos (by decide), h3, if_pos h0]
        · refine conv (ex := es.exec.dropLast) (a := (tick st Prog.endTok).bind fun st => (some st).bind limit) ?_ ?_ ?_
          · refine cond_sim (o := 0x68#8) (by simp) h pre.length fun st1 es1 h1 h2 h3 => ?_
            have : evalOp L.C script t i (checkExec es.exec) ⟨0x68#8, none, pre.length⟩ es1 = .ok { es1 with exec := es.exec.dropLast } := by
              unfold evalOp
              simp only
              rw [if_neg (by decide), if_neg (by decide), if_neg (by decide), if_neg (by decide), if_pos (by decide), h3, if_neg h0]
            rw [this]
            exact ⟨_, rfl, ⟨h2.main, h2.alt, h2.count, h2.code⟩, rfl⟩
          · refine cb fun s s' h1 h2 h3 => ?_
            cases h1
            exact ⟨h2, h3⟩
          · rw [depth, if_neg hif', if_neg hel, if_pos rfl, if_neg h0, List.length_dropLast]
      · have hnc : ¬ IsCond u := by
          rintro (h | h | h | h)
          · exact hif ⟨_, h⟩
          · exact hif ⟨_, h⟩
          · exact hel h
          · exact hen h
        refine conv (step_sim hL hF hsc hwf hnc h (hb.sane hM2 hB)) (fun st' h' => step_bounded hff hM hM2 hB hb h') ?_
        rw [depth, if_neg hif', if_neg hel, if_neg hen]

/-- The whole loop. -/
theorem any_loop {L : Lang} (hL : L.strict = false) {t : CTransaction} {script : Bytes} (hF : Fixed L t script) {i : Nat} {M B : Nat} (hM : 520 ≤ M) (hM2 : M < 2 ^ 32) (hB : B < 2 ^ 62) :
    ∀ (ts : List Tok) {pre : Bytes} {st : St} {es : EvalState}, script = pre ++ scriptOf ts → WFToks ts → Rel script st es → Bounded M B st ts.length →
    evalLoop L.C script t i (located pre.length ts) es = .error .evalScript ∨
      ∃ es', evalLoop L.C script t i (located pre.length ts) es = .ok es' ∧ depth ts es.exec.length = some es'.exec.length
  | [], _, _, es, _, _, _, _ => .inr ⟨es, rfl, rfl⟩
  | u :: ts, pre, st, es, hsc, hw, hr, hb => by
    rw [located_cons, evalLoop]
    rcases any_step hL hF (i := i) hM hM2 hB hsc hw hr hb with h | ⟨es', st', h1, h2, h3, h4⟩
    · rw [h, errb]; exact .inl rfl
    · rw [h1, okb, h4]
      have := any_loop hL hF (i := i) hM hM2 hB ts (pre := pre ++ u.bytes) (by rw [List.append_assoc, ← scriptOf_cons]; exact hsc) (fun t ht => hw t (List.mem_cons_of_mem _ ht)) h2 h3
      rw [List.length_append] at this
      exact this

/-! ## Scripts that end within an operation -/

/-- What makes `EvalScript` raise an `EvalScriptError`. -/
def Bad {α : Type} (x : Py α) : Prop := x = .error .evalScript ∨ x = .error .scriptInvalid

theorem Bad.bind {α β : Type} {x : Py α} (h : Bad x) (f : α → Py β) : Bad (x >>= f) := by
  rcases h with h | h <;> rw [h, errb]
  · exact .inl rfl
  · exact .inr rfl

theorem not_script {cs : List Tok} (hcs : WFToks cs) {bad : Bytes} (hne : bad ≠ []) (hbad : ∃ e, rawOp bad = .error e) : ¬ ∃ ts, WFToks ts ∧ scriptOf cs ++ bad = scriptOf ts := by
  induction cs with
  | nil =>
    rintro ⟨ts, h1, h2⟩
    rw [show scriptOf [] = [] from rfl, List.nil_append] at h2
    rcases ts with _ | ⟨u, ts⟩
    · exact hne h2
    · obtain ⟨e, he⟩ := hbad
      rw [h2, scriptOf_cons, rawOp_tok (h1 u (by simp))] at he
      cases he
  | cons c cs ih =>
    rintro ⟨ts, h1, h2⟩
    rw [scriptOf_cons, List.append_assoc] at h2
    have hr := rawOp_tok (hcs c (by simp)) (scriptOf cs ++ bad)
    rcases ts with _ | ⟨u, ts⟩
    · have h3 := congrArg List.length h2
      have h4 := c.bytes_length_pos
      rw [List.length_append, show scriptOf [] = [] from rfl, List.length_nil] at h3
      omega
    · rw [h2, scriptOf_cons, rawOp_tok (h1 u (by simp))] at hr
      have hr' := Except.ok.inj hr
      simp only [Prod.mk.injEq] at hr'
      exact ih (fun t ht => hcs t (List.mem_cons_of_mem _ ht)) ⟨ts, fun t ht => h1 t (List.mem_cons_of_mem _ ht), hr'.2.2.symm⟩

theorem dropSig_bad {s : Bytes} (h : ¬ ∃ ts, WFToks ts ∧ s = scriptOf ts) {sig : Bytes} (hs : sig.length < 2 ^ 32) : dropSig s sig = .error .scriptInvalid := by
  obtain ⟨h1, h2⟩ := encodePushdata_ok hs
  have hm : mkScript [.data sig] = .ok (Tok.push (shortest sig) sig).bytes := by
    simp only [mkScript, coerceItem, h1, okb, puree, List.append_nil]
  unfold dropSig
  rw [hm, okb, C72_invalid_partial h]

theorem multi_bad {C : Crypto} {o : Nat} {good bad : Bytes} (h : ¬ ∃ ts, WFToks ts ∧ bad = scriptOf ts) {r : List Bytes} (hr : Sane r) {t : CTransaction} {i : Int} {n : Nat} :
    checkMultiSig C o bad r.reverse t i n = checkMultiSig C o good r.reverse t i n ∨ Bad (checkMultiSig C o bad r.reverse t i n) := by
  unfold checkMultiSig
  rcases r with _ | ⟨nb, s⟩
  · rw [checkArgs_rev, if_pos (by simp), errb]; exact .inl rfl
  rw [checkArgs_rev, if_neg (by simp), okb, neg_rev, List.getElem?_cons_zero]
  simp only [okb]
  rw [castToBigNum_eq (hr.2 nb (by simp))]
  rcases arg nb with _ | keys
  · simp only [errb]; exact .inl trivial
  simp only [okb]
  by_cases hk : keys < 0 ∨ keys > 20
  · rw [if_pos hk, if_pos hk]; exact .inl rfl
  rw [if_neg hk, if_neg hk]
  by_cases hc : n + keys.toNat > MAX_SCRIPT_OPCODES
  · rw [if_pos hc, if_pos hc]; exact .inl rfl
  rw [if_neg hc, if_neg hc]
  generalize hK : keys.toNat = K
  rw [checkArgs_rev, List.length_cons]
  by_cases hl : s.length + 1 < 2 + K
  · rw [if_pos hl, errb]; exact .inl rfl
  rw [if_neg hl, okb, show 2 + K = (K + 1) + 1 by omega, neg_rev, List.getElem?_cons_succ]
  have hKl : K < s.length := by omega
  rw [List.getElem?_eq_getElem hKl]
  simp only [okb]
  rw [castToBigNum_eq (hr.2 _ (List.mem_cons_of_mem _ (List.getElem_mem hKl)))]
  rcases arg s[K] with _ | sigs
  · simp only [errb]; exact .inl trivial
  simp only [okb]
  by_cases hs : sigs < 0 ∨ sigs > keys
  · rw [if_pos hs, if_pos hs]; exact .inl rfl
  rw [if_neg hs, if_neg hs]
  generalize hS : sigs.toNat = S
  simp only [checkArgs_rev, List.length_cons]
  by_cases h1 : s.length + 1 < K + 1 + 1 + 1 + S - 1
  · rw [if_pos h1, errb]; exact .inl rfl
  rw [if_neg h1, okb]
  by_cases h2 : s.length + 1 < K + 1 + 1 + 1 + S
  · rw [if_pos h2, errb]; exact .inl rfl
  rw [if_neg h2, okb]
  rcases S with _ | S
  · simp only [okb, show List.range 0 = [] from rfl, dropSigs, multiSigLoop]
    exact .inl trivial
  · refine .inr (Bad.bind (.inr ?_) _)
    rw [show List.range (S + 1) = 0 :: (List.range S).map (· + 1) by rw [List.range_succ_eq_map], dropSigs, show K + 1 + 1 + 1 + 0 = (K + 1 + 1) + 1 by omega, neg_rev, List.getElem?_cons_succ,
      List.getElem?_eq_getElem (show K + 1 < s.length by omega)]
    simp only [okb]
    rw [dropSig_bad h (hr.2 _ (List.mem_cons_of_mem _ (List.getElem_mem _))), errb]

theorem bad_step {C : Crypto} {t : CTransaction} {i : Int} {good bad : Bytes} {es : EvalState} (h : ¬ ∃ ts, WFToks ts ∧ bad.drop es.begin_ = scriptOf ts) {s : List Bytes} (he : es.stack = s.reverse)
    (hs : Sane s) (r : RawOp) : evalStep C bad t i es r = evalStep C good t i es r ∨ Bad (evalStep C bad t i es r) := by
  have key : ∀ (x : Bool) (n : Nat), evalOp C bad t i x r { es with nOp := n } = evalOp C good t i x r { es with nOp := n } ∨ Bad (evalOp C bad t i x r { es with nOp := n }) := by
    intro x n
    unfold evalOp
    simp only
    by_cases h1 : r.opcode.toNat = 0xae ∨ r.opcode.toNat = 0xaf
    · rw [if_pos h1, if_pos h1, he]
      rcases multi_bad (C := C) (o := r.opcode.toNat) (good := good.drop es.begin_) h hs (t := t) (i := i) (n := n) with hh | hh
      · rw [hh]; exact .inl rfl
      · exact .inr (hh.bind _)
    rw [if_neg h1, if_neg h1]
    by_cases h2 : r.opcode.toNat = 0xac ∨ r.opcode.toNat = 0xad
    · rw [if_pos h2, if_pos h2, he, checkArgs_rev]
      by_cases hl : s.length < 2
      · rw [if_pos hl, errb]; exact .inl rfl
      rw [if_neg hl, okb]
      rcases s with _ | ⟨k, _ | ⟨g, s⟩⟩
      · exact absurd (by simp) hl
      · exact absurd (by simp) hl
      rw [show (1 : Nat) = 0 + 1 from rfl, neg_rev, List.getElem?_cons_zero]
      simp only [okb]
      rw [show (2 : Nat) = 1 + 1 from rfl, neg_rev, List.getElem?_cons_succ, List.getElem?_cons_zero]
      simp only [okb]
      refine .inr (Bad.bind (.inr (dropSig_bad h (hs.2 g (by simp)))) _)
    rw [if_neg h2, if_neg h2]
    exact .inl rfl
  unfold evalStep
  simp only
  by_cases hd : r.opcode.toNat ∈ disabled
  · rw [if_pos hd, if_pos hd]; exact .inl rfl
  rw [if_neg hd, if_neg hd]
  generalize hn : (if r.opcode.toNat > 96 then { es with nOp := es.nOp + 1 } else es) = es1
  have : ∃ n, es1 = { es with nOp := n } := by
    rw [← hn]
    split
    · exact ⟨_, rfl⟩
    · exact ⟨es.nOp, rfl⟩
  obtain ⟨n, rfl⟩ := this
  by_cases h1 : r.opcode.toNat > 96 ∧ ({ es with nOp := n } : EvalState).nOp > MAX_SCRIPT_OPCODES
  · rw [if_pos h1, if_pos h1]; exact .inl rfl
  rw [if_neg h1, if_neg h1]
  by_cases h2 : r.opcode.toNat ≤ 78
  · rw [if_pos h2, if_pos h2]; exact .inl rfl
  rw [if_neg h2, if_neg h2]
  by_cases h3 : checkExec es.exec = true ∨ (99 ≤ r.opcode.toNat ∧ r.opcode.toNat ≤ 104)
  · rw [if_pos h3, if_pos h3]
    rcases key (checkExec es.exec) n with hh | hh
    · rw [hh]; exact .inl rfl
    · exact .inr (hh.bind _)
  rw [if_neg h3, if_neg h3]
  exact .inl rfl

theorem sizeLimits_ok {es es' : EvalState} (h : sizeLimits es = .ok es') : es' = es := by
  unfold sizeLimits at h
  split at h
  · cases h
  · cases h; rfl

theorem begin_step {C : Crypto} {t : CTransaction} {i : Int} {script : Bytes} {es es' : EvalState} {r : RawOp} (h : evalStep C script t i es r = .ok es') :
    es'.begin_ = es.begin_ ∨ es'.begin_ = r.idx := by
  have key : ∀ {x : Bool} {e e' : EvalState}, evalOp C script t i x r e = .ok e' → e'.begin_ = e.begin_ ∨ e'.begin_ = r.idx := by
    intro x e e' h
    unfold evalOp at h
    simp only at h
    split at h
    · obtain ⟨a, -, h⟩ := Except.bind_eq_ok h
      cases h; exact .inl rfl
    split at h
    · obtain ⟨a, -, h⟩ := Except.bind_eq_ok h
      obtain ⟨a, -, h⟩ := Except.bind_eq_ok h
      obtain ⟨a, -, h⟩ := Except.bind_eq_ok h
      obtain ⟨a, -, h⟩ := Except.bind_eq_ok h
      obtain ⟨a, -, h⟩ := Except.bind_eq_ok h
      split at h
      · cases h
      obtain ⟨a, -, h⟩ := Except.bind_eq_ok h
      obtain ⟨a, -, h⟩ := Except.bind_eq_ok h
      cases h; exact .inl rfl
    split at h
    · cases h; exact .inr rfl
    split at h
    · split at h
      · cases h
      · cases h; exact .inl rfl
    split at h
    · split at h
      · cases h
      · cases h; exact .inl rfl
    split at h
    · split at h
      · cases h
      obtain ⟨a, -, h⟩ := Except.bind_eq_ok h
      cases h; exact .inl rfl
    split at h
    · split at h
      · obtain ⟨a, -, h⟩ := Except.bind_eq_ok h
        obtain ⟨a, -, h⟩ := Except.bind_eq_ok h
        cases h; exact .inl rfl
      · cases h; exact .inl rfl
    split at h
    · obtain ⟨a, -, h⟩ := Except.bind_eq_ok h
      obtain ⟨a, -, h⟩ := Except.bind_eq_ok h
      cases h; exact .inl rfl
    · obtain ⟨a, -, h⟩ := Except.bind_eq_ok h
      cases h; exact .inl rfl
  unfold evalStep at h
  simp only at h
  split at h
  · cases h
  generalize hn : (if r.opcode.toNat > 96 then { es with nOp := es.nOp + 1 } else es) = es1 at h
  have hb : es1.begin_ = es.begin_ := by
    rw [← hn]
    split <;> rfl
  rw [← hb]
  split at h
  · cases h
  split at h
  · split at h
    · cases h
    split at h
    · cases h
    split at h
    · cases h; exact .inl rfl
    · rw [sizeLimits_ok h]; exact .inl rfl
  split at h
  · obtain ⟨e, h1, h2⟩ := Except.bind_eq_ok h
    rw [sizeLimits_ok h2]
    exact key h1
  · rw [sizeLimits_ok h]; exact .inl rfl

/-- The loop over a script that ends within an operation, as far as there are operations. -/
theorem bad_loop {L : Lang} (hL : L.strict = false) {t : CTransaction} {good bad : Bytes} (hne : bad ≠ []) (hbad : ∃ e, rawOp bad = .error e) (hF : Fixed L t good) {i : Nat} {M B : Nat} (hM : 520 ≤ M) (hM2 : M < 2 ^ 32)
    (hB : B < 2 ^ 62) : ∀ (ts : List Tok) {pre : Bytes} {st : St} {es : EvalState}, good = pre ++ scriptOf ts → WFToks ts → Rel good st es → es.begin_ ≤ pre.length → Bounded M B st ts.length →
    Bad (evalLoop L.C (good ++ bad) t i (located pre.length ts) es) ∨ ∃ es', evalLoop L.C (good ++ bad) t i (located pre.length ts) es = .ok es'
  | [], _, _, es, _, _, _, _, _ => .inr ⟨es, rfl⟩
  | u :: ts, pre, st, es, hsc, hw, hr, hbe, hb => by
    rw [located_cons, evalLoop]
    obtain ⟨cs, c1, c2, -⟩ := hr.code
    have hdrop : ¬ ∃ ts, WFToks ts ∧ (good ++ bad).drop es.begin_ = scriptOf ts := by
      rw [List.drop_append_of_le_length (by rw [hsc, List.length_append]; omega), c2]
      exact not_script c1 hne hbad
    rcases bad_step (C := L.C) (t := t) (i := i) (good := good) hdrop hr.main (hb.sane hM2 hB) ⟨u.opcode, u.data, pre.length⟩ with h | h
    · rw [h]
      rcases any_step hL hF (i := i) hM hM2 hB hsc hw hr hb with h | ⟨es', st', h1, h2, h3, -⟩
      · rw [h, errb]; exact .inl (.inl rfl)
      · rw [h1, okb]
        have hbe' : es'.begin_ ≤ (pre ++ u.bytes).length := by
          rw [List.length_append]
          rcases begin_step h1 with hh | hh
          · rw [hh]; omega
          · rw [hh]; exact Nat.le_add_right _ _
        have := bad_loop hL hne hbad hF (i := i) hM hM2 hB ts (pre := pre ++ u.bytes) (by rw [List.append_assoc, ← scriptOf_cons]; exact hsc) (fun t ht => hw t (List.mem_cons_of_mem _ ht)) h2 hbe' h3
        rw [List.length_append] at this
        exact this
    · exact .inl (h.bind _)

/-! ## All scripts -/

/-- A script is a program if its operations are those of a tree. -/
def IsProg (script : Bytes) : Prop := ∃ p : Prog, p.WF false ∧ script = scriptOf p.toks

theorem evalScript_prog {L : Lang} (hL : L.strict = false) (hff : L.ff = [0x00#8]) {t : CTransaction} (ht : TxFits t) (i : Nat) {s : List Bytes} (hl : s.length < 2 ^ 61)
    (hs : ∀ x ∈ s, x.length < 2 ^ 32) {p : Prog} (hp : p.WF false) : evalScript L.C s.reverse (scriptOf p.toks) t i = ofOpt (p.eval L t i s) ∧
      ∀ s', p.eval L t i s = some s' → s'.length < 2 ^ 61 + 20000 ∧ ∀ M, 520 ≤ M → M < 2 ^ 32 → AllLe M s → AllLe M s' := by
  have hw := Prog.toks_wf hp
  unfold evalScript evalScriptRaw Prog.eval
  by_cases hlen : (scriptOf p.toks).length ≤ 10000
  · rw [if_neg (by rw [MAX_SCRIPT_SIZE]; omega), if_pos hlen, rawIter_scriptOf hw]
    simp only
    have hF : Fixed L t (scriptOf p.toks) := ⟨hff, ht, hlen⟩
    have hr : Rel (scriptOf p.toks) ⟨s, [], 0, p.toks⟩ ⟨s.reverse, [], [], 0, 0⟩ := ⟨rfl, rfl, rfl, p.toks, hw, rfl, rfl⟩
    have hts : p.toks.length ≤ 10000 := by
      refine Nat.le_trans ?_ hlen
      have : ∀ ts : List Tok, ts.length ≤ (scriptOf ts).length := by
        intro ts
        induction ts with
        | nil => exact Nat.le_refl _
        | cons u ts ih =>
          have := u.bytes_length_pos
          rw [scriptOf_cons, List.length_append, List.length_cons]
          omega
      exact this _
    have main : ∀ M, 520 ≤ M → M < 2 ^ 32 → AllLe M s → Done L t i (scriptOf p.toks) M (2 ^ 61 + 11000) false [] [] p.toks [] ⟨s.reverse, [], [], 0, 0⟩ (p.run L t i [] true true ⟨s, [], 0, p.toks⟩) := by
      intro M hM hM2 hMs
      have hb : Bounded M (2 ^ 61 + 11000) ⟨s, [], 0, p.toks⟩ (p.toks ++ []).length := by
        rw [List.append_nil]
        exact ⟨hMs, (fun _ h => by cases h), by simp only [List.length_nil]; omega, by omega⟩
      exact run_sim hL hF hM hM2 (by decide) p hp (fun _ h => by cases h) (by rw [List.append_nil, List.nil_append]) hr rfl (fun h => by cases h) (fun _ => ⟨rfl, rfl⟩) hb
    have hd := main (2 ^ 32 - 1) (by decide) (by decide) (fun x hx => by have := hs x hx; omega)
    rcases hrun : p.run L t i [] true true ⟨s, [], 0, p.toks⟩ with _ | st'
    · rw [hrun] at hd
      have hd' : evalLoop L.C (scriptOf p.toks) t i (located 0 (p.toks ++ [])) ⟨s.reverse, [], [], 0, 0⟩ = .error .evalScript := hd
      rw [List.append_nil] at hd'
      rw [hd', errb]
      exact ⟨rfl, fun s' h => by cases h⟩
    · rw [hrun] at hd
      obtain ⟨es', x', h1, h2, h3, h4⟩ := hd
      have hd' : evalLoop L.C (scriptOf p.toks) t i (located 0 (p.toks ++ [])) ⟨s.reverse, [], [], 0, 0⟩ = .ok es' := h4
      rw [List.append_nil] at hd'
      have h2' : es'.exec = [] := h2
      rw [hd', okb, h2', if_neg (by simp), h1.main]
      refine ⟨rfl, fun s' h => ?_⟩
      cases h
      refine ⟨by have := h3.len; simp only [List.length_nil] at this; omega, fun M hM hM2 hMs => ?_⟩
      have := main M hM hM2 hMs
      rw [hrun] at this
      obtain ⟨_, _, _, _, g, _⟩ := this
      exact g.small
  · rw [if_pos (by rw [MAX_SCRIPT_SIZE]; omega), if_neg hlen]
    exact ⟨rfl, fun s' h => by cases h⟩

theorem evalScript_noprog {L : Lang} (hL : L.strict = false) (hff : L.ff = [0x00#8]) {t : CTransaction} (ht : TxFits t) (i : Nat) {s : List Bytes} (hl : s.length < 2 ^ 61)
    (hs : ∀ x ∈ s, x.length < 2 ^ 32) {script : Bytes} (hp : ¬ IsProg script) : evalScript L.C s.reverse script t i = .error .evalScript := by
  unfold evalScript evalScriptRaw
  by_cases hlen : script.length ≤ 10000
  · rw [if_neg (by rw [MAX_SCRIPT_SIZE]; omega)]
    obtain ⟨ts, bad, w, e, r1, r2⟩ := rawIterF_conv script.length 0 script (Nat.le_refl _)
    have hlg : (scriptOf ts).length ≤ 10000 := by rw [e, List.length_append] at hlen; omega
    have hF : Fixed L t (scriptOf ts) := ⟨hff, ht, hlg⟩
    have hr : Rel (scriptOf ts) ⟨s, [], 0, ts⟩ ⟨s.reverse, [], [], 0, 0⟩ := ⟨rfl, rfl, rfl, ts, w, rfl, rfl⟩
    have hts : ts.length ≤ 10000 := by
      refine Nat.le_trans ?_ hlg
      have : ∀ ts : List Tok, ts.length ≤ (scriptOf ts).length := by
        intro ts
        induction ts with
        | nil => exact Nat.le_refl _
        | cons u ts ih =>
          have := u.bytes_length_pos
          rw [scriptOf_cons, List.length_append, List.length_cons]
          omega
      exact this _
    have hb : Bounded (2 ^ 32 - 1) (2 ^ 61 + 11000) ⟨s, [], 0, ts⟩ ts.length :=
      ⟨fun x hx => by have := hs x hx; omega, (fun _ h => by cases h), by simp only [List.length_nil]; omega, by omega⟩
    have hri : (rawIter script).1 = located 0 ts := r1
    simp only [hri]
    rcases r2 with ⟨rfl, r2⟩ | ⟨hne, r2, hbad⟩
    · have hr2 : (rawIter script).2 = none := r2
      simp only [hr2]
      rw [List.append_nil] at e
      subst e
      rcases any_loop hL hF (i := i) (by decide) (by decide) (by decide) ts (pre := []) rfl w hr hb with h | ⟨es', h1, h2⟩
      · have h' : evalLoop L.C (scriptOf ts) t i (located 0 ts) ⟨s.reverse, [], [], 0, 0⟩ = .error .evalScript := h
        rw [h', errb]
      · have h' : evalLoop L.C (scriptOf ts) t i (located 0 ts) ⟨s.reverse, [], [], 0, 0⟩ = .ok es' := h1
        rw [h', okb, if_pos]
        intro h0
        rw [h0] at h2
        obtain ⟨q, q1, q2⟩ := parsed ts 0 w h2
        exact hp ⟨q, q1, by rw [q2]⟩
    · have hr2 : (rawIter script).2 = some .scriptInvalid := r2
      simp only [hr2]
      subst e
      rcases bad_loop hL hne hbad hF (i := i) (by decide) (by decide) (by decide) ts (pre := []) rfl w hr (Nat.le_refl _) hb with h | ⟨es', h1⟩
      · rcases h with h | h
        · have h' : evalLoop L.C (scriptOf ts ++ bad) t i (located 0 ts) ⟨s.reverse, [], [], 0, 0⟩ = .error .evalScript := h
          rw [h', errb]
        · have h' : evalLoop L.C (scriptOf ts ++ bad) t i (located 0 ts) ⟨s.reverse, [], [], 0, 0⟩ = .error .scriptInvalid := h
          rw [h', errb]
      · have h' : evalLoop L.C (scriptOf ts ++ bad) t i (located 0 ts) ⟨s.reverse, [], [], 0, 0⟩ = .ok es' := h1
        rw [h', okb]
  · rw [if_pos (by rw [MAX_SCRIPT_SIZE]; omega)]

end Verif.Btc
