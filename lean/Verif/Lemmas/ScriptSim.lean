import Verif.Lemmas.ScriptRun
/-! # Programs and the loop: the simulation -/
namespace Verif.Btc
open Verif

theorem forbidden_iff (o : Byte) : o.toNat ∈ disabled ↔ Forbidden o := by
  have : ∀ o : Byte, o.toNat ∈ disabled ↔ Forbidden o := by decide
  exact this o

theorem limit_some {st st' : St} (h : limit st = some st') : st' = st ∧ st.main.length + st.alt.length ≤ 1000 := by
  unfold limit at h
  split at h
  · next hl => cases h; exact ⟨rfl, hl⟩
  · cases h

theorem tick_some {st st' : St} {u : Tok} (h : tick st u = some st') : st'.main = st.main ∧ st'.alt = st.alt ∧ st'.code = st.code ∧ st.count ≤ st'.count ∧
    (∀ e d, u = .push e d → d.length ≤ 520) ∧ (∀ o, u = .op o → ¬ Forbidden o ∧ (o.toNat ≤ 0x60 ∨ st'.count = st.count + 1 ∧ st'.count ≤ 201)) := by
  rcases u with o | ⟨e, d⟩
  · rw [tick] at h
    split at h
    · cases h
    · next hf =>
      split at h
      · next ho => cases h; exact ⟨rfl, rfl, rfl, Nat.le_refl _, (fun _ _ h => by cases h), fun o h => by cases h; exact ⟨hf, .inl ho⟩⟩
      · split at h
        · next hc =>
          cases h
          exact ⟨rfl, rfl, rfl, Nat.le_succ _, (fun _ _ h => by cases h), fun o h => by cases h; exact ⟨hf, .inr ⟨rfl, hc⟩⟩⟩
        · cases h
  · rw [tick] at h
    split at h
    · next hd => cases h; exact ⟨rfl, rfl, rfl, Nat.le_refl _, (fun _ _ h => by cases h; exact hd), fun _ h => by cases h⟩
    · cases h

/-- What a round does with an operation that is no push. -/
theorem evalStep_op {C : Crypto} {script : Bytes} {t : CTransaction} {i : Nat} {o : Byte} (ho : 0x4e < o.toNat) {st : St} {es : EvalState} (h : Rel script st es) (idx : Nat) :
    match tick st (.op o) with
    | none => evalStep C script t i es ⟨o, none, idx⟩ = .error .evalScript
    | some st1 => ∃ es1, Rel script st1 es1 ∧ es1.exec = es.exec ∧ ¬ Forbidden o ∧ evalStep C script t i es ⟨o, none, idx⟩ =
        if checkExec es.exec = true ∨ (0x63 ≤ o.toNat ∧ o.toNat ≤ 0x68) then evalOp C script t i (checkExec es.exec) ⟨o, none, idx⟩ es1 >>= sizeLimits else sizeLimits es1 := by
  rw [tick]
  unfold evalStep
  simp only
  by_cases hf : Forbidden o
  · rw [if_pos hf, if_pos ((forbidden_iff o).mpr hf)]
  rw [if_neg hf, if_neg (fun hh => hf ((forbidden_iff o).mp hh))]
  by_cases h60 : o.toNat ≤ 0x60
  · have a1 : ¬ o.toNat > 0x60 := by omega
    have a2 : ¬ o.toNat ≤ 0x4e := by omega
    rw [if_pos h60]
    simp only [if_neg a1, a1, false_and, if_false, if_neg a2]
    exact ⟨es, h, rfl, hf, rfl⟩
  · rw [if_neg h60, if_pos (show o.toNat > 0x60 by omega)]
    simp only
    by_cases hc : st.count < 201
    · rw [if_pos hc, if_neg (fun hh => by rw [h.count, MAX_SCRIPT_OPCODES] at hh; omega), if_neg (by omega)]
      exact ⟨{ es with nOp := es.nOp + 1 }, ⟨h.main, h.alt, by rw [h.count], h.code⟩, rfl, hf, rfl⟩
    · rw [if_neg hc, if_pos ⟨by omega, by rw [h.count, MAX_SCRIPT_OPCODES]; omega⟩]

/-- A round with an operation that is not of conditionals. -/
theorem step_sim {L : Lang} (hL : L.strict = false) {t : CTransaction} {script : Bytes} (hF : Fixed L t script) {i : Nat} {pre : Bytes} {u : Tok} {after : List Tok}
    (hsc : script = pre ++ scriptOf (u :: after)) (hwf : WFToks (u :: after)) (hc : ¬ IsCond u)
    {st : St} {es : EvalState} (h : Rel script st es) (hs : Sane st.main) :
    Sim script es.exec ((tick st u).bind fun st => if checkExec es.exec = true then (perform L t i after st u).bind fun st => limitAfter L st u else limit st)
      (evalStep L.C script t i es ⟨u.opcode, u.data, pre.length⟩) := by
  rcases u with o | ⟨e, d⟩
  · have ho : 0x4e < o.toNat := hwf (.op o) (by simp)
    have hst := evalStep_op (C := L.C) (t := t) (i := i) ho h pre.length
    have hm : ∀ s1, tick st (.op o) = some s1 → s1.main = st.main := fun s1 h1 => (tick_some h1).1
    rcases htick : tick st (.op o) with _ | st1
    · rw [htick] at hst
      exact hst
    · rw [htick] at hst
      obtain ⟨es1, r1, r2, hf, r3⟩ := hst
      have hm := hm st1 htick
      show Sim script es.exec (if checkExec es.exec = true then (perform L t i after st1 (.op o)).bind fun st => limitAfter L st (.op o) else limit st1)
        (evalStep L.C script t i es ⟨o, none, pre.length⟩)
      rw [r3]
      by_cases hx : checkExec es.exec = true
      · rw [if_pos hx, if_pos (.inl hx), hx]
        have hp := perform_sim hF (i := i) hsc hwf hc r1 (by rw [hm]; exact hs)
        rw [r2] at hp
        refine hp.bind fun st2 es2 _ r4 r5 => ?_
        rw [← r5]
        exact limit_sim r4
      · have hn : ¬ (checkExec es.exec = true ∨ (0x63 ≤ o.toNat ∧ o.toNat ≤ 0x68)) := by
          rintro (hh | hh)
          · exact hx hh
          · have : ∀ o : Byte, 0x63 ≤ o.toNat ∧ o.toNat ≤ 0x68 → o = 0x63#8 ∨ o = 0x64#8 ∨ o = 0x67#8 ∨ o = 0x68#8 ∨ Forbidden o := by decide
            rcases this o hh with rfl | rfl | rfl | rfl | hf'
            · exact hc (.inl rfl)
            · exact hc (.inr (.inl rfl))
            · exact hc (.inr (.inr (.inl rfl)))
            · exact hc (.inr (.inr (.inr rfl)))
            · exact hf hf'
        rw [if_neg hx, if_neg hn, ← r2]
        exact limit_sim r1
  · have hop : (Tok.push e d).opcode.toNat ≤ 0x4e := by
      have h1 : (Tok.push e d).Ok := hwf _ (by simp)
      cases e
      · have h1 : d.length < 0x4c := h1
        show (BitVec.ofNat 8 d.length).toNat ≤ 0x4e
        rw [BitVec.toNat_ofNat]
        omega
      · exact (by decide : (0x4c#8 : Byte).toNat ≤ 0x4e)
      · exact (by decide : (0x4d#8 : Byte).toNat ≤ 0x4e)
      · exact (by decide : (0x4e#8 : Byte).toNat ≤ 0x4e)
    have hnd : (Tok.push e d).opcode.toNat ∉ disabled := by
      intro hh
      simp only [disabled, List.mem_cons, List.not_mem_nil, or_false] at hh
      omega
    unfold evalStep
    simp only
    have a1 : ¬ (Tok.push e d).opcode.toNat > 0x60 := by omega
    rw [tick, if_neg hnd]
    simp only [if_neg a1, a1, false_and, if_false, if_pos hop]
    have hd : (Tok.push e d).data = some d := rfl
    rw [hd]
    simp only
    by_cases h5 : d.length ≤ 520
    · rw [if_pos h5, if_neg (by rw [MAX_SCRIPT_ELEMENT_SIZE]; omega), Option.bind_some]
      by_cases hx : checkExec es.exec = true
      · rw [if_pos hx, if_pos hx, perform, Option.bind_some, limitAfter, if_neg (by rw [hL]; decide)]
        exact ⟨_, rfl, ⟨by rw [h.main, snoc_rev], h.alt, h.count, h.code⟩, rfl⟩
      · rw [if_neg hx, if_neg hx]
        exact limit_sim h
    · rw [if_neg h5, if_pos (by rw [MAX_SCRIPT_ELEMENT_SIZE]; omega), Option.bind_none]
      exact rfl

/-- The bounds after a round. -/
theorem step_bounded {L : Lang} (hff : L.ff.length ≤ 1) {M B : Nat} (hM : 520 ≤ M) (hM2 : M < 2 ^ 32) (hB : B < 2 ^ 62) {t : CTransaction} {i : Nat} {after : List Tok} {st st' : St} {u : Tok} {n : Nat}
    {x : Bool} (hb : Bounded M B st (n + 1))
    (h : ((tick st u).bind fun st => if x = true then (perform L t i after st u).bind fun st => limitAfter L st u else limit st) = some st') : Bounded M B st' n := by
  obtain ⟨st1, h1, h⟩ := Option.bind_eq_some_iff.mp h
  obtain ⟨t1, t2, -, -, t3, -⟩ := tick_some h1
  have := hb.len
  have := hb.len'
  split at h
  · obtain ⟨st2, h2, h⟩ := Option.bind_eq_some_iff.mp h
    have hsm := perform_small hff (by omega) hM2 (by rw [t1]; omega) (by rw [t1]; exact hb.small) (by rw [t2]; exact hb.small')
      (fun e d he => Nat.le_trans (t3 e d he) hM) h2
    rcases u with o | ⟨e, d⟩
    · obtain ⟨rfl, hl⟩ := limit_some h
      exact ⟨hsm.1, hsm.2, by omega, by omega⟩
    · rw [perform] at h2
      cases h2
      have : st' = { st1 with main := d :: st1.main } := by
        rw [limitAfter] at h
        split at h
        · exact (limit_some h).1
        · cases h; rfl
      subst this
      refine ⟨hsm.1, hsm.2, ?_, by omega⟩
      simp only [List.length_cons, t1, t2]
      omega
  · obtain ⟨rfl, hl⟩ := limit_some h
    exact ⟨by rw [t1]; exact hb.small, by rw [t2]; exact hb.small', by omega, by omega⟩

namespace Prog

theorem toks_wf {inner : Bool} : ∀ {p : Prog}, p.WF inner → WFToks p.toks
  | .done, _ => fun _ h => by cases h
  | .op t r, h => WFToks.cons h.1 (toks_wf h.2.2.2.2.2)
  | .els r, h => WFToks.cons (show 0x4e < 0x67 by omega) (toks_wf h.2)
  | .cond neg b r, h => by
    refine WFToks.cons (by cases neg <;> decide) ?_
    intro t ht
    rcases List.mem_append.mp ht with ht | ht
    · exact toks_wf h.1 t ht
    · exact WFToks.cons (t := endTok) (show 0x4e < 0x68 by omega) (toks_wf h.2) t ht

end Prog

theorem scriptOf_append (a b : List Tok) : scriptOf (a ++ b) = scriptOf a ++ scriptOf b := by simp [scriptOf]
theorem scriptOf_cons (a : Tok) (b : List Tok) : scriptOf (a :: b) = a.bytes ++ scriptOf b := by simp [scriptOf]

/-- `vfExec` in a conditional, or outside. -/
def ctx (inner : Bool) (l : List Bool) (x : Bool) : List Bool := if inner then l ++ [x] else []

theorem checkExec_ctx {inner : Bool} {l : List Bool} {go x : Bool} (h : inner = true → go = checkExec l) (h' : inner = false → go = true ∧ x = true) :
    checkExec (ctx inner l x) = (go && x) := by
  cases inner
  · obtain ⟨rfl, rfl⟩ := h' rfl; rfl
  · rw [h rfl]; simp [ctx, checkExec]

theorem wf_append {a b : List Tok} (ha : WFToks a) (hb : WFToks b) : WFToks (a ++ b) := fun t ht => (List.mem_append.mp ht).elim (ha t) (hb t)

theorem Bounded.sane {M B : Nat} (hM : M < 2 ^ 32) (hB : B < 2 ^ 62) {st : St} {n : Nat} (h : Bounded M B st n) : Sane st.main :=
  ⟨by have := h.len; omega, fun x hx => by have := h.small x hx; omega⟩

/-- A round with `OP_ELSE`, `OP_ENDIF`, `OP_IF` or `OP_NOTIF`, after the count. -/
theorem cond_sim {C : Crypto} {script : Bytes} {t : CTransaction} {i : Nat} {o : Byte} (ho : o = 0x63#8 ∨ o = 0x64#8 ∨ o = 0x67#8 ∨ o = 0x68#8) {st : St} {es : EvalState} (h : Rel script st es)
    (idx : Nat) {a : St → Option St} {ex : List Bool}
    (hop : ∀ st1 es1, tick st (.op o) = some st1 → Rel script st1 es1 → es1.exec = es.exec →
      Sim script ex (a st1) (evalOp C script t i (checkExec es.exec) ⟨o, none, idx⟩ es1)) :
    Sim script ex ((tick st (.op o)).bind fun st => (a st).bind limit) (evalStep C script t i es ⟨o, none, idx⟩) := by
  have hst := evalStep_op (C := C) (t := t) (i := i) (o := o) (by rcases ho with rfl | rfl | rfl | rfl <;> decide) h idx
  rcases htick : tick st (.op o) with _ | st1
  · rw [htick] at hst
    exact hst
  · rw [htick] at hst
    obtain ⟨es1, r1, r2, -, r3⟩ := hst
    rw [r3, if_pos (.inr (by rcases ho with rfl | rfl | rfl | rfl <;> decide))]
    refine (hop st1 es1 htick r1 r2).bind fun st2 es2 _ r4 r5 => ?_
    rw [← r5]
    exact limit_sim r4

/-- The truth of a stack entry, as a Boolean. -/
def truthy (v : Bytes) : Bool := decide (Truthy v)

theorem located_cons (i : Nat) (u : Tok) (l : List Tok) : located i (u :: l) = ⟨u.opcode, u.data, i⟩ :: located (i + u.bytes.length) l := rfl

/-- What it means that the loop did what the program does: from `es`, over `toks ++ k`. -/
def Done (L : Lang) (t : CTransaction) (i : Nat) (script : Bytes) (M B : Nat) (inner : Bool) (l : List Bool) (pre : Bytes) (toks k : List Tok) (es : EvalState) : Option St → Prop
  | none => evalLoop L.C script t i (located pre.length (toks ++ k)) es = .error .evalScript
  | some st' => ∃ es' x', Rel script st' es' ∧ es'.exec = ctx inner l x' ∧ Bounded M B st' k.length ∧
      evalLoop L.C script t i (located pre.length (toks ++ k)) es = evalLoop L.C script t i (located (pre ++ scriptOf toks).length k) es'

/-- One round, then the rest. -/
theorem Done.step {L : Lang} {t : CTransaction} {i : Nat} {script : Bytes} {M B : Nat} {inner : Bool} {l : List Bool} {pre : Bytes} {u : Tok} {toks k : List Tok} {es : EvalState}
    {ex : List Bool} {a : Option St} {f : St → Option St} (h : Sim script ex a (evalStep L.C script t i es ⟨u.opcode, u.data, pre.length⟩))
    (hf : ∀ st1 es1, a = some st1 → Rel script st1 es1 → es1.exec = ex → Done L t i script M B inner l (pre ++ u.bytes) toks k es1 (f st1)) :
    Done L t i script M B inner l pre (u :: toks) k es (a.bind f) := by
  rcases a with _ | st1
  · have h' : evalStep L.C script t i es ⟨u.opcode, u.data, pre.length⟩ = .error .evalScript := h
    show evalLoop L.C script t i (located pre.length (u :: (toks ++ k))) es = .error .evalScript
    rw [located_cons, evalLoop, h', errb]
  · obtain ⟨es1, h1, h2, h3⟩ := h
    have := hf st1 es1 rfl h2 h3
    rw [Option.bind_some]
    rcases hfs : f st1 with _ | st'
    · rw [hfs] at this
      show evalLoop L.C script t i (located pre.length (u :: (toks ++ k))) es = .error .evalScript
      rw [located_cons, evalLoop, h1, okb]
      have h4 : evalLoop L.C script t i (located (pre ++ u.bytes).length (toks ++ k)) es1 = .error .evalScript := this
      rw [List.length_append] at h4
      exact h4
    · rw [hfs] at this
      obtain ⟨es', x', g1, g2, g3, g4⟩ := this
      refine ⟨es', x', g1, g2, g3, ?_⟩
      show evalLoop L.C script t i (located pre.length (u :: (toks ++ k))) es = _
      rw [located_cons, evalLoop, h1, okb, scriptOf_cons, ← List.append_assoc, ← g4, List.length_append]

/-- One part of the program, then another. -/
theorem Done.append {L : Lang} {t : CTransaction} {i : Nat} {script : Bytes} {M B : Nat} {inner inner' : Bool} {l l' : List Bool} {pre : Bytes} {ts us k : List Tok} {es : EvalState}
    {a : Option St} {f : St → Option St} (h : Done L t i script M B inner l pre ts (us ++ k) es a)
    (hf : ∀ st1 es1 x, a = some st1 → Rel script st1 es1 → es1.exec = ctx inner l x → Bounded M B st1 (us ++ k).length → Done L t i script M B inner' l' (pre ++ scriptOf ts) us k es1 (f st1)) :
    Done L t i script M B inner' l' pre (ts ++ us) k es (a.bind f) := by
  rcases a with _ | st1
  · have h' : evalLoop L.C script t i (located pre.length (ts ++ (us ++ k))) es = .error .evalScript := h
    show evalLoop L.C script t i (located pre.length (ts ++ us ++ k)) es = .error .evalScript
    rw [List.append_assoc, h']
  · obtain ⟨es1, x, h1, h2, h3, h4⟩ := h
    have := hf st1 es1 x rfl h1 h2 h3
    rw [Option.bind_some]
    rcases hfs : f st1 with _ | st'
    · rw [hfs] at this
      show evalLoop L.C script t i (located pre.length (ts ++ us ++ k)) es = .error .evalScript
      rw [List.append_assoc, h4]
      exact this
    · rw [hfs] at this
      obtain ⟨es', x', g1, g2, g3, g4⟩ := this
      refine ⟨es', x', g1, g2, g3, ?_⟩
      rw [List.append_assoc, h4, g4, scriptOf_append, List.append_assoc]

theorem bind_assoc_limit (st : Option St) (a : St → Option St) (f : St → Option St) :
    (st.bind fun st => (a st).bind fun st => (limit st).bind f) = (st.bind fun st => (a st).bind limit).bind f := by
  rcases st with _ | st
  · rfl
  · simp only [Option.bind_some]
    rcases a st with _ | st
    · rfl
    · rfl

theorem run_sim {L : Lang} (hL : L.strict = false) {t : CTransaction} {script : Bytes} (hF : Fixed L t script) {i : Nat} {M B : Nat} (hM : 520 ≤ M) (hM2 : M < 2 ^ 32) (hB : B < 2 ^ 62) :
    ∀ (p : Prog) {inner : Bool} {pre : Bytes} {k : List Tok} {go x : Bool} {l : List Bool} {st : St} {es : EvalState}, p.WF inner → WFToks k → script = pre ++ scriptOf (p.toks ++ k) →
    Rel script st es → es.exec = ctx inner l x → (inner = true → go = checkExec l) → (inner = false → go = true ∧ x = true) → Bounded M B st (p.toks ++ k).length →
    Done L t i script M B inner l pre p.toks k es (p.run L t i k go x st) := by
  have hff : L.ff.length ≤ 1 := by rw [hF.ff]; exact Nat.le_refl 1
  intro p
  induction p with
  | done =>
    intro inner pre k go x l st es hwf hk hsc hr hex hgo hno hb
    refine ⟨es, x, hr, hex, hb, ?_⟩
    show evalLoop _ _ _ _ (located pre.length ([] ++ k)) es = evalLoop _ _ _ _ (located (pre ++ scriptOf []).length k) es
    have : scriptOf [] = [] := rfl
    rw [this, List.append_nil, List.nil_append]
  | op u r ih =>
    intro inner pre k go x l st es hwf hk hsc hr hex hgo hno hb
    obtain ⟨w1, w2, w3, w4, w5, w6⟩ := hwf
    have hxx := checkExec_ctx hgo hno
    rw [← hex] at hxx
    have hwf' : WFToks (u :: (r.toks ++ k)) := WFToks.cons w1 (wf_append (Prog.toks_wf w6) hk)
    have hs := step_sim hL hF (i := i) hsc hwf' (by rintro (h | h | h | h) <;> contradiction) hr (hb.sane hM2 hB)
    rw [hxx] at hs
    have hrun : (Prog.op u r).run L t i k go x st = ((tick st u).bind fun st => if (go && x) = true then (perform L t i (r.toks ++ k) st u).bind fun st => limitAfter L st u else limit st).bind
        fun st => r.run L t i k go x st := by
      rw [Prog.run]
      rcases tick st u with _ | st1
      · rfl
      · simp only [Option.bind_eq_bind, Option.bind_some]
        by_cases hgx : (go && x) = true
        · rw [if_pos hgx, if_pos hgx]
        · rw [if_neg hgx, if_neg hgx]
    rw [hrun]
    refine Done.step hs fun st1 es1 h1 h2 h3 => ?_
    exact ih w6 hk (by rw [List.append_assoc, ← scriptOf_cons]; exact hsc) h2 (by rw [h3, hex]) hgo hno (step_bounded hff hM hM2 hB hb h1)
  | els r ih =>
    intro inner pre k go x l st es hwf hk hsc hr hex hgo hno hb
    obtain ⟨rfl, w1⟩ := hwf
    have hrun : (Prog.els r).run L t i k go x st = ((tick st Prog.elseTok).bind fun st => (some st).bind limit).bind fun st => r.run L t i k go (!x) st := by
      rw [Prog.run]
      rcases tick st Prog.elseTok with _ | st1 <;> rfl
    rw [hrun]
    have hs : Sim script (ctx true l (!x)) ((tick st Prog.elseTok).bind fun st => (some st).bind limit) (evalStep L.C script t i es ⟨0x67#8, none, pre.length⟩) := by
      refine cond_sim (o := 0x67#8) (by simp) hr pre.length fun st1 es1 h1 h2 h3 => ?_
      have : evalOp L.C script t i (checkExec es.exec) ⟨0x67#8, none, pre.length⟩ es1 = .ok { es1 with exec := ctx true l (!x) } := by
        unfold evalOp
        simp only
        rw [if_neg (by decide), if_neg (by decide), if_neg (by decide), if_pos (by decide), h3, hex]
        simp [ctx]
      rw [this]
      exact ⟨_, rfl, ⟨h2.main, h2.alt, h2.count, h2.code⟩, rfl⟩
    refine Done.step (u := Prog.elseTok) hs fun st1 es1 h1 h2 h3 => ?_
    have hb' : Bounded M B st1 (r.toks ++ k).length := by
      obtain ⟨st2, g1, g2⟩ := Option.bind_eq_some_iff.mp h1
      obtain ⟨t1, t2, -⟩ := tick_some g1
      obtain ⟨rfl, hl⟩ := limit_some (by simpa using g2)
      have := hb.len'
      have he : ((Prog.els r).toks ++ k).length = (r.toks ++ k).length + 1 := rfl
      rw [he] at this
      exact ⟨by rw [t1]; exact hb.small, by rw [t2]; exact hb.small', by omega, by omega⟩
    exact ih w1 hk (by rw [List.append_assoc, ← scriptOf_cons]; exact hsc) h2 h3 hgo (fun h => by cases h) hb'
  | cond neg b r ihb ihr =>
    intro inner pre k go x l st es hwf hk hsc hr hex hgo hno hb
    obtain ⟨w1, w2⟩ := hwf
    have hxx := checkExec_ctx hgo hno
    rw [← hex] at hxx
    have hkr : WFToks (Prog.endTok :: (r.toks ++ k)) := WFToks.cons (show 0x4e < 0x68 by omega) (wf_append (Prog.toks_wf w2) hk)
    have htoks : (Prog.cond neg b r).toks ++ k = Prog.ifTok neg :: (b.toks ++ Prog.endTok :: (r.toks ++ k)) := by simp [Prog.toks]
    have hlen : ((Prog.cond neg b r).toks ++ k).length = (b.toks ++ Prog.endTok :: (r.toks ++ k)).length + 1 := by rw [htoks]; rfl
    have hlen2 : (b.toks ++ Prog.endTok :: (r.toks ++ k)).length = b.toks.length + 1 + (r.toks ++ k).length := by simp; omega
    have hsc' : script = (pre ++ (Prog.ifTok neg).bytes) ++ scriptOf (b.toks ++ Prog.endTok :: (r.toks ++ k)) := by
      rw [hsc, htoks, scriptOf_cons, List.append_assoc]
    -- the rest after the body
    have hrest : ∀ (st1 : St) (es1 : EvalState) (y : Bool), Rel script st1 es1 → es1.exec = ctx true es.exec y → Bounded M B st1 (Prog.endTok :: (r.toks ++ k)).length →
        Done L t i script M B inner l (pre ++ (Prog.ifTok neg).bytes ++ scriptOf b.toks) (Prog.endTok :: r.toks) k es1
          (((tick st1 Prog.endTok).bind fun st => (some st).bind limit).bind fun st => r.run L t i k go x st) := by
      intro st1 es1 y h1 h2 h3
      have hs : Sim script es.exec ((tick st1 Prog.endTok).bind fun st => (some st).bind limit)
          (evalStep L.C script t i es1 ⟨0x68#8, none, (pre ++ (Prog.ifTok neg).bytes ++ scriptOf b.toks).length⟩) := by
        refine cond_sim (o := 0x68#8) (by simp) h1 _ fun st2 es2 g1 g2 g3 => ?_
        have : evalOp L.C script t i (checkExec es1.exec) ⟨0x68#8, none, (pre ++ (Prog.ifTok neg).bytes ++ scriptOf b.toks).length⟩ es2 = .ok { es2 with exec := es.exec } := by
          unfold evalOp
          simp only
          rw [if_neg (by decide), if_neg (by decide), if_neg (by decide), if_neg (by decide), if_pos (by decide), g3, h2]
          simp [ctx]
        rw [this]
        exact ⟨_, rfl, ⟨g2.main, g2.alt, g2.count, g2.code⟩, rfl⟩
      refine Done.step (u := Prog.endTok) hs fun st2 es2 g1 g2 g3 => ?_
      have hb' : Bounded M B st2 (r.toks ++ k).length := by
        obtain ⟨st3, g4, g5⟩ := Option.bind_eq_some_iff.mp g1
        obtain ⟨t1, t2, -⟩ := tick_some g4
        obtain ⟨rfl, hl⟩ := limit_some (by simpa using g5)
        have := h3.len'
        rw [List.length_cons] at this
        exact ⟨by rw [t1]; exact h3.small, by rw [t2]; exact h3.small', by omega, by omega⟩
      refine ihr w2 hk ?_ g2 (by rw [g3, hex]) hgo hno hb'
      rw [hsc', scriptOf_append, scriptOf_cons]
      simp only [List.append_assoc]
    -- the body
    have hbody : ∀ (st1 : St) (es1 : EvalState) (y : Bool), Rel script st1 es1 → es1.exec = ctx true es.exec y → Bounded M B st1 (b.toks ++ Prog.endTok :: (r.toks ++ k)).length →
        Done L t i script M B inner l (pre ++ (Prog.ifTok neg).bytes) (b.toks ++ Prog.endTok :: r.toks) k es1
          ((b.run L t i (Prog.endTok :: (r.toks ++ k)) (go && x) y st1).bind fun st => ((tick st Prog.endTok).bind fun st => (some st).bind limit).bind fun st => r.run L t i k go x st) := by
      intro st1 es1 y h1 h2 h3
      have hd := ihb (inner := true) (go := go && x) (x := y) (l := es.exec) w1 hkr hsc' h1 h2 (fun _ => hxx.symm) (fun h => by cases h) h3
      exact Done.append hd fun st2 es2 z _ g2 g3 g4 => hrest st2 es2 z g2 g3 g4
    have hbound : ∀ {st0 st1 : St}, AllLe M st0.main → AllLe M st0.alt → limit st0 = some st1 → Bounded M B st1 (b.toks ++ Prog.endTok :: (r.toks ++ k)).length := by
      intro st0 st1 h1 h2 h3
      obtain ⟨rfl, hl⟩ := limit_some h3
      have := hb.len'
      rw [hlen] at this
      exact ⟨h1, h2, by omega, by omega⟩
    have hdata : (Prog.ifTok neg).data = none := rfl
    have hopc : (Prog.ifTok neg).opcode = if neg then 0x64#8 else 0x63#8 := rfl
    by_cases hgx : (go && x) = true
    · -- executed
      have hrun : (Prog.cond neg b r).run L t i k go x st = (((tick st (Prog.ifTok neg)).bind fun st => (match st.main with
            | _ :: s => some { st with main := s }
            | [] => none : Option St).bind limit).bind fun st' => (b.run L t i (Prog.endTok :: (r.toks ++ k)) (go && x) (xor neg (truthy (st.main.headD []))) st').bind
              fun st => ((tick st Prog.endTok).bind fun st => (some st).bind limit).bind fun st => r.run L t i k go x st) := by
        have hmain : ∀ s1, tick st (Prog.ifTok neg) = some s1 → s1.main = st.main := fun s1 h1 => (tick_some h1).1
        rw [Prog.run]
        rcases htick : tick st (Prog.ifTok neg) with _ | st1
        · rfl
        · have hm := hmain st1 htick
          simp only [Option.bind_eq_bind, Option.bind_some, if_pos hgx]
          rw [hm]
          rcases st.main with _ | ⟨v, s⟩
          · rfl
          · simp only [Option.bind_some, List.headD_cons]
            rcases limit { st1 with main := s } with _ | st2
            · rfl
            · simp only [Option.bind_some]
              change (Option.bind (b.run L t i (Prog.endTok :: (r.toks ++ k)) (go && x) (xor neg (truthy v)) st2) _) = _
              generalize b.run L t i (Prog.endTok :: (r.toks ++ k)) (go && x) (xor neg (truthy v)) st2 = w
              rcases w with _ | st3
              · rfl
              · simp only [Option.bind_some]
                rcases tick st3 Prog.endTok with _ | st4 <;> rfl
      rw [hrun]
      have hs : Sim script (ctx true es.exec (xor neg (truthy (st.main.headD [])))) ((tick st (Prog.ifTok neg)).bind fun st => (match st.main with
            | _ :: s => some { st with main := s }
            | [] => none : Option St).bind limit) (evalStep L.C script t i es ⟨(Prog.ifTok neg).opcode, (Prog.ifTok neg).data, pre.length⟩) := by
        rw [hdata, hopc]
        refine cond_sim (o := if neg then 0x64#8 else 0x63#8) (by cases neg <;> simp) hr pre.length fun st1 es1 h1 h2 h3 => ?_
        have hm := (tick_some h1).1
        unfold evalOp
        simp only
        rw [hxx, hgx, if_neg (by cases neg <;> decide), if_neg (by cases neg <;> decide), if_neg (by cases neg <;> decide), if_neg (by cases neg <;> decide),
          if_neg (by cases neg <;> decide), if_neg (by cases neg <;> decide), if_pos (by cases neg <;> decide), if_pos rfl, h2.main, hm]
        rcases st.main with _ | ⟨v, s⟩
        · rw [checkArgs_rev, if_pos (by simp), errb]; exact rfl
        · rw [checkArgs_rev, if_neg (by simp), okb, pop_rev, okb]
          refine ⟨_, rfl, ⟨rfl, h2.alt, h2.count, h2.code⟩, ?_⟩
          simp only [h3, ctx, if_true, List.headD_cons]
          congr 2
          cases neg
          · simp only [Bool.false_eq_true, if_false, Bool.false_xor]
            rw [if_neg (by decide), Bool.eq_iff_iff, castToBool_iff, truthy, decide_eq_true_iff]
          · simp only [if_true, Bool.true_xor]
            rw [if_pos (by decide)]
            congr 1
            rw [Bool.eq_iff_iff, castToBool_iff, truthy, decide_eq_true_iff]
      refine Done.step (u := Prog.ifTok neg) hs fun st1 es1 h1 h2 h3 => hbody st1 es1 _ h2 h3 ?_
      obtain ⟨st2, g1, g2⟩ := Option.bind_eq_some_iff.mp h1
      obtain ⟨t1, t2, -⟩ := tick_some g1
      obtain ⟨st3, g3, g4⟩ := Option.bind_eq_some_iff.mp g2
      rw [t1] at g3
      have hsm := hb.small
      rcases hmm : st.main with _ | ⟨v, s⟩
      · rw [hmm] at g3; cases g3
      · rw [hmm] at g3 hsm
        cases g3
        exact hbound (AllLe.cons.mp hsm).2 (by simp only [t2]; exact hb.small') g4
    · have hrun : (Prog.cond neg b r).run L t i k go x st = (((tick st (Prog.ifTok neg)).bind fun st => (some st).bind limit).bind fun st' =>
          (b.run L t i (Prog.endTok :: (r.toks ++ k)) (go && x) false st').bind
              fun st => ((tick st Prog.endTok).bind fun st => (some st).bind limit).bind fun st => r.run L t i k go x st) := by
        rw [Prog.run]
        rcases htick : tick st (Prog.ifTok neg) with _ | st1
        · rfl
        · simp only [Option.bind_eq_bind, Option.bind_some, if_neg hgx]
          rcases limit st1 with _ | st2
          · rfl
          · simp only [Option.bind_some]
            rcases b.run L t i (Prog.endTok :: (r.toks ++ k)) (go && x) false st2 with _ | st3
            · rfl
            · simp only [Option.bind_some]
              rcases tick st3 Prog.endTok with _ | st4 <;> rfl
      rw [hrun]
      have hgx' : (go && x) = false := by cases h : (go && x) <;> simp_all
      have hs : Sim script (ctx true es.exec false) ((tick st (Prog.ifTok neg)).bind fun st => (some st).bind limit)
          (evalStep L.C script t i es ⟨(Prog.ifTok neg).opcode, (Prog.ifTok neg).data, pre.length⟩) := by
        rw [hdata, hopc]
        refine cond_sim (o := if neg then 0x64#8 else 0x63#8) (by cases neg <;> simp) hr pre.length fun st1 es1 h1 h2 h3 => ?_
        unfold evalOp
        simp only
        rw [hxx, hgx', if_neg (by cases neg <;> decide), if_neg (by cases neg <;> decide), if_neg (by cases neg <;> decide), if_neg (by cases neg <;> decide),
          if_neg (by cases neg <;> decide), if_neg (by cases neg <;> decide), if_pos (by cases neg <;> decide), if_neg (by decide)]
        exact ⟨_, rfl, ⟨h2.main, h2.alt, h2.count, h2.code⟩, by simp only [h3, ctx, if_true]⟩
      refine Done.step (u := Prog.ifTok neg) hs fun st1 es1 h1 h2 h3 => hbody st1 es1 _ h2 h3 ?_
      obtain ⟨st2, g1, g2⟩ := Option.bind_eq_some_iff.mp h1
      obtain ⟨t1, t2, -⟩ := tick_some g1
      exact hbound (by rw [t1]; exact hb.small) (by rw [t2]; exact hb.small') (by simpa using g2)

end Verif.Btc
