import Verif.Lemmas.Repr
import Verif.Lemmas.ScriptMore
/-! # The texts of scripts -/
namespace Verif.Rp
open Verif Verif.Btc Verif.Sus Verif.Rpc

/-! ## Items -/

/-- The expression for an item. -/
def itemExpr : Item → Expr
  | .op o =>
    match opName o with
    | some s => .name s.toList
    | none => .call "CScriptOp".toList [.num ('0' :: 'x' :: hexNat o.toNat)]
  | .int n => intExpr n
  | .data d => .call "x".toList [.str (b2x d)]

/-- Its value. -/
def itemVal : Item → Val
  | .op o => .op o
  | .int n => .int n
  | .data d => .bytes d

theorem names_ok : ∀ e ∈ opNames, (∃ c t, e.2.toList = c :: t ∧ decChar c = false) ∧ (∀ x ∈ e.2.toList, wordChar x = true) ∧ e.2.toList ≠ "COIN".toList ∧
    (opConsts.find? fun f => f.1.toList = e.2.toList).map (·.2) = some e.1 := by
  have h : ∀ e ∈ opNames, (e.2.toList.head?.any fun c => !decChar c) = true ∧ (∀ x ∈ e.2.toList, wordChar x = true) ∧ e.2.toList ≠ "COIN".toList ∧
    (opConsts.find? fun f => f.1.toList = e.2.toList).map (·.2) = some e.1 := by decide +kernel
  intro e he
  obtain ⟨h1, h2⟩ := h e he
  refine ⟨?_, h2⟩
  cases hl : e.2.toList with
  | nil => rw [hl] at h1; simp at h1
  | cons c t => rw [hl] at h1; exact ⟨c, t, rfl, by simpa using h1⟩

theorem opName_some {o : Byte} {s : String} (h : opName o = some s) : (o.toNat, s) ∈ opNames := by
  unfold opName at h
  cases hf : opNames.find? (fun e => e.1 == o.toNat) with
  | none => rw [hf] at h; simp at h
  | some e =>
    rw [hf] at h
    simp at h
    have h1 := List.find?_some hf
    have h2 := List.mem_of_find?_eq_some hf
    simp at h1
    rw [← h1, ← h]
    exact h2

theorem hexWord {s : Str} (h : ∀ x ∈ s, ∃ d : Fin 16, x = hexChar d) : ∀ x ∈ s, x ≠ '\'' ∧ x ≠ '\\' ∧ x ≠ '\n' := by
  intro x hx
  obtain ⟨d, rfl⟩ := h x hx
  have := hexChar_word d
  exact ⟨this.2.1, this.2.2.1, this.2.2.2.1⟩

theorem data_args (d : Bytes) : ArgsAt ('\'' :: (b2x d ++ ['\''])) ')' [.str (b2x d)] false :=
  args_one (.inl rfl) (str_at (hexWord fun _ hx => mem_b2x hx)).expr

theorem data_text (d : Bytes) : reprItem (.data d) = 'x' :: [] ++ '(' :: (('\'' :: (b2x d ++ ['\''])) ++ [')']) := by
  simp [reprItem]

theorem item_at (i : Item) : AtomAt (reprItem i) (itemExpr i) := by
  cases i with
  | int n => exact dec_at n
  | data d =>
    rw [data_text]
    exact call_at (by decide) (by decide) (data_args d)
  | op o =>
    simp only [reprItem, reprOp, itemExpr]
    cases h : opName o with
    | some s =>
      obtain ⟨⟨c, t, e, h1⟩, h2, -⟩ := names_ok _ (opName_some h)
      simp only at e h2 ⊢
      rw [e] at h2 ⊢
      exact name_at h1 h2
    | none =>
      have hx := hex_at (i := (o.toNat : Int)) (by omega)
      have e : "CScriptOp(0x".toList ++ (hexNat o.toNat ++ ")".toList) = 'C' :: "ScriptOp".toList ++ '(' :: (("0x".toList ++ hexInt (o.toNat : Int)) ++ [')']) := by
        rw [hexInt, if_neg (by omega)]
        simp
      simp only
      rw [e]
      refine call_at (by decide) (by decide) (args_one (.inl rfl) ?_)
      simpa using hx.expr

theorem result_ok {α} {x : Py α} {f : α → Val} {a : α} (h : x = .ok a) : result x f = some (f a) := by rw [h]; rfl

theorem eval_item (i : Item) : eval (itemExpr i) = some (itemVal i) := by
  cases i with
  | int n => exact eval_int n
  | data d =>
    simp only [itemExpr, eval, evals, Option.bind_eq_bind, Option.bind_some]
    exact result_ok (unhex_b2x d)
  | op o =>
    simp only [itemExpr]
    cases h : opName o with
    | some s =>
      obtain ⟨-, -, h1, h2⟩ := names_ok _ (opName_some h)
      simp only at h1 h2
      simp only [eval, if_neg h1]
      cases hf : opConsts.find? (fun f => decide (f.1.toList = s.toList)) with
      | none => rw [hf] at h2; simp at h2
      | some e =>
        rw [hf] at h2
        simp at h2
        simp [h2, itemVal]
    | none =>
      have := eval_hex (i := (o.toNat : Int)) (by omega)
      simp only [Int.natAbs_natCast] at this
      simp only [eval, evals, Option.bind_eq_bind] at this ⊢
      rw [this]
      simp only [Option.bind_some, pure]
      show (if 0 ≤ (o.toNat : Int) ∧ (o.toNat : Int) ≤ 0xff then some (Val.op (BitVec.ofInt 8 (o.toNat : Int))) else none) = _
      have := o.isLt
      rw [if_pos (by omega)]
      congr 2
      simp

theorem val_item (i : Item) : (itemVal i).item = some i := by cases i <;> rfl

theorem evals_map {α} {f : α → Expr} {g : α → Val} (h : ∀ a, eval (f a) = some (g a)) : ∀ as : List α, evals (as.map f) = some (as.map g)
  | [] => rfl
  | a :: as => by simp [evals, h, evals_map h as]

theorem mapM_some {α β} {f : α → Option β} {g : β → α} (h : ∀ b, f (g b) = some b) : ∀ bs : List β, (bs.map g).mapM f = some bs
  | [] => rfl
  | b :: bs => by
    rw [List.map_cons, List.mapM_cons, h, mapM_some h bs]; rfl

/-! ## Scripts -/

def scriptExpr (is : List Item) : Expr := .call "CScript".toList [.list (is.map itemExpr)]

theorem eval_script (is : List Item) : eval (scriptExpr is) = result (mkScript is) .script := by
  simp only [scriptExpr, eval, evals, evals_map eval_item, Option.bind_eq_bind, Option.bind_some, pure]
  show (do
    let vs ← (Val.list (is.map itemVal)).elems
    let is ← vs.mapM Val.item
    result (mkScript is) .script) = _
  simp only [Val.elems, Option.bind_eq_bind, Option.bind_some, mapM_some val_item]

theorem forall₂_map {α β γ} {R : β → γ → Prop} {f : α → β} {g : α → γ} (h : ∀ a, R (f a) (g a)) : ∀ as : List α, List.Forall₂ R (as.map f) (as.map g)
  | [] => .nil
  | a :: as => .cons (h a) (forall₂_map h as)

theorem script_text (ops : List Str) : "CScript([".toList ++ (join ops ++ "])".toList) = 'C' :: "Script".toList ++ '(' :: (('[' :: (join ops ++ [']'])) ++ [')']) := by
  simp

theorem script_at (is : List Item) : AtomAt ("CScript([".toList ++ (join (is.map reprItem) ++ "])".toList)) (scriptExpr is) := by
  rw [script_text]
  exact call_at (by decide) (by decide) (args_one (.inl rfl) (list_at (args_join (.inr rfl) (forall₂_map (fun i => (item_at i).expr) is)).1).expr)

/-- The text of a script. -/
theorem reprOps_eq : ∀ (n : Nat) (ts : List Tok) (bad : Bytes), WFToks ts → (bad ≠ [] → ∃ e, rawOp bad = .error e) → (scriptOf ts ++ bad).length ≤ n →
    reprOps n (scriptOf ts ++ bad) = .ok (ts.map (fun t => reprItem t.item) ++ if bad = [] then [] else [reprBad bad])
  | 0, [], bad, _, _, hl => by
    have : bad = [] := by simpa [scriptOf] using hl
    simp [reprOps, this]
  | 0, t :: ts, bad, _, _, hl => by
    have := t.bytes_length_pos
    simp [scriptOf] at hl
    simp [hl.1] at this
  | n + 1, [], bad, _, hb, hl => by
    by_cases h : bad = []
    · simp [reprOps, scriptOf, h]
    · obtain ⟨e, he⟩ := hb h
      have h0 : ¬ bad.length = 0 := by simpa using h
      simp [reprOps, scriptOf, h, h0, he]
  | n + 1, t :: ts, bad, hw, hb, hl => by
    have hp := t.bytes_length_pos
    have e : scriptOf (t :: ts) ++ bad = t.bytes ++ (scriptOf ts ++ bad) := by simp [scriptOf]
    rw [e] at hl ⊢
    rw [List.length_append] at hl
    have ih := reprOps_eq n ts bad (fun u hu => hw u (by simp [hu])) hb (by omega)
    have h0 : ¬ (t.bytes ++ (scriptOf ts ++ bad)).length = 0 := by rw [List.length_append]; omega
    simp only [reprOps, if_neg h0, rawOp_tok (hw t (by simp))]
    rw [cook_tok (hw t (by simp)), Except.bind_ok, ih, Except.bind_ok]
    rfl

theorem bad_error {bad : Bytes} (hb : ∀ (t : Tok) (r : Bytes), t.Ok → bad ≠ t.bytes ++ r) : ∃ e, rawOp bad = .error e := by
  rcases hr : rawOp bad with e | ⟨op, d, s'⟩
  · exact ⟨e, rfl⟩
  · obtain ⟨t, ht, e, -⟩ := rawOp_ok hr
    exact absurd e (hb t s' ht)

theorem reprScript_ok {ts : List Tok} (h : WFToks ts) : reprScript (scriptOf ts) = .ok ("CScript([".toList ++ (join ((ts.map Tok.item).map reprItem) ++ "])".toList)) := by
  have := reprOps_eq (scriptOf ts).length ts [] h (fun h => absurd rfl h) (by simp)
  rw [List.append_nil] at this
  simp only [reprScript, this, Except.bind_ok, List.map_map, if_true, List.append_nil]
  rfl

theorem reprBad_at {bad : Bytes} (h0 : bad ≠ []) (hb : ∃ e, rawOp bad = .error e) : BadAt (reprBad bad) ∧ reprBad bad ≠ [] := by
  cases bad with
  | nil => exact absurd rfl h0
  | cons op s =>
    simp only [reprBad]
    cases hd : dataSize op s with
    | error e =>
      refine ⟨?_, by simp⟩
      have ht : "<ERROR: ".toList = '<' :: "ERROR: ".toList := rfl
      simp only [ht, List.cons_append]
      refine bad_of_none ⟨'<', _, rfl, by decide, by decide, by decide⟩ ?_
      intro n hn rest
      obtain ⟨m, rfl⟩ : ∃ m, n = m + 1 := ⟨n - 1, by simp at hn; omega⟩
      rw [List.cons_append]
      simp [pAtom, show wordChar '<' = false by decide]
    | ok p =>
      obtain ⟨k, d⟩ := p
      simp only
      rw [data_text]
      refine ⟨?_, by simp⟩
      intro n hn rest
      obtain ⟨m, rfl⟩ : ∃ m, n = m + 1 := ⟨n - 1, by omega⟩
      refine ⟨⟨'x', _, rfl, by decide, by decide, by decide⟩, Or.inr ?_⟩
      have hr := call_run (c := 'x') (f := []) (by decide) (by decide) (data_args d) m
        (by simp only [List.length_append] at hn ⊢; omega) (("...<ERROR: ".toList ++ (pushName op ++ ": truncated data>".toList)) ++ rest)
      rw [← List.append_assoc] at hr
      simp only [pExpr]
      rw [hr]
      exact ⟨_, '.', _, rfl, by decide, by decide, by decide⟩

theorem reprScript_bad {ts : List Tok} {bad : Bytes} (h : WFToks ts) (h0 : bad ≠ []) (hb : ∃ e, rawOp bad = .error e) :
    ∃ text, reprScript (scriptOf ts ++ bad) = .ok text ∧ BadAt text ∧ text ≠ [] := by
  have := reprOps_eq (scriptOf ts ++ bad).length ts bad h (fun _ => hb) (le_refl _)
  rw [if_neg h0] at this
  obtain ⟨hb1, hb2⟩ := reprBad_at h0 hb
  refine ⟨_, by simp only [reprScript, this, Except.bind_ok]; rfl, ?_, by simp⟩
  rw [script_text]
  have hn := (no_args (close := ']') (.inr rfl) (forall₂_map (f := fun t : Tok => reprItem t.item) (fun t => (item_at t.item).expr) ts) hb1 hb2 []).1
  have hl := list_bad (t := [']']) hn (by simp)
  have hc := hl.args (close := ')') (.inl rfl) (t := [])
  rw [List.append_nil] at hc
  exact call_bad (c := 'C') (f := "Script".toList) (t := [')']) (by decide) (by decide) hc

end Verif.Rp
