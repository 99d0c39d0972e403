import Verif.Lemmas.ScriptSmall
/-! # Programs and the loop -/
namespace Verif.Btc
open Verif

theorem checkMultiSig_eq (L : Lang) (hff : L.ff = [0x00#8]) {cs : List Tok} (hcs : WFToks cs) (hlen : (scriptOf cs).length ≤ 10000) {t : CTransaction} (ht : TxFits t) (i : Nat)
    (st : St) (hst : Sane st.main) (hcode : cs.filter (fun t => t ≠ .op 0xab#8) = st.code.filter (fun t => t ≠ .op 0xab#8)) (v : Bool) :
    checkMultiSig L.C (if v then 0xaf else 0xae) (scriptOf cs) st.main.reverse t i st.count =
      match multisig L t i v st with
      | some st' => .ok (st'.main.reverse, st'.count)
      | none => .error .evalScript := by
  obtain ⟨r, alt, n, code⟩ := st
  simp only at hst hcode ⊢
  generalize ho : (if v = true then 0xaf else 0xae) = o
  unfold checkMultiSig multisig
  rcases r with _ | ⟨nb, s⟩
  · rw [checkArgs_rev, if_pos (by simp), errb]
  rw [checkArgs_rev, if_neg (by simp), okb, neg_rev, List.getElem?_cons_zero]
  simp only [okb]
  rw [castToBigNum_eq (hst.2 nb (by simp))]
  rcases hn : arg nb with _ | keys
  · simp only [errb, Option.bind_eq_bind, Option.bind_none]
  simp only [okb, Option.bind_eq_bind, Option.bind_some]
  by_cases hk : keys < 0 ∨ keys > 20
  · rw [if_pos hk, if_pos (by omega)]
  rw [if_neg hk]
  by_cases hc : n + keys.toNat > MAX_SCRIPT_OPCODES
  · rw [if_pos hc, if_pos (by rw [MAX_SCRIPT_OPCODES] at hc; omega)]
  rw [if_neg hc, if_neg (by rw [MAX_SCRIPT_OPCODES] at hc; omega)]
  generalize hK : keys.toNat = K
  rw [checkArgs_rev, List.length_cons]
  rcases hd : s.drop K with _ | ⟨mb, s'⟩
  · have : s.length ≤ K := List.drop_eq_nil_iff.mp hd
    rw [if_pos (by omega), errb]
  have hKl : K < s.length := by
    rcases Nat.lt_or_ge K s.length with h | h
    · exact h
    · rw [List.drop_eq_nil_of_le h] at hd; cases hd
  rw [if_neg (by omega), okb, show 2 + K = (K + 1) + 1 by omega, neg_rev, List.getElem?_cons_succ, List.getElem?_eq_getElem hKl]
  have hmb : s[K] = mb ∧ s.drop (K + 1) = s' := by
    rw [List.drop_eq_getElem_cons hKl] at hd
    exact List.cons.inj hd
  simp only [okb, hmb.1]
  rw [castToBigNum_eq (hst.2 mb (by rw [← hmb.1]; exact List.mem_cons_of_mem _ (List.getElem_mem hKl)))]
  rcases hm : arg mb with _ | sigs
  · simp only [errb, Option.bind_none]
  simp only [okb, Option.bind_some]
  by_cases hs : sigs < 0 ∨ sigs > keys
  · rw [if_pos hs, if_pos (by omega)]
  rw [if_neg hs, if_neg (by omega)]
  generalize hS : sigs.toNat = S
  have hSK : S ≤ K := by omega
  have hs'l : s'.length = s.length - (K + 1) := by rw [← hmb.2, List.length_drop]
  simp only [checkArgs_rev, List.length_cons]
  rcases hd' : s'.drop S with _ | ⟨dummy, s''⟩
  · have : s'.length ≤ S := List.drop_eq_nil_iff.mp hd'
    by_cases h1 : s.length + 1 < K + 1 + 1 + 1 + S - 1
    · rw [if_pos h1, errb]
    · rw [if_neg h1, okb, if_pos (by omega), errb]
  have hSl : S < s'.length := by
    rcases Nat.lt_or_ge S s'.length with h | h
    · exact h
    · rw [List.drop_eq_nil_of_le h] at hd'; cases hd'
  rw [if_neg (by omega), okb, if_neg (by omega), okb]
  have hdr : (nb :: s).drop (K + 1 + 1) = s' := by rw [List.drop_succ_cons]; exact hmb.2
  have hsigs : (List.range S).map (fun k => (nb :: s).getD (K + 1 + 1 + k) []) = s'.take S := by
    rw [range_getD _ _ _ (by rw [List.length_cons]; omega), hdr]
  rw [dropSigs_eq hst.2 (K + 1 + 1) _ cs hcs (fun k hk' => by have := List.mem_range.mp hk'; rw [List.length_cons]; omega), okb, hsigs]
  have hlen' : (codeOf (without (s'.take S) cs)).length ≤ MAX_SIZE := by
    have h1 := scriptOf_filter_length (fun t => decide (t ≠ .op 0xab#8)) (without (s'.take S) cs)
    have h2 := scriptOf_filter_length (fun t => decide (¬ ∃ d ∈ s'.take S, t = .push (shortest d) d)) cs
    unfold codeOf
    have h3 : 10000 ≤ MAX_SIZE := by decide
    exact Nat.le_trans h1 (Nat.le_trans h2 (Nat.le_trans hlen h3))
  have hl := multiSigLoop_eq L.C (without_wf hcs (s'.take S)) hlen' ht i (nb :: s) K (K + 1 + 1) 1 S (by rw [List.length_cons]; omega) (by rw [List.length_cons]; omega)
  rw [hl, okb, hdr, greedy_eq, goodSig_congr L.C (codeOf_without hcode (s'.take S)), List.drop_succ_cons, List.drop_zero]
  generalize matching (goodSig L.C t i (without (s'.take S) code)) (s'.take S) (s.take K) = b
  have hpop : popN (K + 1 + 1 + 1 + S) (nb :: s).reverse = .ok s''.reverse := by
    rw [popN_rev _ _ (by rw [List.length_cons]; omega), show K + 1 + 1 + 1 + S = (K + 1 + 1) + (S + 1) by omega, ← List.drop_drop, hdr]
    rw [List.drop_eq_getElem_cons hSl] at hd'
    rw [(List.cons.inj hd').2]
  rw [hpop]
  cases b <;> cases v <;> simp only [if_true, Bool.false_eq_true, if_false] at ho <;> subst ho <;> simp [vBool, Lang.bool, hff, okb, puree]

/-! ## The state -/

/-- The state of the loop and that of the program. -/
structure Rel (script : Bytes) (st : St) (es : EvalState) : Prop where
  main : es.stack = st.main.reverse
  alt : es.alt = st.alt.reverse
  count : es.nOp = st.count
  code : ∃ cs, WFToks cs ∧ script.drop es.begin_ = scriptOf cs ∧ cs.filter (fun t => t ≠ .op 0xab#8) = st.code.filter (fun t => t ≠ .op 0xab#8)

/-- Sizes are bounded: there may be `n` more operations. -/
structure Bounded (M B : Nat) (st : St) (n : Nat) : Prop where
  small : AllLe M st.main
  small' : AllLe M st.alt
  len : st.main.length + st.alt.length + n ≤ B
  len' : 1000 + n ≤ B

theorem perform_small {L : Lang} (hff : L.ff.length ≤ 1) {M : Nat} (hM : 32 ≤ M) (hM2 : M < 2 ^ 32) {t : CTransaction} {i : Nat} {after : List Tok} {st st' : St}
    (hl : st.main.length < 2 ^ 62) (hs : AllLe M st.main) (hs' : AllLe M st.alt) {u : Tok} (hu : ∀ e d, u = .push e d → d.length ≤ M)
    (h : perform L t i after st u = some st') : AllLe M st'.main ∧ AllLe M st'.alt := by
  have tl : ∀ {x : Bytes} {s : List Bytes}, AllLe M (x :: s) → AllLe M s := fun h => (AllLe.cons.mp h).2
  have ms : ∀ {v}, multisig L t i v st = some st' → AllLe M st'.main ∧ AllLe M st'.alt := by
    intro v h
    unfold multisig at h
    split at h
    · next nb s heq =>
      rw [heq] at hs
      obtain ⟨n, -, h⟩ := Option.bind_eq_some_iff.mp h
      split at h
      · cases h
      split at h
      · next mb s' heq' =>
        have h1 : AllLe M s' := fun x hx => hs x (List.mem_cons_of_mem _ (List.mem_of_mem_drop (heq' ▸ List.mem_cons_of_mem _ hx)))
        obtain ⟨m, -, h⟩ := Option.bind_eq_some_iff.mp h
        split at h
        · cases h
        split at h
        · next d s'' heq'' =>
          have h2 : AllLe M s'' := fun x hx => h1 x (List.mem_of_mem_drop (heq'' ▸ List.mem_cons_of_mem _ hx))
          simp only at h
          split at h
          · split at h
            · cases h; exact ⟨h2, hs'⟩
            · cases h
          · cases h; exact ⟨AllLe.cons.mpr ⟨bool_small hff hM _, h2⟩, hs'⟩
        · cases h
      · cases h
    · cases h
  rcases u with o | ⟨e, d⟩
  · rw [perform] at h
    split at h
    · exact ms h
    split at h
    · exact ms h
    split at h
    · split at h
      · next heq => cases h; rw [heq] at hs; exact ⟨AllLe.cons.mpr ⟨bool_small hff hM _, tl (tl hs)⟩, hs'⟩
      · cases h
    split at h
    · split at h
      · next heq =>
        split at h
        · cases h; rw [heq] at hs; exact ⟨tl (tl hs), hs'⟩
        · cases h
      · cases h
    split at h
    · cases h; exact ⟨hs, hs'⟩
    split at h
    · split at h
      · next heq => cases h; rw [heq] at hs; exact ⟨tl hs, AllLe.cons.mpr ⟨(AllLe.cons.mp hs).1, hs'⟩⟩
      · cases h
    split at h
    · split at h
      · next heq => cases h; rw [heq] at hs'; exact ⟨AllLe.cons.mpr ⟨(AllLe.cons.mp hs').1, hs⟩, tl hs'⟩
      · cases h
    · obtain ⟨s, h1, h2⟩ := Option.map_eq_some_iff.mp h
      subst h2
      exact ⟨effect_small hff hM hM2 hl hs h1, hs'⟩
  · cases h
    exact ⟨AllLe.cons.mpr ⟨hu e d rfl, hs⟩, hs'⟩

/-! ## One round -/

/-- The loop goes on with a state that corresponds to `st`, or fails. -/
def Sim (script : Bytes) (ex : List Bool) : Option St → Py EvalState → Prop
  | none, y => y = .error .evalScript
  | some st, y => ∃ es, y = .ok es ∧ Rel script st es ∧ es.exec = ex

theorem Sim.bind {script : Bytes} {ex ex' : List Bool} {a : Option St} {x : Py EvalState} (h : Sim script ex a x) {f : St → Option St} {g : EvalState → Py EvalState}
    (hf : ∀ st es, a = some st → Rel script st es → es.exec = ex → Sim script ex' (f st) (g es)) : Sim script ex' (a.bind f) (x >>= g) := by
  rcases a with _ | st
  · have : x = .error .evalScript := h
    rw [this, errb]
    exact rfl
  · obtain ⟨es, h1, h2, h3⟩ := h
    rw [h1, okb]
    exact hf st es rfl h2 h3

theorem limit_sim {script : Bytes} {st : St} {es : EvalState} (h : Rel script st es) : Sim script es.exec (limit st) (sizeLimits es) := by
  unfold limit sizeLimits
  rw [h.main, h.alt, List.length_reverse, List.length_reverse, MAX_STACK_ITEMS]
  by_cases hl : st.main.length + st.alt.length ≤ 1000
  · rw [if_pos hl, if_neg (by omega)]
    exact ⟨es, rfl, h, rfl⟩
  · rw [if_neg hl, if_pos (by omega)]
    exact rfl

/-- What is fixed during an evaluation. -/
structure Fixed (L : Lang) (t : CTransaction) (script : Bytes) : Prop where
  ff : L.ff = [0x00#8]
  tx : TxFits t
  len : script.length ≤ 10000

/-- The operations of conditionals. -/
def IsCond (u : Tok) : Prop := u = Prog.ifTok false ∨ u = Prog.ifTok true ∨ u = Prog.elseTok ∨ u = Prog.endTok

theorem perform_sim {L : Lang} {t : CTransaction} {script : Bytes} (hF : Fixed L t script) {i : Nat} {pre : Bytes} {o : Byte} {after : List Tok}
    (hsc : script = pre ++ scriptOf (.op o :: after)) (hwf : WFToks (.op o :: after)) (hc : ¬ IsCond (.op o))
    {st : St} {es : EvalState} (h : Rel script st es) (hs : Sane st.main) :
    Sim script es.exec (perform L t i after st (.op o)) (evalOp L.C script t i true ⟨o, none, pre.length⟩ es) := by
  have hnat : ∀ n : Nat, n < 256 → (o.toNat = n ↔ o = BitVec.ofNat 8 n) := by
    intro n hn
    constructor
    · intro h; exact BitVec.eq_of_toNat_eq (by rw [BitVec.toNat_ofNat, h]; omega)
    · intro h; rw [h, BitVec.toNat_ofNat]; omega
  obtain ⟨cs, c1, c2, c3⟩ := h.code
  have clen : (scriptOf cs).length ≤ 10000 := by
    rw [← c2, List.length_drop]
    have := hF.len
    omega
  have code_sig : ∀ sig : Bytes, (codeOf (without [sig] cs)).length ≤ MAX_SIZE := by
    intro sig
    have h1 := scriptOf_filter_length (fun t => decide (t ≠ .op 0xab#8)) (without [sig] cs)
    have h2 := scriptOf_filter_length (fun t => decide (¬ ∃ d ∈ [sig], t = .push (shortest d) d)) cs
    have h3 : 10000 ≤ MAX_SIZE := by decide
    exact Nat.le_trans h1 (Nat.le_trans h2 (Nat.le_trans clen h3))
  unfold evalOp
  rw [perform]
  simp only
  by_cases h1 : o = 0xae#8
  · subst h1
    have hm := checkMultiSig_eq L hF.ff c1 clen hF.tx i st hs c3 false
    rw [if_pos rfl, if_pos (by decide), c2, h.main, h.count]
    simp only [Bool.false_eq_true, if_false] at hm
    rw [show (0xae#8 : Byte).toNat = 0xae from rfl, hm]
    rcases hms : multisig L t i false st with _ | st'
    · exact rfl
    · simp only [okb, puree]
      have he : st'.alt = st.alt ∧ st'.code = st.code := by
        clear hm
        unfold multisig at hms
        split at hms
        · obtain ⟨n, -, hms⟩ := Option.bind_eq_some_iff.mp hms
          split at hms
          · cases hms
          split at hms
          · obtain ⟨m, -, hms⟩ := Option.bind_eq_some_iff.mp hms
            split at hms
            · cases hms
            split at hms
            · cases hms; exact ⟨rfl, rfl⟩
            · cases hms
          · cases hms
        · cases hms
      exact ⟨_, rfl, ⟨rfl, by rw [he.1]; exact h.alt, rfl, cs, c1, c2, by rw [he.2]; exact c3⟩, rfl⟩
  rw [if_neg h1]
  by_cases h2 : o = 0xaf#8
  · subst h2
    have hm := checkMultiSig_eq L hF.ff c1 clen hF.tx i st hs c3 true
    rw [if_pos rfl, if_pos (by decide), c2, h.main, h.count]
    simp only [if_true] at hm
    rw [show (0xaf#8 : Byte).toNat = 0xaf from rfl, hm]
    rcases hms : multisig L t i true st with _ | st'
    · exact rfl
    · simp only [okb, puree]
      have he : st'.alt = st.alt ∧ st'.code = st.code := by
        clear hm
        unfold multisig at hms
        split at hms
        · obtain ⟨n, -, hms⟩ := Option.bind_eq_some_iff.mp hms
          split at hms
          · cases hms
          split at hms
          · obtain ⟨m, -, hms⟩ := Option.bind_eq_some_iff.mp hms
            split at hms
            · cases hms
            split at hms
            · simp only [if_true] at hms
              split at hms
              · cases hms; exact ⟨rfl, rfl⟩
              · cases hms
            · cases hms
          · cases hms
        · cases hms
      exact ⟨_, rfl, ⟨rfl, by rw [he.1]; exact h.alt, rfl, cs, c1, c2, by rw [he.2]; exact c3⟩, rfl⟩
  have m1 : ¬ (o.toNat = 0xae ∨ o.toNat = 0xaf) := fun hh => hh.elim (fun h => h1 ((hnat _ (by omega)).mp h)) (fun h => h2 ((hnat _ (by omega)).mp h))
  rw [if_neg h2, if_neg m1]
  by_cases h3 : o = 0xac#8
  · subst h3
    rw [if_pos rfl, if_pos (by decide), h.main]
    rcases hmain : st.main with _ | ⟨key, _ | ⟨sig, s⟩⟩
    · rw [checkArgs_rev, if_pos (by simp), errb]; exact rfl
    · rw [checkArgs_rev, if_pos (by simp), errb]; exact rfl
    · rw [checkArgs_rev, if_neg (by simp), okb, neg_rev, neg_rev, List.getElem?_cons_zero, List.getElem?_cons_succ, List.getElem?_cons_zero]
      simp only [okb]
      rw [c2, dropSig_eq c1 (hs.2 sig (by rw [hmain]; simp)), okb, checkSig_eq L.C (without_wf c1 _) (code_sig sig) hF.tx, okb,
        goodSig_congr L.C (codeOf_without c3 [sig])]
      generalize goodSig L.C t i (without [sig] st.code) sig key = ok
      rw [if_neg (fun hh => absurd hh.2 (by decide))]
      simp only [pop_rev, okb, puree]
      have hne : (0xac#8 : Byte).toNat ≠ 0xad := by decide
      simp only [ne_eq, hne, not_false_eq_true, if_true]
      refine ⟨_, rfl, ⟨?_, h.alt, h.count, cs, c1, c2, c3⟩, rfl⟩
      cases ok <;> simp [vBool, Lang.bool, hF.ff]
  rw [if_neg h3]
  by_cases h4 : o = 0xad#8
  · subst h4
    rw [if_pos rfl, if_pos (by decide), h.main]
    rcases hmain : st.main with _ | ⟨key, _ | ⟨sig, s⟩⟩
    · rw [checkArgs_rev, if_pos (by simp), errb]; exact rfl
    · rw [checkArgs_rev, if_pos (by simp), errb]; exact rfl
    · rw [checkArgs_rev, if_neg (by simp), okb, neg_rev, neg_rev, List.getElem?_cons_zero, List.getElem?_cons_succ, List.getElem?_cons_zero]
      simp only [okb]
      rw [c2, dropSig_eq c1 (hs.2 sig (by rw [hmain]; simp)), okb, checkSig_eq L.C (without_wf c1 _) (code_sig sig) hF.tx, okb,
        goodSig_congr L.C (codeOf_without c3 [sig])]
      generalize goodSig L.C t i (without [sig] st.code) sig key = ok
      have he : (0xad#8 : Byte).toNat = 0xad := by decide
      rw [he]
      cases ok
      · simp only [and_self, if_true, Bool.false_eq_true, if_false]; exact rfl
      · simp only [Bool.true_eq_false, false_and, if_false, pop_rev, okb, puree, if_true, ne_eq, not_true_eq_false]
        exact ⟨_, rfl, ⟨rfl, h.alt, h.count, cs, c1, c2, c3⟩, rfl⟩
  have m2 : ¬ (o.toNat = 0xac ∨ o.toNat = 0xad) := fun hh => hh.elim (fun h => h3 ((hnat _ (by omega)).mp h)) (fun h => h4 ((hnat _ (by omega)).mp h))
  rw [if_neg h4, if_neg m2]
  by_cases h5 : o = 0xab#8
  · subst h5
    rw [if_pos rfl, if_pos (by decide)]
    refine ⟨_, rfl, ⟨h.main, h.alt, h.count, _, hwf, ?_, ?_⟩, rfl⟩
    · rw [hsc, List.drop_left]
    · rw [List.filter_cons_of_neg (by decide)]
  have m3 : ¬ o.toNat = 0xab := fun h => h5 ((hnat _ (by omega)).mp h)
  rw [if_neg h5, if_neg m3]
  have n67 : o.toNat ≠ 0x67 := fun hh => hc (.inr (.inr (.inl (by rw [(hnat _ (by omega)).mp hh]; rfl))))
  have n68 : o.toNat ≠ 0x68 := fun hh => hc (.inr (.inr (.inr (by rw [(hnat _ (by omega)).mp hh]; rfl))))
  have n63 : o.toNat ≠ 0x63 := fun hh => hc (.inl (by rw [(hnat _ (by omega)).mp hh]; rfl))
  have n64 : o.toNat ≠ 0x64 := fun hh => hc (.inr (.inl (by rw [(hnat _ (by omega)).mp hh]; rfl)))
  rw [if_neg n67, if_neg n68]
  by_cases h6 : o = 0x6b#8
  · subst h6
    rw [if_pos rfl, if_neg (by decide), if_neg (by decide), if_pos (by decide), h.main]
    rcases hmain : st.main with _ | ⟨a, s⟩
    · rw [checkArgs_rev, if_pos (by simp), errb]; exact rfl
    · rw [checkArgs_rev, if_neg (by simp), okb, pop_rev, okb]
      exact ⟨_, rfl, ⟨rfl, by rw [h.alt, snoc_rev], h.count, cs, c1, c2, c3⟩, rfl⟩
  rw [if_neg h6]
  by_cases h7 : o = 0x6c#8
  · subst h7
    rw [if_pos rfl, if_pos (by decide), h.alt]
    rcases halt : st.alt with _ | ⟨a, s⟩
    · exact rfl
    · rw [if_neg (by simp), pop_rev, okb]
      exact ⟨_, rfl, ⟨by rw [h.main, snoc_rev], rfl, h.count, cs, c1, c2, c3⟩, rfl⟩
  have m4 : ¬ o.toNat = 0x6c := fun h => h7 ((hnat _ (by omega)).mp h)
  have m5 : ¬ o.toNat = 0x6b := fun h => h6 ((hnat _ (by omega)).mp h)
  have m6 : ¬ (o.toNat = 0x63 ∨ o.toNat = 0x64) := by omega
  rw [if_neg h7, if_neg m4, if_neg m6, if_neg m5, h.main, stackOp_eq L hF.ff o.toNat hs]
  rcases L.effect o.toNat st.main with _ | s
  · exact rfl
  · exact ⟨_, rfl, ⟨rfl, h.alt, h.count, cs, c1, c2, c3⟩, rfl⟩

end Verif.Btc
