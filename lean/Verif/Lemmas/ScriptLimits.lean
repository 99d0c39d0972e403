import Verif.Lemmas.ScriptVerify
/-! # What the limits on scripts amount to -/
namespace Verif.Btc
open Verif

theorem multisig_count {L : Lang} {t : CTransaction} {i : Nat} {v : Bool} {st st' : St} (h : multisig L t i v st = some st') :
    st.count ≤ st'.count ∧ st'.count ≤ 201 ∧ st'.alt = st.alt ∧ st'.main.length ≤ st.main.length := by
  unfold multisig at h
  split at h
  · next nb s heq =>
    obtain ⟨n, -, h⟩ := Option.bind_eq_some_iff.mp h
    split at h
    · cases h
    next hn =>
    split at h
    · next mb s' heq' =>
      obtain ⟨m, -, h⟩ := Option.bind_eq_some_iff.mp h
      split at h
      · cases h
      split at h
      · next d s'' heq'' =>
        have h1 := congrArg List.length heq'
        have h2 := congrArg List.length heq''
        simp only [List.length_drop, List.length_cons] at h1 h2
        simp only at h
        split at h
        · split at h
          · cases h
            refine ⟨Nat.le_add_right _ _, by simp only; omega, rfl, ?_⟩
            rw [heq, List.length_cons]
            simp only
            omega
          · cases h
        · cases h
          refine ⟨Nat.le_add_right _ _, by simp only; omega, rfl, ?_⟩
          rw [heq, List.length_cons]
          simp only [List.length_cons]
          omega
      · cases h
    · cases h
  · cases h

theorem perform_count {L : Lang} {t : CTransaction} {i : Nat} {after : List Tok} {st st' : St} {u : Tok} (h : perform L t i after st u = some st') (hc : st.count ≤ 201) :
    st.count ≤ st'.count ∧ st'.count ≤ 201 := by
  rcases u with o | ⟨e, d⟩
  · rw [perform] at h
    split at h
    · have := multisig_count h; exact ⟨this.1, this.2.1⟩
    split at h
    · have := multisig_count h; exact ⟨this.1, this.2.1⟩
    split at h
    · split at h
      · cases h; exact ⟨Nat.le_refl _, hc⟩
      · cases h
    split at h
    · split at h
      · split at h
        · cases h; exact ⟨Nat.le_refl _, hc⟩
        · cases h
      · cases h
    split at h
    · cases h; exact ⟨Nat.le_refl _, hc⟩
    split at h
    · split at h
      · cases h; exact ⟨Nat.le_refl _, hc⟩
      · cases h
    split at h
    · split at h
      · cases h; exact ⟨Nat.le_refl _, hc⟩
      · cases h
    · obtain ⟨s, -, h2⟩ := Option.map_eq_some_iff.mp h
      subst h2
      exact ⟨Nat.le_refl _, hc⟩
  · cases h
    exact ⟨Nat.le_refl _, hc⟩

theorem tick_limits {st st' : St} {u : Tok} (h : tick st u = some st') (hc : st.count ≤ 201) : Allowed u ∧ st'.count ≤ 201 ∧ st.count + ([u].filter counts).length ≤ st'.count := by
  obtain ⟨-, -, -, h1, h2, h3⟩ := tick_some h
  rcases u with o | ⟨e, d⟩
  · obtain ⟨h4, h5⟩ := h3 o rfl
    refine ⟨h4, ?_, ?_⟩
    · rcases h5 with h5 | h5
      · rw [tick, if_neg h4, if_pos h5] at h; cases h; exact hc
      · exact h5.2
    · rw [List.filter_cons, counts]
      rcases h5 with h5 | h5
      · rw [if_neg (by simp; omega)]; exact h1
      · split
        · exact Nat.le_of_eq h5.1.symm
        · exact h1
  · refine ⟨h2 e d rfl, ?_, ?_⟩
    · rw [tick, if_pos (h2 e d rfl)] at h; cases h; exact hc
    · exact h1

theorem limitAfter_same {L : Lang} {st st' : St} {u : Tok} (h : limitAfter L st u = some st') : st' = st := by
  rcases u with o | ⟨e, d⟩
  · exact (limit_some h).1
  · rw [limitAfter] at h
    split at h
    · exact (limit_some h).1
    · cases h; rfl

theorem limitAfter_len {L : Lang} {st st' : St} {u : Tok} (h : limitAfter L st u = some st') (hu : isData u = false) : st'.main.length + st'.alt.length ≤ 1000 := by
  rcases u with o | ⟨e, d⟩
  · obtain ⟨rfl, h⟩ := limit_some h; exact h
  · cases hu

theorem filter_cons_len (f : Tok → Bool) (u : Tok) (l : List Tok) : ((u :: l).filter f).length = ([u].filter f).length + (l.filter f).length := by
  rw [← List.singleton_append (x := u) (l := l), List.filter_append, List.length_append]

theorem run_els {L : Lang} {t : CTransaction} {i : Nat} {r : Prog} {k : List Tok} {go x : Bool} {st st' : St} (h : (Prog.els r).run L t i k go x st = some st') :
    ∃ st1, tick st Prog.elseTok = some st1 ∧ st1.main.length + st1.alt.length ≤ 1000 ∧ r.run L t i k go (!x) st1 = some st' := by
  rw [Prog.run] at h
  obtain ⟨st1, h1, h2⟩ := Option.bind_eq_some_iff.mp h
  obtain ⟨st2, h3, h4⟩ := Option.bind_eq_some_iff.mp h2
  obtain ⟨e, hl⟩ := limit_some h3
  rw [e] at h4
  exact ⟨st1, h1, hl, h4⟩

theorem run_cond {L : Lang} {t : CTransaction} {i : Nat} {neg : Bool} {b r : Prog} {k : List Tok} {go x : Bool} {st st' : St} (h : (Prog.cond neg b r).run L t i k go x st = some st') :
    ∃ st1 st2 y st3 st4, tick st (Prog.ifTok neg) = some st1 ∧ (st2 = st1 ∨ ∃ v s, st1.main = v :: s ∧ st2 = { st1 with main := s }) ∧ st2.main.length + st2.alt.length ≤ 1000 ∧
      b.run L t i (Prog.endTok :: (r.toks ++ k)) (go && x) y st2 = some st3 ∧ tick st3 Prog.endTok = some st4 ∧ st4.main.length + st4.alt.length ≤ 1000 ∧
      r.run L t i k go x st4 = some st' := by
  have key : ∀ {st1 st2 : St} {y : Bool}, ((limit st2).bind fun st => (b.run L t i (Prog.endTok :: (r.toks ++ k)) (go && x) y st).bind fun st => (tick st Prog.endTok).bind fun st =>
      (limit st).bind fun st => r.run L t i k go x st) = some st' → tick st (Prog.ifTok neg) = some st1 → (st2 = st1 ∨ ∃ v s, st1.main = v :: s ∧ st2 = { st1 with main := s }) →
      ∃ st1 st2 y st3 st4, tick st (Prog.ifTok neg) = some st1 ∧ (st2 = st1 ∨ ∃ v s, st1.main = v :: s ∧ st2 = { st1 with main := s }) ∧ st2.main.length + st2.alt.length ≤ 1000 ∧
      b.run L t i (Prog.endTok :: (r.toks ++ k)) (go && x) y st2 = some st3 ∧ tick st3 Prog.endTok = some st4 ∧ st4.main.length + st4.alt.length ≤ 1000 ∧
      r.run L t i k go x st4 = some st' := by
    intro st1 st2 y h h1 h2
    obtain ⟨st3, a1, h3⟩ := Option.bind_eq_some_iff.mp h
    obtain ⟨e, hl⟩ := limit_some a1
    rw [e] at h3
    obtain ⟨st4, a2, h4⟩ := Option.bind_eq_some_iff.mp h3
    obtain ⟨st5, a3, h5⟩ := Option.bind_eq_some_iff.mp h4
    obtain ⟨st6, a4, h6⟩ := Option.bind_eq_some_iff.mp h5
    obtain ⟨e', hl'⟩ := limit_some a4
    rw [e'] at h6
    exact ⟨st1, st2, y, st4, st5, h1, h2, hl, a2, a3, hl', h6⟩
  rw [Prog.run] at h
  obtain ⟨st1, h1, h2⟩ := Option.bind_eq_some_iff.mp h
  simp only at h2
  split at h2
  · obtain ⟨⟨st2, y⟩, a, h3⟩ := Option.bind_eq_some_iff.mp h2
    refine key h3 h1 ?_
    split at a
    · next heq => cases a; exact .inr ⟨_, _, heq, rfl⟩
    · cases a
  · exact key h2 h1 (.inl rfl)

theorem run_limits {L : Lang} {t : CTransaction} {i : Nat} : ∀ (p : Prog) {k : List Tok} {go x : Bool} {st st' : St}, p.run L t i k go x st = some st' → st.count ≤ 201 →
    (∀ u ∈ p.toks, Allowed u) ∧ st'.count ≤ 201 ∧ st.count + (p.toks.filter counts).length ≤ st'.count := by
  intro p
  induction p with
  | done =>
    intro k go x st st' h hc
    cases h
    exact ⟨(fun _ h => by cases h), hc, Nat.le_refl _⟩
  | op u r ih =>
    intro k go x st st' h hc
    rw [Prog.run] at h
    obtain ⟨st1, h1, h⟩ := Option.bind_eq_some_iff.mp h
    obtain ⟨a1, a2, a3⟩ := tick_limits h1 hc
    have key : ∀ {st2 : St}, st1.count ≤ st2.count → st2.count ≤ 201 → r.run L t i k go x st2 = some st' →
        (∀ v ∈ (Prog.op u r).toks, Allowed v) ∧ st'.count ≤ 201 ∧ st.count + ((Prog.op u r).toks.filter counts).length ≤ st'.count := by
      intro st2 b1 b2 b3
      obtain ⟨c1, c2, c3⟩ := ih b3 b2
      refine ⟨?_, c2, ?_⟩
      · intro v hv
        rcases List.mem_cons.mp hv with rfl | hv
        · exact a1
        · exact c1 v hv
      · rw [Prog.toks, filter_cons_len]
        omega
    simp only at h
    split at h
    · obtain ⟨st2, h2, h⟩ := Option.bind_eq_some_iff.mp h
      obtain ⟨st3, h3, h4⟩ := Option.bind_eq_some_iff.mp h2
      have := limitAfter_same h4
      subst this
      obtain ⟨b1, b2⟩ := perform_count h3 a2
      exact key b1 b2 h
    · obtain ⟨st2, h2, h'⟩ := Option.bind_eq_some_iff.mp h
      obtain ⟨rfl, -⟩ := limit_some h2
      exact key (Nat.le_refl _) a2 h'
  | els r ih =>
    intro k go x st st' h hc
    obtain ⟨st1, h1, -, h⟩ := run_els h
    obtain ⟨a1, a2, a3⟩ := tick_limits h1 hc
    obtain ⟨c1, c2, c3⟩ := ih h a2
    refine ⟨?_, c2, ?_⟩
    · intro v hv
      rcases List.mem_cons.mp hv with rfl | hv
      · exact a1
      · exact c1 v hv
    · rw [Prog.toks, filter_cons_len]
      omega
  | cond neg b r ihb ihr =>
    intro k go x st st' h hc
    obtain ⟨st1, st3, y, st4, st5, h1, h2, -, h4, h5, -, h⟩ := run_cond h
    obtain ⟨a1, a2, a3⟩ := tick_limits h1 hc
    have h2c : st3.count = st1.count := by
      rcases h2 with rfl | ⟨_, _, _, rfl⟩ <;> rfl
    obtain ⟨b1, b2, b3⟩ := ihb h4 (by omega)
    obtain ⟨c1, c2, c3⟩ := tick_limits h5 b2
    obtain ⟨d1, d2, d3⟩ := ihr h c2
    refine ⟨?_, d2, ?_⟩
    · intro v hv
      rw [Prog.toks] at hv
      rcases List.mem_cons.mp hv with rfl | hv
      · exact a1
      rcases List.mem_append.mp hv with hv | hv
      · exact b1 v hv
      rcases List.mem_cons.mp hv with rfl | hv
      · exact c1
      · exact d1 v hv
    · rw [Prog.toks, filter_cons_len, List.filter_append, List.length_append, filter_cons_len _ Prog.endTok r.toks]
      omega

/-- How many values there can be. -/
theorem run_items {L : Lang} {t : CTransaction} {i : Nat} {N : Nat} (hN : 1000 ≤ N) : ∀ (p : Prog) {k : List Tok} {go x : Bool} {st st' : St}, p.run L t i k go x st = some st' →
    st.main.length + st.alt.length ≤ N → st'.main.length + st'.alt.length ≤ N + (p.toks.filter isData).length := by
  intro p
  induction p generalizing N with
  | done =>
    intro k go x st st' h hc
    cases h
    exact hc
  | op u r ih =>
    intro k go x st st' h hc
    rw [Prog.run] at h
    obtain ⟨st1, h1, h⟩ := Option.bind_eq_some_iff.mp h
    obtain ⟨m1, m2, -⟩ := tick_some h1
    rw [Prog.toks, filter_cons_len]
    have key : ∀ {st2 : St}, st2.main.length + st2.alt.length ≤ N + ([u].filter isData).length → r.run L t i k go x st2 = some st' →
        st'.main.length + st'.alt.length ≤ N + (([u].filter isData).length + (r.toks.filter isData).length) := by
      intro st2 h2 h3
      rw [← Nat.add_assoc]
      exact ih (by omega) h3 h2
    simp only at h
    split at h
    · obtain ⟨st2, h2, h⟩ := Option.bind_eq_some_iff.mp h
      obtain ⟨st3, h3, h4⟩ := Option.bind_eq_some_iff.mp h2
      refine key ?_ h
      rcases u with o | ⟨e, d⟩
      · have := limitAfter_len h4 rfl
        omega
      · have := limitAfter_same h4
        subst this
        cases h3
        simp only [List.length_cons, m1, m2, List.filter_cons, isData, if_true, List.filter_nil, List.length_nil]
        omega
    · obtain ⟨st2, h2, h'⟩ := Option.bind_eq_some_iff.mp h
      obtain ⟨rfl, hl⟩ := limit_some h2
      exact key (by omega) h'
  | els r ih =>
    intro k go x st st' h hc
    obtain ⟨st1, h1, hl, h⟩ := run_els h
    exact ih hN h (by omega)
  | cond neg b r ihb ihr =>
    intro k go x st st' h hc
    obtain ⟨st1, st3, y, st4, st5, h1, h2, -, h4, h5, hl, h⟩ := run_cond h
    have := ihr hN h (by omega)
    refine Nat.le_trans this ?_
    rw [Prog.toks, filter_cons_len, List.filter_append, List.length_append, filter_cons_len _ Prog.endTok r.toks]
    omega

end Verif.Btc
