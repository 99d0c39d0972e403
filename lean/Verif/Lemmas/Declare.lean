import Verif.Spec.ProofBind
import Verif.Model.MmrProof
import Verif.Model.MbProof
/-! # Tables with a class and its variants added -/
namespace Verif

/-- The numbers of a class and its three variants. -/
def Four (m c : Nat) : Prop := m ≤ c ∧ c ≤ m + 3

/-- The classes added. -/
structure Adds (T T' : Table) (m : Nat) : Prop where
  old : ∀ c, ¬ Four m c → T' c = T c
  plain : ∀ c, Four m c → (T' c).isTx = false
  vars : ∀ c, Four m c → (T' c).variants = some [m + 1, m + 2, m + 3]
  bases : ∀ c, Four m c → ∀ u ∈ (T' c).bases, u = m
  attrs : ∀ c, Four m c → ∀ us, Kind.union us ∉ (T' c).attrs

theorem Adds.wf {T T' : Table} {m : Nat} (h : Adds T T' m) (hT : T.WF) : T'.WF := by
  intro c hc
  by_cases hf : Four m c
  · rw [h.plain c hf] at hc
    cases hc
  · rw [h.old c hf] at hc ⊢
    exact hT c hc

theorem Adds.binds {T T' : Table} {m : Nat} (h : Adds T T' m) (hT : T.Binds) (hu : ∀ c us, Kind.union us ∈ (T c).attrs → ∀ u ∈ us, ¬ Four m u)
    (tags : ∀ c c', Four m c → Four m c' → (T' c).hashtag = (T' c').hashtag → c = c')
    (cross : ∀ c c' tg, Four m c → ¬ Four m c' → (T' c).hashtag = some tg → (T c').hashtag ≠ some tg) : T'.Binds := by
  have tx_old : ∀ {c}, (T' c).isTx = true → ¬ Four m c := by
    intro c hc hf
    rw [h.plain c hf] at hc
    cases hc
  have root : ∀ (c c1 c2 : Nat), (Kind.proof c).Allows T' c1 → (Kind.proof c).Allows T' c2 → (T' c1).isTx = true → c1 = c2 := by
    intro c c1 c2 h1 h2 hc
    by_cases hf : Four m c
    · exfalso
      apply tx_old hc
      rcases h1 with rfl | ⟨us, e, h1⟩
      · exact hf
      · rw [h.vars c hf] at e
        cases e
        simp only [List.mem_cons, List.not_mem_nil, or_false] at h1
        unfold Four
        omega
    · rw [h.old c1 (tx_old hc)] at hc
      refine hT.root c c1 c2 ?_ ?_ hc
      · rcases h1 with e | ⟨us, e, g⟩
        · exact .inl e
        · exact .inr ⟨us, by rw [← h.old c hf]; exact e, g⟩
      · rcases h2 with e | ⟨us, e, g⟩
        · exact .inl e
        · exact .inr ⟨us, by rw [← h.old c hf]; exact e, g⟩
  refine ⟨fun c c' tg h1 h2 => ?_, fun c k hk c1 c2 h1 h2 hc => ?_, root, fun c hc => ?_⟩
  · by_cases hf : Four m c <;> by_cases hf' : Four m c'
    · exact tags c c' hf hf' (h1.trans h2.symm)
    · rw [h.old c' hf'] at h2
      exact absurd h2 (cross c c' tg hf hf' h1)
    · rw [h.old c hf] at h1
      exact absurd h1 (cross c' c tg hf' hf h2)
    · rw [h.old c hf] at h1
      rw [h.old c' hf'] at h2
      exact hT.tags c c' tg h1 h2
  · cases k with
    | prim τ => exact h1.elim
    | proof c0 => exact root c0 c1 c2 h1 h2 hc
    | union us =>
      by_cases hf : Four m c
      · exact absurd hk (h.attrs c hf us)
      · rw [h.old c hf] at hk
        have inst : ∀ {d}, us.any (T'.isInst d) = true → ¬ Four m d ∧ us.any (T.isInst d) = true := by
          intro d hd
          obtain ⟨u, hu', hd'⟩ := List.any_eq_true.mp hd
          have hn := hu c us hk u hu'
          have hfd : ¬ Four m d := by
            intro hfd
            unfold Table.isInst at hd'
            rcases Bool.or_eq_true _ _ ▸ hd' with e | e
            · exact hn (by rw [← beq_iff_eq.mp e]; exact hfd)
            · have := h.bases d hfd u (by simpa using e)
              exact hn (by rw [this]; unfold Four; omega)
          refine ⟨hfd, List.any_eq_true.mpr ⟨u, hu', ?_⟩⟩
          unfold Table.isInst at hd' ⊢
          rwa [h.old d hfd] at hd'
        rw [h.old c1 (inst h1).1] at hc
        exact hT.tx c _ hk c1 c2 (inst h1).2 (inst h2).2 hc
  · have ho := h.old c (tx_old hc)
    rw [ho] at hc ⊢
    exact hT.txTag c hc

theorem Four.cases {m c : Nat} (h : Four m c) : c = m ∨ c = m + 1 ∨ c = m + 2 ∨ c = m + 3 := by
  unfold Four at h
  omega

end Verif
