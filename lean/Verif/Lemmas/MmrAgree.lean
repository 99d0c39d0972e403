import Verif.Lemmas.MmrProof
import Verif.Lemmas.ProofBind
/-! # Lemmas about looking things up in any proof, be it a mountain range or not -/
namespace Verif
open Seal
namespace Mmr
variable {T : Table} {H : HashFns} {ini : List Nat} {m : Nat} {t : PTree}

theorem len_cls {a : Nat} (h : (len m).eval T H ini t = .ok (.ok a)) : t.cls = m + 1 ∨ t.cls = m + 2 ∨ t.cls = m + 3 := by
  unfold len at h
  rw [eval_cls_here] at h
  split at h
  · exact .inl ‹_›
  · split at h
    · exact .inr (.inl ‹_›)
    · split at h
      · exact .inr (.inr ‹_›)
      · cases h

theorem locate_sub {ρ : List Nat} {n : Nat} {idx : Int} {π : List Nat} (h : ((locate m n idx).at ρ).eval T H ini t = .ok (.ok π)) :
    ∃ q, (TVal.sub t).walk T ini ρ = .ok (.sub q) ∧ (locate m n idx).eval T H ini q = .ok (.ok π) := by
  cases n with
  | zero => cases h
  | succ n =>
    have h' := h
    simp only [locate, Prog.at, List.append_nil, eval_cls_ok] at h'
    obtain ⟨q, hq, _⟩ := h'
    exact ⟨q, hq, by rwa [Prog.eval_at hq] at h⟩

theorem locate_succ {n : Nat} {idx : Int} {π : List Nat} : (locate m (n + 1) idx).eval T H ini t = .ok (.ok π) ↔
    (t.cls = m + 2 ∧ (idx = 0 ∨ idx = -1) ∧ (∃ v, (TVal.sub t).walk T ini [0] = .ok v) ∧ π = [0]) ∨
    (t.cls = m + 3 ∧ ∃ L a : Nat, (len m).eval T H ini t = .ok (.ok L) ∧ ((len m).at [0]).eval T H ini t = .ok (.ok a) ∧ ∃ j : Int,
      j = (if idx < 0 then (L : Int) + idx else idx) ∧ 0 ≤ j ∧ j < L ∧
      ((j < a ∧ ∃ π', ((locate m n j).at [0]).eval T H ini t = .ok (.ok π') ∧ π = 0 :: π') ∨
       (¬ j < a ∧ ∃ b : Nat, ((len m).at [1]).eval T H ini t = .ok (.ok b) ∧ j < (a : Int) + b ∧
          ∃ π', ((locate m n (j - a)).at [1]).eval T H ini t = .ok (.ok π') ∧ π = 1 :: π'))) := by
  rw [locate, eval_cls_here]
  by_cases h1 : t.cls = m + 1
  · rw [if_pos h1]
    constructor
    · intro h; cases h
    · rintro (⟨h, _⟩ | ⟨h, _⟩) <;> omega
  rw [if_neg h1]
  by_cases h2 : t.cls = m + 2
  · rw [if_pos h2]
    constructor
    · intro h
      left
      split at h
      · rw [eval_read_ok] at h
        obtain ⟨v, hv, h⟩ := h
        cases h
        exact ⟨h2, ‹_›, ⟨v, hv⟩, rfl⟩
      · cases h
    · rintro (⟨_, h, ⟨v, hv⟩, rfl⟩ | ⟨h, _⟩)
      · rw [if_pos h, eval_read_ok]
        exact ⟨v, hv, rfl⟩
      · omega
  rw [if_neg h2]
  by_cases h3 : t.cls = m + 3
  swap
  · rw [if_neg h3]
    constructor
    · intro h; cases h
    · rintro (⟨h, _⟩ | ⟨h, _⟩)
      · exact absurd h h2
      · exact absurd h h3
  rw [if_pos h3, eval_bind_ok]
  constructor
  · rintro ⟨L, hL, h⟩
    right
    simp only at h
    generalize hg : (if idx < 0 then (L : Int) + idx else idx) = j at h
    split at h
    · cases h
    · next hj =>
      rw [Decidable.not_not] at hj
      rw [eval_bind_ok] at h
      obtain ⟨a, ha, h⟩ := h
      refine ⟨h3, L, a, hL, ha, j, hg.symm, hj.1, hj.2, ?_⟩
      split at h
      · next hja =>
        rw [eval_bind_ok] at h
        obtain ⟨π', hπ, h⟩ := h
        cases h
        exact .inl ⟨hja.2, π', hπ, rfl⟩
      · next hja =>
        rw [eval_bind_ok] at h
        obtain ⟨b, hb, h⟩ := h
        split at h
        · next hjb =>
          rw [eval_bind_ok] at h
          obtain ⟨π', hπ, h⟩ := h
          cases h
          exact .inr ⟨fun hx => hja ⟨hj.1, hx⟩, b, hb, hjb.2, π', hπ, rfl⟩
        · cases h
  · rintro (⟨h, _⟩ | ⟨_, L, a, hL, ha, j, rfl, hj0, hjL, h⟩)
    · exact absurd h h2
    · refine ⟨L, hL, ?_⟩
      simp only
      rw [if_neg (by rw [Decidable.not_not]; exact ⟨hj0, hjL⟩), eval_bind_ok]
      refine ⟨a, ha, ?_⟩
      rcases h with ⟨hja, π', hπ, rfl⟩ | ⟨hja, b, hb, hjb, π', hπ, rfl⟩
      · rw [if_pos ⟨hj0, hja⟩, eval_bind_ok]
        exact ⟨π', hπ, rfl⟩
      · rw [if_neg (fun h => hja h.2), eval_bind_ok]
        refine ⟨b, hb, ?_⟩
        rw [if_pos ⟨by omega, hjb⟩, eval_bind_ok]
        exact ⟨π', hπ, rfl⟩

theorem locate_mono : ∀ {n n' : Nat} {idx : Int} {t : PTree} {π : List Nat}, n ≤ n' → (locate m n idx).eval T H ini t = .ok (.ok π) →
    (locate m n' idx).eval T H ini t = .ok (.ok π)
  | 0, _, _, _, _, _, h => by cases h
  | n + 1, 0, _, _, _, h, _ => by omega
  | n + 1, n' + 1, idx, t, π, hn, h => by
    have at_mono : ∀ {ρ : List Nat} {j : Int} {π' : List Nat}, ((locate m n j).at ρ).eval T H ini t = .ok (.ok π') → ((locate m n' j).at ρ).eval T H ini t = .ok (.ok π') := by
      intro ρ j π' hx
      obtain ⟨q, hq, hx⟩ := locate_sub hx
      rw [Prog.eval_at hq]
      exact locate_mono (by omega) hx
    rw [locate_succ] at h ⊢
    rcases h with h | ⟨h3, L, a, hL, ha, j, hj, hj0, hjL, h⟩
    · exact .inl h
    · refine .inr ⟨h3, L, a, hL, ha, j, hj, hj0, hjL, ?_⟩
      rcases h with ⟨hja, π', hπ, rfl⟩ | ⟨hja, b, hb, hjb, π', hπ, rfl⟩
      · exact .inl ⟨hja, π', at_mono hπ, rfl⟩
      · exact .inr ⟨hja, b, hb, hjb, π', at_mono hπ, rfl⟩

theorem locate_bound {n : Nat} {idx : Int} {π : List Nat} (h : (locate m n idx).eval T H ini t = .ok (.ok π)) :
    ∃ L : Nat, (len m).eval T H ini t = .ok (.ok L) ∧ -(L : Int) ≤ idx ∧ idx < L := by
  cases n with
  | zero => cases h
  | succ n =>
    rw [locate_succ] at h
    rcases h with ⟨hc, hi, _⟩ | ⟨_, L, a, hL, _, j, hj, hj0, hjL, _⟩
    · refine ⟨1, ?_, by omega, by omega⟩
      unfold len
      rw [eval_cls_here, hc]
      simp [Prog.eval]
    · refine ⟨L, hL, ?_⟩
      split at hj <;> omega

/-- What a successful look-up on the heap means. -/
theorem getItem_inv (hT : T.WF) {s s1 : PState} (hs : Reachable T H s) {r : Nat} (hr : Represents s r t) {i : Int} {v : HVal}
    (h : getItem m T H r i s = (.ok v, s1)) : ∃ π tv, (locate m (s.objs.length + 1) i).eval T H s.inited t = .ok (.ok π) ∧
      (∀ ini, (TVal.sub t).walk T ini π = .ok tv) ∧ v.Rep s1 tv ∧ Steps T H s s1 := by
  unfold getItem at h
  obtain ⟨π, s2, e2, h⟩ := HM.bind_ok_inv h
  obtain ⟨st, hv⟩ := runM_eq hT (locate m (s.objs.length + 1) i) hs hr
  rw [e2] at st hv
  have hπ := (hv π).mp rfl
  have hs2 : Reachable T H s2 := Steps.trans hs st
  obtain ⟨st2, h3, h4⟩ := walk_rep hT hs2 (st.represents hT hs hr) π
  rw [h] at st2 h3 h4
  cases hw : (TVal.sub t).walk T s2.inited π with
  | error e => have := h3 e hw; cases this
  | ok tv =>
    obtain ⟨v', hv', hrep⟩ := h4 tv hw
    cases hv'
    exact ⟨π, tv, hπ, fun ini => TVal.walk_inited _ ini _ _ _ hw, hrep, Steps.trans st st2⟩

end Mmr
end Verif
