import Verif.Props.Difficulty
import Verif.Props.Block
/-! # The difficulty of headers that are accepted (C137) -/
namespace Verif.Btc
open Verif Rpc

/-- C137: a header that `CheckBlockHeader` accepts has a difficulty: its target is positive, not above the limit, and `difficulty` is the float nearest to
the ratio of the largest target to it. -/
theorem C137_accepted {H : HashFns} {limit : Nat} (hl : limit < 2 ^ 256) {h : CBlockHeader} {now : Int} (hok : checkBlockHeader H (some limit) h true now = .ok ()) :
    ∃ t d, uint256FromCompact h.nBits.toNat = .ok t ∧ 0 < t ∧ t ≤ limit ∧ h.difficulty = .ok d ∧ Nearest (trueDifficulty t) d ∧ 0 < d := by
  unfold checkBlockHeader at hok
  simp only [if_true] at hok
  obtain ⟨hash, _, hok⟩ := Except.bind_eq_ok hok
  obtain ⟨_, h1, _⟩ := Except.bind_eq_ok hok
  unfold checkProofOfWork at h1
  obtain ⟨t, ht, h1⟩ := Except.bind_eq_ok h1
  obtain ⟨ok, hr, h1⟩ := Except.bind_eq_ok h1
  have hr' : ok = true := by
    cases ok
    · simp only [if_true] at h1
      cases h1
    · rfl
  subst hr'
  have hrange : 0 < t ∧ t ≤ limit := by
    unfold powRange at hr
    split at hr
    · exact ⟨by assumption, of_decide_eq_true (Except.ok.inj hr)⟩
    · cases hr
  obtain ⟨d, h2, h3, h4⟩ := C137_nearest ht hrange.1 (by omega)
  exact ⟨t, d, ht, hrange.1, hrange.2, h2, h3, h4⟩

/-- C137: of two accepted headers, the one with the higher difficulty is the one with the smaller target. -/
theorem C137_compare {H : HashFns} {limit : Nat} (hl : limit < 2 ^ 256) {h k : CBlockHeader} {now now' : Int}
    (hok : checkBlockHeader H (some limit) h true now = .ok ()) (kok : checkBlockHeader H (some limit) k true now' = .ok ()) :
    ∃ t u d e, uint256FromCompact h.nBits.toNat = .ok t ∧ uint256FromCompact k.nBits.toNat = .ok u ∧ h.difficulty = .ok d ∧ k.difficulty = .ok e ∧
      (e < d ↔ t < u) ∧ (d = e ↔ t = u) := by
  obtain ⟨t, d, a1, a2, a3, a4, _⟩ := C137_accepted hl hok
  obtain ⟨u, e, b1, b2, b3, b4, _⟩ := C137_accepted hl kok
  obtain ⟨c1, c2⟩ := C137_order a1 b1 a2 b2 (by omega) (by omega) a4 b4
  exact ⟨t, u, d, e, a1, b1, a4, b4, c1, c2⟩

/-- The first block meets the hypotheses: it is accepted two hours before its time, and has difficulty 1. -/
example : checkBlockHeader realHash (some (2 ^ 224 - 1)) Ex.genesis.header true (1231006505 - 7200) = .ok () ∧ Ex.genesis.header.difficulty = .ok 1 := by decide +kernel

end Verif.Btc
