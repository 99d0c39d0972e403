import Verif.Lemmas.ProofFrame
/-! What a tracked execution leaves on the view. -/
namespace Verif
set_option linter.unusedSectionVars false
variable {T : Table} {H : HashFns}

theorem Vw.notIn {s : PState} {p : Nat} {addr : Nat → Option (List Nat)} {S : List (List Nat)} (h : Vw s p addr S) {q : Nat} (hq : Off s p q) :
    ¬ (addr q ≠ none) := by
  intro hn
  cases ha : addr q with
  | none => exact hn ha
  | some π => exact hq π (h.path.mpr ha)

theorem Tracked.vw (hT : T.WF) {r p : Nat} {s : PState} {S : List (List Nat)} (h : Tracked T H r p s S) :
    ∃ τ addr t, Inv T H s τ ∧ Vw s p addr S ∧ τ[r]? = some t ∧ τ[p]? = some t := by
  induction h with
  | @prune s s' hs hp =>
    obtain ⟨τ, hi⟩ := hs.inv hT
    cases ho : s.objs[r]? with
    | none =>
      have : Prf.prune T r s = (.error .other, s) := HM.bind_obj_none ho _
      rw [this] at hp; cases hp
    | some o =>
      obtain ⟨t, ht, _⟩ := hi.some_tree ho
      have hv := Vw.start (T := T) hi ho
      obtain ⟨τ', h1, _, h2, h3, _⟩ := prune_spec hi ht
      rw [hp] at hv h1 h2
      simp only [Except.ok.injEq] at h2
      subst h2
      exact ⟨_, _, t, h1, hv, append_get ht, h3⟩
  | @read s s' S π d i v _ hpath hg ih =>
    obtain ⟨τ, addr, t, hi, hv, hr, hp⟩ := ih
    obtain ⟨addr', h', _⟩ := hv.getAttr hi (hv.path.mp hpath) i
    obtain ⟨τ', h1, _⟩ := Step.inv hT hi (.getAttr d i)
    rw [hg] at h' h1
    exact ⟨_, addr', t, h1, h', append_get hr, append_get hp⟩
  | @readFails s s' S π d i e _ hpath hg ih =>
    obtain ⟨τ, addr, t, hi, hv, hr, hp⟩ := ih
    obtain ⟨addr', h', _⟩ := hv.getAttr hi (hv.path.mp hpath) i
    obtain ⟨τ', h1, _⟩ := Step.inv hT hi (.getAttr d i)
    rw [hg] at h' h1
    exact ⟨_, addr', t, h1, h', append_get hr, append_get hp⟩
  | @hash s S π d _ hpath ih =>
    obtain ⟨τ, addr, t, hi, hv, hr, hp⟩ := ih
    obtain ⟨τ', h1, _⟩ := Step.inv hT hi (.hash d)
    exact ⟨_, addr, t, h1, hv.hash hi (hv.path.mp hpath), append_get hr, append_get hp⟩
  | @dataHash s S π d _ hpath ih =>
    obtain ⟨τ, addr, t, hi, hv, hr, hp⟩ := ih
    obtain ⟨τ', h1, _⟩ := Step.inv hT hi (.dataHash d)
    exact ⟨_, addr, t, h1, hv.dataHash hi (hv.path.mp hpath), append_get hr, append_get hp⟩
  | @serialize s S π d _ hpath ih =>
    obtain ⟨τ, addr, t, hi, hv, hr, hp⟩ := ih
    obtain ⟨τ', h1, _⟩ := Step.inv hT hi (.serialize d)
    obtain ⟨addr', h', _⟩ := hv.serialize hT hi (hv.path.mp hpath)
    exact ⟨_, addr', t, h1, h', append_get hr, append_get hp⟩
  | @otherNew s S c vs _ hq ih =>
    obtain ⟨τ, addr, t, hi, hv, hr, hp⟩ := ih
    obtain ⟨τ', h1, _⟩ := Step.inv hT hi (.new c vs fun q hm => (hq q hm).1)
    exact ⟨_, addr, t, h1, (hv.frame (new_fr c fun q hm => hv.notIn (hq q hm).2)).1, append_get hr, append_get hp⟩
  | @otherPrune s S q _ hq ih =>
    obtain ⟨τ, addr, t, hi, hv, hr, hp⟩ := ih
    obtain ⟨τ', h1, _⟩ := Step.inv hT hi (.prune q)
    exact ⟨_, addr, t, h1, (hv.frame (prune_fr (hv.notIn hq))).1, append_get hr, append_get hp⟩
  | @otherGetAttr s S q i _ hq ih =>
    obtain ⟨τ, addr, t, hi, hv, hr, hp⟩ := ih
    obtain ⟨τ', h1, _⟩ := Step.inv hT hi (.getAttr q i)
    exact ⟨_, addr, t, h1, (hv.frame (getAttr_fr i (hv.notIn hq))).1, append_get hr, append_get hp⟩
  | @otherHash s S q _ hq ih =>
    obtain ⟨τ, addr, t, hi, hv, hr, hp⟩ := ih
    obtain ⟨τ', h1, _⟩ := Step.inv hT hi (.hash q)
    exact ⟨_, addr, t, h1, (hv.frame (hash_fr (hv.notIn hq))).1, append_get hr, append_get hp⟩
  | @otherDataHash s S q _ hq ih =>
    obtain ⟨τ, addr, t, hi, hv, hr, hp⟩ := ih
    obtain ⟨τ', h1, _⟩ := Step.inv hT hi (.dataHash q)
    exact ⟨_, addr, t, h1, (hv.frame (dataHash_fr (hv.notIn hq))).1, append_get hr, append_get hp⟩
  | @otherSerialize s S q _ hq ih =>
    obtain ⟨τ, addr, t, hi, hv, hr, hp⟩ := ih
    obtain ⟨τ', h1, _⟩ := Step.inv hT hi (.serialize q)
    exact ⟨_, addr, t, h1, (hv.frame (serialize_fr (hv.notIn hq))).1, append_get hr, append_get hp⟩
  | @otherDeserialize s S c b _ ih =>
    obtain ⟨τ, addr, t, hi, hv, hr, hp⟩ := ih
    obtain ⟨τ', h1, _⟩ := Step.inv hT hi (.deserialize c b)
    exact ⟨_, addr, t, h1, (hv.frame (deserialize_fr c b)).1, append_get hr, append_get hp⟩

end Verif
