import Verif.Lemmas.GuMapMk
import Verif.Lemmas.ProofBind
import Verif.Lemmas.Prim
import Verif.Props.Serialize
/-! # Lemmas: maps with the same root seal -/
namespace Verif.GuMap
open Verif Seal
section
variable {H : HashFns} {g : GuMapDecl} {ini : List Nat} {t : PTree}
local notation "C" => classes H g

theorem leafTag_len : (leafTag H g).length = 16 := C08_derive_length _ _ _
theorem innerTag_len : (innerTag H g).length = 16 := C08_derive_length _ _ _

theorem sealHash_fun {T : Table} {a b : Bytes} (h : SealHashIs T H t a) (h' : SealHashIs T H t b) : a = b := by
  obtain ⟨q, h1, h2⟩ := h
  obtain ⟨q', h1', h2'⟩ := h'
  rw [h1] at h1'
  cases h1'
  rw [h2] at h2'
  exact Except.ok.inj h2'

theorem fakeSeal_hash (h : Bytes) : (fakeSealT h).hash C H = .ok (H.sha256 (hex "e5690d7316e34f8fbd4f148c32d37baf" ++ H.sha256 h)) := by
  unfold fakeSealT
  rw [PTree.hash, if_neg (show ¬ (C Cls.fakeSeal).isTx = true by simp [classes, Cls.fakeSeal])]
  show ((do let a ← Except.ok h; let b ← Except.ok []; return a ++ b : Py Bytes) >>= _) = _
  simp only [Except.bind_ok]
  show Prf.tagHash C H Cls.fakeSeal (H.sha256 (h ++ [])) = _
  rw [List.append_nil]
  rfl

theorem fakeSeal_hashed (h : Bytes) : h ∈ (fakeSealT h).hashed C H ∧ hex "e5690d7316e34f8fbd4f148c32d37baf" ++ H.sha256 h ∈ (fakeSealT h).hashed C H := by
  have : (fakeSealT h).hashed C H = [h ++ [], hex "e5690d7316e34f8fbd4f148c32d37baf" ++ H.sha256 (h ++ [])] := rfl
  rw [this]
  simp

theorem btcSeal_hash {o : Btc.COutPoint} {n k : Bytes} (h : (sealT o n).hash C H = .ok k) :
    ∃ b, k = H.sha256 (hex "b59093bf527f4d2a9a513c2e3d2f0c25" ++ H.sha256 b) ∧
      hex "b59093bf527f4d2a9a513c2e3d2f0c25" ++ H.sha256 b ∈ (sealT o n).hashed C H := by
  unfold sealT at h ⊢
  have hx : ¬ (C Cls.btcSeal).isTx = true := by simp [classes, Cls.btcSeal]
  rw [PTree.hash, if_neg hx] at h
  rw [PTree.hashed, if_neg hx]
  obtain ⟨b, hb, h⟩ := Except.bind_eq_ok h
  refine ⟨b, ?_, ?_⟩
  · exact (Except.ok.inj h).symm
  · rw [hb]
    show _ ∈ _ ++ [b, hex "b59093bf527f4d2a9a513c2e3d2f0c25" ++ H.sha256 b]
    simp

/-- The hash of the content of a closed node. -/
theorem closed_agree {n n' w w' : PTree} {k m m' : Bytes} (hk : SealHashIs C H n k) (hk' : SealHashIs C H n' k)
    (hu : n.cls ≠ Cls.unusedPrefix) (hu' : n'.cls ≠ Cls.unusedPrefix) (hw : witnessOf n = some w) (hw' : witnessOf n' = some w')
    (hm : Sealed C H g n m) (hm' : Sealed C H g n' m')
    (hv : IsFake w (H.sha256 m) ∨ IsClosed H w (H.sha256 m)) (hv' : IsFake w' (H.sha256 m') ∨ IsClosed H w' (H.sha256 m'))
    (huniq : IsClosed H w (H.sha256 m) → IsClosed H w' (H.sha256 m') → H.sha256 m = H.sha256 m')
    (hcf : ∀ x y, (HashedAt C H g n x ∨ HashedAt C H g n' x) → (HashedAt C H g n y ∨ HashedAt C H g n' y) → H.sha256 x = H.sha256 y → x = y) : m = m' := by
  have hmm : H.sha256 m = H.sha256 m' → m = m' := hcf m m' (.inl (.inl hm)) (.inr (.inl hm'))
  obtain ⟨q, hq, hqk⟩ := hk
  obtain ⟨q', hq', hqk'⟩ := hk'
  have hs : sealOf n = w.sub? 0 := by unfold sealOf; rw [if_neg hu, hw]; rfl
  have hs' : sealOf n' = w'.sub? 0 := by unfold sealOf; rw [if_neg hu', hw']; rfl
  have tags : ∀ {a b : Bytes}, hex "e5690d7316e34f8fbd4f148c32d37baf" ++ a = hex "b59093bf527f4d2a9a513c2e3d2f0c25" ++ b → False := by
    intro a b h
    have := (List.append_inj h (by decide +kernel)).1
    exact absurd this (by decide +kernel)
  have fake : ∀ {w q : PTree} {h : Bytes}, IsFake w h → w.sub? 0 = some q → q = fakeSealT h := by
    intro w q h hf h0
    rw [hf] at h0
    exact (Option.some.inj h0).symm
  have closed : ∀ {w q : PTree} {h : Bytes}, IsClosed H w h → w.sub? 0 = some q → ∃ o n, q = sealT o n := by
    intro w q h ⟨o, n, i, x, j, x', he, _⟩ h0
    rw [he] at h0
    exact ⟨o, n, (Option.some.inj h0).symm⟩
  rcases hv with hv | hv <;> rcases hv' with hv' | hv'
  · apply hmm
    have e := fake hv (hs ▸ hq)
    have e' := fake hv' (hs' ▸ hq')
    subst e e'
    have h1 := (fakeSeal_hash (H := H) (g := g) (H.sha256 m)).symm.trans (hqk.trans (hqk'.symm.trans (fakeSeal_hash _)))
    have h2 := hcf _ _ (.inl (.inr ⟨_, hq, (fakeSeal_hashed _).2⟩)) (.inr (.inr ⟨_, hq', (fakeSeal_hashed _).2⟩)) (Except.ok.inj h1)
    have h3 := List.append_cancel_left h2
    exact hcf _ _ (.inl (.inr ⟨_, hq, (fakeSeal_hashed _).1⟩)) (.inr (.inr ⟨_, hq', (fakeSeal_hashed _).1⟩)) h3
  · have e := fake hv (hs ▸ hq)
    obtain ⟨o, nn, e'⟩ := closed hv' (hs' ▸ hq')
    subst e e'
    obtain ⟨b, hb, hbm⟩ := btcSeal_hash hqk'
    have h1 := Except.ok.inj ((fakeSeal_hash (H := H) (g := g) (H.sha256 m)).symm.trans hqk)
    exact (tags (hcf _ _ (.inl (.inr ⟨_, hq, (fakeSeal_hashed _).2⟩)) (.inr (.inr ⟨_, hq', hbm⟩)) (h1.trans hb))).elim
  · have e := fake hv' (hs' ▸ hq')
    obtain ⟨o, nn, e'⟩ := closed hv (hs ▸ hq)
    subst e e'
    obtain ⟨b, hb, hbm⟩ := btcSeal_hash hqk
    have h1 := Except.ok.inj ((fakeSeal_hash (H := H) (g := g) (H.sha256 m')).symm.trans hqk')
    exact (tags (hcf _ _ (.inr (.inr ⟨_, hq', (fakeSeal_hashed _).2⟩)) (.inl (.inr ⟨_, hq, hbm⟩)) (h1.trans hb))).elim
  · exact hmm (huniq hv hv')

theorem same_prefix {k : Kind} {v v' : TVal} {d d' r r' : Bytes} (hk : DigestIs C H k v d) (hk' : DigestIs C H k v' d')
    (hc : ∀ τ w, k = .prim τ → v = .prim w → τ.check w = .ok ()) (hc' : ∀ τ w, k = .prim τ → v' = .prim w → τ.check w = .ok ())
    (he : d ++ r = d' ++ r') : Same C H k v v' ∧ r = r' := by
  have hash : ∀ {q q' : PTree}, q.hash C H = .ok d → q'.hash C H = .ok d' → (∃ p p' h, TVal.sub q = .sub p ∧ TVal.sub q' = .sub p' ∧ p.hash C H = .ok h ∧ p'.hash C H = .ok h) ∧ r = r' := by
    intro q q' h h'
    obtain ⟨e1, e2⟩ := List.append_inj he ((PTree.hash_len h).trans (PTree.hash_len h').symm)
    subst e1
    exact ⟨⟨q, q', d, rfl, rfl, h, h'⟩, e2⟩
  cases k with
  | prim τ =>
    rcases v with v | q
    · rcases v' with v' | q'
      · obtain ⟨e, e'⟩ := PrimTy.pf (hc τ v rfl rfl) (hc' τ v' rfl rfl) hk hk' he
        exact ⟨by rw [e]; rfl, e'⟩
      · exact hk'.elim
    · exact hk.elim
  | proof c =>
    rcases v with v | q
    · exact hk.elim
    · rcases v' with v' | q'
      · exact hk'.elim
      · exact hash hk hk'
  | union c =>
    rcases v with v | q
    · exact hk.elim
    · rcases v' with v' | q'
      · exact hk'.elim
      · exact hash hk hk'

/-- Key and value of a checked leaf pass the checks of their serializers. -/
theorem leaf_checked (hc : t.cls = Cls.leafPrefix) (hk : t.Checked C) {v : TVal} : (∀ τ w, g.key = .prim τ → t.get? 1 = some v → v = .prim w → τ.check w = .ok ()) ∧
    (∀ τ w, g.value = .prim τ → t.get? 2 = some v → v = .prim w → τ.check w = .ok ()) := by
  rcases t with ⟨c, fs⟩ | ⟨c, d⟩
  · simp only [PTree.cls] at hc
    subst hc
    have hk' : fs.Checked C [.union [Cls.fakeWitness, Cls.btcWitness], g.key, g.value] := hk
    rcases fs with _ | ⟨a, fs⟩ | ⟨a, fs⟩
    · simp [PFields.Checked] at hk'
    · simp [PFields.Checked] at hk'
    · simp only [PFields.Checked] at hk'
      obtain ⟨_, _, hk'⟩ := hk'
      constructor
      · intro τ w hτ hg hw
        subst hw
        rcases fs with _ | ⟨b, fs⟩ | ⟨b, fs⟩
        · simp [PTree.get?, PFields.get?] at hg
        · simp [PTree.get?, PFields.get?] at hg
          subst hg
          rw [hτ] at hk'
          simp only [PFields.Checked] at hk'
          exact hk'.1
        · simp [PTree.get?, PFields.get?] at hg
      · intro τ w hτ hg hw
        subst hw
        have hk2 : ∀ {fs : PFields}, fs.Checked C [g.value] → fs.get? 0 = some (.prim w) → τ.check w = .ok () := by
          intro fs hf hg
          rcases fs with _ | ⟨b, fs⟩ | ⟨b, fs⟩
          · simp [PFields.get?] at hg
          · simp [PFields.get?] at hg
            subst hg
            rw [hτ] at hf
            simp only [PFields.Checked] at hf
            exact hf.1
          · simp [PFields.get?] at hg
        rcases fs with _ | ⟨b, fs⟩ | ⟨b, fs⟩
        · simp [PTree.get?, PFields.get?] at hg
        · exact hk2 (by cases hkey : g.key <;> rw [hkey] at hk' <;> simp only [PFields.Checked] at hk'; exact hk'.2) hg
        · simp only [PFields.Checked] at hk'
          exact hk2 hk'.2.2 hg
  · intros
    constructor <;> intro _ _ _ h <;> simp [PTree.get?] at h

theorem nodeAt_append : ∀ (π : List Bool) (b : Bool) {t n q : PTree}, nodeAt t π = some n → n.cls = Cls.innerPrefix → n.sub? (if b then 3 else 2) = some q → nodeAt t (π ++ [b]) = some q
  | [], b, t, n, q, h, hc, hq => by
    cases h
    rw [List.nil_append, nodeAt, if_pos hc, hq]; rfl
  | a :: π, b, t, n, q, h, hc, hq => by
    rw [nodeAt] at h
    rw [List.cons_append, nodeAt]
    split at h
    · next ht =>
      rw [if_pos ht]
      cases hs : t.sub? (if a then 3 else 2) with
      | none => rw [hs] at h; cases h
      | some x => rw [hs] at h; exact nodeAt_append π b (t := x) h hc hq
    · cases h

theorem nodeAt_snoc : ∀ (π : List Bool) (b : Bool) {t q : PTree}, nodeAt t (π ++ [b]) = some q → ∃ n, nodeAt t π = some n ∧ n.cls = Cls.innerPrefix ∧ n.sub? (if b then 3 else 2) = some q
  | [], b, t, q, h => by
    rw [List.nil_append, nodeAt] at h
    split at h
    · next ht =>
      refine ⟨t, rfl, ht, ?_⟩
      cases hs : t.sub? (if b then 3 else 2) with
      | none => rw [hs] at h; cases h
      | some x => rw [hs] at h; exact h
    · cases h
  | a :: π, b, t, q, h => by
    rw [List.cons_append, nodeAt] at h
    split at h
    · next ht =>
      cases hs : t.sub? (if a then 3 else 2) with
      | none => rw [hs] at h; cases h
      | some x =>
        rw [hs] at h
        obtain ⟨n, h1, h2⟩ := nodeAt_snoc π b (t := x) h
        exact ⟨n, by rw [nodeAt, if_pos ht, hs]; exact h1, h2⟩
    · cases h
end
end Verif.GuMap
