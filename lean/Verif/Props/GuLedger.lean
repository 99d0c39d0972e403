import Verif.Spec.GuLedger
import Verif.Props.GuMap
import Verif.Lemmas.BtcInj
import Mathlib.Data.List.Induction
/-! # C140, C141: two views of one map -/
namespace Verif.GuMap
open Verif Seal Btc
section
variable {H : HashFns} {g : GuMapDecl} {chain : CTransaction → Prop} {s s' : PState} {r r' : Nat} {t t' : PTree}
local notation "C" => classes H g

theorem btcSeal_bind {o o' : COutPoint} {n n' k : Bytes} (h : (sealT o n).hash C H = .ok k) (h' : (sealT o' n').hash C H = .ok k)
    (hcf : CollisionFree H.sha256 ((sealT o n).hashed C H ++ (sealT o' n').hashed C H)) : o = o' := by
  have key : ∀ {o : COutPoint} {n : Bytes}, (sealT o n).hash C H = .ok k → ∃ e e2, o.ser = .ok e ∧
      k = H.sha256 (hex "b59093bf527f4d2a9a513c2e3d2f0c25" ++ H.sha256 (PrimTy.lenPrefixed e ++ e2)) ∧
      PrimTy.lenPrefixed e ++ e2 ∈ (sealT o n).hashed C H ∧
      hex "b59093bf527f4d2a9a513c2e3d2f0c25" ++ H.sha256 (PrimTy.lenPrefixed e ++ e2) ∈ (sealT o n).hashed C H := by
    intro o n h
    unfold sealT at h ⊢
    have hx : ¬ (C Cls.btcSeal).isTx = true := by simp [classes, Cls.btcSeal]
    rw [PTree.hash, if_neg hx] at h
    rw [PTree.hashed, if_neg hx]
    obtain ⟨b, hb, h⟩ := Except.bind_eq_ok h
    have hb0 := hb
    obtain ⟨a, ha, hb⟩ := Except.bind_eq_ok hb
    obtain ⟨e, he, ha⟩ := Except.bind_eq_ok (show (do let b ← o.ser; return PrimTy.lenPrefixed b : Py Bytes) = .ok a from ha)
    obtain ⟨c, hc, hb⟩ := Except.bind_eq_ok hb
    cases ha
    cases hb
    refine ⟨e, c, he, (Except.ok.inj h).symm, ?_, ?_⟩
    · rw [hb0]
      show _ ∈ _ ++ [_, _]
      simp
    · rw [hb0]
      show _ ∈ _ ++ [_, hex "b59093bf527f4d2a9a513c2e3d2f0c25" ++ _]
      simp
  obtain ⟨e, e2, he, hk, m1, m2⟩ := key h
  obtain ⟨e', e2', he', hk', m1', m2'⟩ := key h'
  have h1 := hcf _ (List.mem_append_left _ m2) _ (List.mem_append_right _ m2') (hk.symm.trans hk')
  have h2 := hcf _ (List.mem_append_left _ m1) _ (List.mem_append_right _ m1') (List.append_cancel_left h1)
  obtain ⟨rfl, _⟩ := lenPrefixed_inj h2
  exact PF.inj PF.outpoint he he'

/-- On a chain on which no outpoint is spent twice, the witnesses of two nodes with the same seal are closed over the same hash. -/
theorem closed_once (hch : SpentOnce H chain) {n n' w w' : PTree} {m m' d : Bytes} (hw : witnessOf n = some w) (hw' : witnessOf n' = some w') (hd : SealHashIs C H n d)
    (hd' : SealHashIs C H n' d) (hm : Sealed C H g n m) (hm' : Sealed C H g n' m') (hc : IsClosed H w (H.sha256 m)) (hc' : IsClosed H w' (H.sha256 m'))
    (wit : ∀ o c i x j x', w = fullWitnessT o c i x j x' → chain x ∧ j = 0) (wit' : ∀ o c i x j x', w' = fullWitnessT o c i x j x' → chain x ∧ j = 0)
    (free : ∀ x y, (HashedAt C H g n x ∨ HashedAt C H g n' x) → (HashedAt C H g n y ∨ HashedAt C H g n' y) → H.sha256 x = H.sha256 y → x = y)
    (txFree : ∀ o c i x j x' b o' c' i' y j' y' b', w = fullWitnessT o c i x j x' → x'.ser = .ok b → w' = fullWitnessT o' c' i' y j' y' → y'.ser = .ok b' →
      CollisionFree H.sha256 [b, b', H.sha256 b, H.sha256 b'])
    (digFree : h160 H (H.sha256 m) = h160 H (H.sha256 m') → H.sha256 m = H.sha256 m') : H.sha256 m = H.sha256 m' := by
  obtain ⟨o, c, i, x, j, x1, rfl, hs⟩ := hc
  obtain ⟨o', c', i', y, j', y1, rfl, hs'⟩ := hc'
  obtain ⟨hx, rfl⟩ := wit _ _ _ _ _ _ rfl
  obtain ⟨hy, rfl⟩ := wit' _ _ _ _ _ _ rfl
  have hu : ∀ {n m}, Sealed C H g n m → n.cls ≠ Cls.unusedPrefix := by
    intro n m hm
    cases hm with
    | leaf h => rw [h]; decide
    | inner h => rw [h]; decide
  obtain ⟨q, hq, hqd⟩ := hd
  obtain ⟨q', hq', hqd'⟩ := hd'
  have e : q = sealT o c := by
    unfold sealOf at hq
    rw [if_neg (hu hm), hw] at hq
    exact (Option.some.inj hq).symm
  have e' : q' = sealT o' c' := by
    unfold sealOf at hq'
    rw [if_neg (hu hm'), hw'] at hq'
    exact (Option.some.inj hq').symm
  subst e e'
  have hoo : o = o' := by
    refine btcSeal_bind hqd hqd' ?_
    have up : ∀ z, z ∈ (sealT o c).hashed C H ++ (sealT o' c').hashed C H → HashedAt C H g n z ∨ HashedAt C H g n' z := by
      intro z hz
      rcases List.mem_append.mp hz with hz | hz
      · exact .inl (.inr ⟨_, hq, hz⟩)
      · exact .inr (.inr ⟨_, hq', hz⟩)
    exact fun a ha b hb he => free a b (up a ha) (up b hb) he
  subst hoo
  obtain ⟨inp, hi, hio⟩ := hs.spends
  obtain ⟨inp', hi', hio'⟩ := hs'.spends
  obtain ⟨id, ⟨b, hb, hbi⟩, b', hb', hbi'⟩ := hch x y hx hy ⟨inp, List.mem_of_getElem? hi, inp', List.mem_of_getElem? hi', hio.trans hio'.symm⟩
  obtain ⟨id1, ⟨b1, hb1, hb1i⟩, b2, hb2, hb2i⟩ := hs.txid
  obtain ⟨id2, ⟨b3, hb3, hb3i⟩, b4, hb4, hb4i⟩ := hs'.txid
  rw [hb] at hb1; cases hb1
  rw [hb'] at hb3; cases hb3
  have hid : H.sha256 (H.sha256 b2) = H.sha256 (H.sha256 b4) := by rw [← hb2i, ← hb4i, hb1i, hb3i, ← hbi, ← hbi']
  have hcf := txFree _ _ _ _ _ _ b2 _ _ _ _ _ _ b4 rfl hb2 rfl hb4
  have hbb := hcf _ (by simp) _ (by simp) (hcf _ (by simp) _ (by simp) hid)
  subst hbb
  have hxx : x1 = y1 := PF.inj PF.tx hb2 hb4
  subst hxx
  obtain ⟨out, ho, hco⟩ := hs.commits
  obtain ⟨out', ho', hco'⟩ := hs'.commits
  rw [ho] at ho'; cases ho'
  exact digFree (commits_unique hco hco')

/-- C140: two views of one map whose Bitcoin witnesses show the first outputs of transactions of a chain on which no outpoint is spent twice agree: at every
position in both, both nodes have the same seal, and one is still unused, or they are of the same class, and if they are leaves have the same key and value. -/
theorem C140_agree (hv : Views C H g chain s s' r r' t t') (hch : SpentOnce H chain) :
    ∀ π n n', nodeAt t π = some n → nodeAt t' π = some n' → (∃ d, SealHashIs C H n d ∧ SealHashIs C H n' d) ∧
      (n.cls = Cls.unusedPrefix ∨ n'.cls = Cls.unusedPrefix ∨ (n.cls = Cls.innerPrefix ∧ n'.cls = Cls.innerPrefix) ∨
        (n.cls = Cls.leafPrefix ∧ n'.cls = Cls.leafPrefix ∧ ∃ x x' y y', n.get? 1 = some x ∧ n'.get? 1 = some x' ∧ n.get? 2 = some y ∧ n'.get? 2 = some y' ∧
          Same C H g.key x x' ∧ Same C H g.value y y')) := by
  obtain ⟨k, hk, hk'⟩ := hv.root
  refine C54_agree hv.reach hv.reach' hv.rep hv.rep' hv.ver hv.ver' hk hk' hv.tags hv.free ?_
  intro π n n' w w' m m' d hn hn' hw hw' hd hd' hm hm' hc hc'
  have up : ∀ {x}, HashedAt C H g n x ∨ HashedAt C H g n' x → HashedIn C H g t x ∨ HashedIn C H g t' x := by
    rintro x (h | h)
    · exact .inl ⟨π, n, hn, h⟩
    · exact .inr ⟨π, n', hn', h⟩
  refine closed_once hch hw hw' hd hd' hm hm' hc hc' (fun _ _ _ _ _ _ e => hv.wit π n _ _ _ _ _ _ hn (e ▸ hw)) (fun _ _ _ _ _ _ e => hv.wit' π n' _ _ _ _ _ _ hn' (e ▸ hw'))
    (fun x y hx hy => hv.free x y (up hx) (up hy)) ?_ (hv.digFree _ _ ⟨π, n, m, hn, hm, rfl⟩ ⟨π, n', m', hn', hm', rfl⟩)
  intro o c i x j x' b o' c' i' y j' y' b' e hb e' hb'
  have key : ∀ z ∈ [b, b', H.sha256 b, H.sha256 b'], TxHashed H t z ∨ TxHashed H t' z := by
    intro z hz
    simp only [List.mem_cons, List.not_mem_nil, or_false] at hz
    rcases hz with hz | hz | hz | hz
    · exact .inl ⟨π, n, _, _, _, _, _, _, b, hn, e ▸ hw, hb, .inl hz⟩
    · exact .inr ⟨π, n', _, _, _, _, _, _, b', hn', e' ▸ hw', hb', .inl hz⟩
    · exact .inl ⟨π, n, _, _, _, _, _, _, b, hn, e ▸ hw, hb, .inr hz⟩
    · exact .inr ⟨π, n', _, _, _, _, _, _, b', hn', e' ▸ hw', hb', .inr hz⟩
  exact fun z hz z' hz' he => hv.txFree z z' (key z hz) (key z' hz') he

/-- C141 as stated: in two views of one map, placed well both, leaves with the same key have the same value. -/
def C141_statement : Prop := ∀ (H : HashFns) (g : GuMapDecl) (k2p : PVal → Py (List Bool)) (chain : CTransaction → Prop) (s s' : PState) (r r' : Nat) (t t' : PTree),
  Views (classes H g) H g chain s s' r r' t t' → SpentOnce H chain → Placed k2p t → Placed k2p t' →
  ∀ π π' n n' k v v', nodeAt t π = some n → nodeAt t' π' = some n' → n.cls = Cls.leafPrefix → n'.cls = Cls.leafPrefix → n.get? 1 = some k → n'.get? 1 = some k →
    n.get? 2 = some v → n'.get? 2 = some v' → Same (classes H g) H g.value v v'

/-- What holds of C141: if the prefixes of inner nodes, which no seal is closed over (proofchains/core/uniquebits/gumap.py:143-151), are the same in both views, then leaves with the same key are
at the same position and have the same value. -/
theorem C141_prefixes_partial {k2p : PVal → Py (List Bool)} (hv : Views C H g chain s s' r r' t t') (hch : SpentOnce H chain) (hp : Placed k2p t) (hp' : Placed k2p t')
    (hsame : SamePrefixes k2p t t') : ∀ π π' n n' k v v', nodeAt t π = some n → nodeAt t' π' = some n' → n.cls = Cls.leafPrefix → n'.cls = Cls.leafPrefix →
      n.get? 1 = some k → n'.get? 1 = some k → n.get? 2 = some v → n'.get? 2 = some v' → π = π' ∧ Same C H g.value v v' := by
  intro π π' n n' k v v' hn hn' hc hc' hk hk' hvv hvv'
  have agree := C140_agree hv hch
  have clash : ∀ {a b : PTree}, a.cls = Cls.leafPrefix → b.cls = Cls.innerPrefix → ¬ (a.cls = Cls.unusedPrefix ∨ b.cls = Cls.unusedPrefix ∨
      (a.cls = Cls.innerPrefix ∧ b.cls = Cls.innerPrefix) ∨ (a.cls = Cls.leafPrefix ∧ b.cls = Cls.leafPrefix)) := by
    intro a b ha hb h
    rw [ha, hb] at h
    revert h; decide
  rcases diverge π π' with rfl | ⟨b, ρ, rfl⟩ | ⟨b, ρ, rfl⟩ | ⟨σ, b, ρ, ρ', rfl, rfl⟩
  · refine ⟨rfl, ?_⟩
    rcases (agree π n n' hn hn').2 with h | h | ⟨h, _⟩ | ⟨_, _, x, x', y, y', _, _, hy, hy', _, hs⟩
    · rw [hc] at h; exact absurd h (by decide)
    · rw [hc'] at h; exact absurd h (by decide)
    · rw [hc] at h; exact absurd h (by decide)
    · rw [hvv] at hy; rw [hvv'] at hy'
      cases hy; cases hy'
      exact hs
  · obtain ⟨m, hm, hmc⟩ := nodeAt_prefix π hn'
    refine absurd ?_ (clash hc hmc)
    rcases (agree π n m hn hm).2 with h | h | h | h
    · exact .inl h
    · exact .inr (.inl h)
    · exact .inr (.inr (.inl h))
    · exact .inr (.inr (.inr ⟨h.1, h.2.1⟩))
  · obtain ⟨m, hm, hmc⟩ := nodeAt_prefix π' hn
    refine absurd ?_ (clash hc' hmc)
    rcases (agree π' m n' hm hn').2 with h | h | h | h
    · exact .inr (.inl h)
    · exact .inl h
    · exact .inr (.inr (.inl ⟨h.2, h.1⟩))
    · exact .inr (.inr (.inr ⟨h.2.1, h.1⟩))
  · exfalso
    obtain ⟨m, hm, hmc⟩ := nodeAt_prefix σ hn
    obtain ⟨m', hm', hmc'⟩ := nodeAt_prefix σ hn'
    obtain ⟨p, q, h1, h2, h3⟩ := placed_below hp σ b ρ.reverse hm (by rw [List.reverse_reverse]; exact hn)
    obtain ⟨p', q', h1', h2', h3'⟩ := placed_below hp' σ (!b) ρ'.reverse hm' (by rw [List.reverse_reverse]; exact hn')
    rw [← hsame σ m m' hm hm' hmc hmc', h1] at h1'
    cases h1'
    have hpp : prefixT k2p n = prefixT k2p n' := by unfold prefixT; rw [hc, hc', hk, hk']; simp [Cls.leafPrefix, Cls.unusedPrefix, Cls.innerPrefix]
    rw [hpp, h2'] at h2
    cases h2
    obtain ⟨x, hx⟩ := h3
    obtain ⟨y, hy⟩ := h3'
    rw [← hx, List.append_assoc, List.append_assoc] at hy
    have := List.append_cancel_left hy
    simp at this

/-- The prefixes are the same in particular if in both views every inner node has one bit more than the node above it, and the roots have the same prefix:
then everything can be checked in each view alone. -/
theorem C141_stepwise_partial {k2p : PVal → Py (List Bool)} (hp : Stepwise k2p t) (hp' : Stepwise k2p t') (hroot : prefixT k2p t = prefixT k2p t') :
    SamePrefixes k2p t t' := by
  intro π
  induction π using List.reverseRecOn with
  | nil =>
    intro n n' hn hn' _ _
    cases hn; cases hn'
    exact hroot
  | append_singleton π b ih =>
    intro n n' hn hn' hc hc'
    obtain ⟨m, hm, hmc, _⟩ := nodeAt_snoc _ _ hn
    obtain ⟨m', hm', hmc', _⟩ := nodeAt_snoc _ _ hn'
    obtain ⟨p, h1, h2⟩ := hp π b m n hm hn hc
    obtain ⟨p', h1', h2'⟩ := hp' π b m' n' hm' hn' hc'
    have := ih m m' hm hm' hmc hmc'
    rw [h1, h1'] at this
    cases this
    rw [h2, h2']

/-- C142: two people, each with a proof that the map with a given root seal has a value for a given key, have proofs of the same value, at the same place.  They may be
given maps in different states, each with all parts pruned that are not on the way to the key. -/
theorem C142_one_value {k2p : PVal → Py (List Bool)} {root : List Bool} {k : Bytes} {key : PVal} {v v' : TVal} {π π' : List Bool} (hch : SpentOnce H chain)
    (hv : KeyProof C H g k2p chain root k key v s r t π) (hv' : KeyProof C H g k2p chain root k key v' s' r' t' π') (hnc : NoCollision C H g t π t' π') :
    π = π' ∧ Same C H g.value v v' := by
  obtain ⟨n, q, hn, hc, hk, hvv, hq, hp⟩ := hv.leaf
  obtain ⟨n', q', hn', hc', hk', hvv', hq', hp'⟩ := hv'.leaf
  rw [hq] at hq'
  cases hq'
  -- one way is the beginning of the other
  have hcomp : π <+: π' ∨ π' <+: π := by
    obtain ⟨x, hx⟩ := hp
    obtain ⟨y, hy⟩ := hp'
    rw [← hx, List.append_assoc, List.append_assoc] at hy
    exact (List.prefix_or_prefix_of_prefix ⟨x, rfl⟩ ⟨y, List.append_cancel_left hy⟩)
  have agree : ∀ σ, σ <+: π → σ <+: π' → ∀ ρ n n', ρ <+: σ → nodeAt t ρ = some n → nodeAt t' ρ = some n' → (∃ d, SealHashIs C H n d ∧ SealHashIs C H n' d) ∧
      (n.cls = Cls.unusedPrefix ∨ n'.cls = Cls.unusedPrefix ∨ (n.cls = Cls.innerPrefix ∧ n'.cls = Cls.innerPrefix) ∨
        (n.cls = Cls.leafPrefix ∧ n'.cls = Cls.leafPrefix ∧ ∃ x x' y y', n.get? 1 = some x ∧ n'.get? 1 = some x' ∧ n.get? 2 = some y ∧ n'.get? 2 = some y' ∧
          Same C H g.key x x' ∧ Same C H g.value y y')) := by
    intro σ h1 h2
    have up : ∀ {x}, (HashedTo C H g t σ x ∨ HashedTo C H g t' σ x) → (HashedTo C H g t π x ∨ HashedTo C H g t' π' x) := by
      rintro x (⟨ρ, n, hρ, h3⟩ | ⟨ρ, n, hρ, h3⟩)
      · exact .inl ⟨ρ, n, hρ.trans h1, h3⟩
      · exact .inr ⟨ρ, n, hρ.trans h2, h3⟩
    refine agree_path hv.reach hv'.reach hv.rep hv'.rep (fun ρ n h => hv.ver ρ n (h.trans h1)) (fun ρ n h => hv'.ver ρ n (h.trans h2)) hv.rootSeal hv'.rootSeal hnc.tags
      (fun x y hx hy => hnc.free x y (up hx) (up hy)) ?_
    intro ρ n n' w w' m m' d hρ hn hn' hw hw' hd hd' hm hm' hc hc'
    have hρ1 := hρ.trans h1
    have hρ2 := hρ.trans h2
    have up : ∀ {x}, HashedAt C H g n x ∨ HashedAt C H g n' x → HashedTo C H g t π x ∨ HashedTo C H g t' π' x := by
      rintro x (h | h)
      · exact .inl ⟨ρ, n, hρ1, hn, h⟩
      · exact .inr ⟨ρ, n', hρ2, hn', h⟩
    refine closed_once hch hw hw' hd hd' hm hm' hc hc' (fun _ _ _ _ _ _ e => hv.wit ρ n _ _ _ _ _ _ hρ1 hn (e ▸ hw))
      (fun _ _ _ _ _ _ e => hv'.wit ρ n' _ _ _ _ _ _ hρ2 hn' (e ▸ hw'))
      (fun x y hx hy => hnc.free x y (up hx) (up hy)) ?_ (hnc.digFree _ _ ⟨ρ, n, m, hρ1, hn, hm, rfl⟩ ⟨ρ, n', m', hρ2, hn', hm', rfl⟩)
    intro o c i x j x' b o' c' i' y j' y' b' e hb e' hb'
    have key : ∀ z ∈ [b, b', H.sha256 b, H.sha256 b'], TxHashedTo H t π z ∨ TxHashedTo H t' π' z := by
      intro z hz
      simp only [List.mem_cons, List.not_mem_nil, or_false] at hz
      rcases hz with hz | hz | hz | hz
      · exact .inl ⟨ρ, n, _, _, _, _, _, _, b, hρ1, hn, e ▸ hw, hb, .inl hz⟩
      · exact .inr ⟨ρ, n', _, _, _, _, _, _, b', hρ2, hn', e' ▸ hw', hb', .inl hz⟩
      · exact .inl ⟨ρ, n, _, _, _, _, _, _, b, hρ1, hn, e ▸ hw, hb, .inr hz⟩
      · exact .inr ⟨ρ, n', _, _, _, _, _, _, b', hρ2, hn', e' ▸ hw', hb', .inr hz⟩
    exact fun z hz z' hz' he => hnc.txFree z z' (key z hz) (key z' hz') he
  have ends : ∀ {σ τ : List Bool}, σ <+: τ → σ = τ ∨ ∃ b ρ, τ = σ ++ b :: ρ := by
    rintro σ τ ⟨x, rfl⟩
    cases x with
    | nil => exact .inl (List.append_nil _).symm
    | cons b ρ => exact .inr ⟨b, ρ, rfl⟩
  have same : π = π' := by
    rcases hcomp with h | h
    · rcases ends h with h | ⟨b, ρ, rfl⟩
      · exact h
      · obtain ⟨m, hm, hmc⟩ := nodeAt_prefix π hn'
        rcases (agree π (List.prefix_refl _) h π n m (List.prefix_refl _) hn hm).2 with h | h | h | h
        · rw [hc] at h; exact absurd h (by decide)
        · rw [hmc] at h; exact absurd h (by decide)
        · rw [hc] at h; exact absurd h.1 (by decide)
        · rw [hmc] at h; exact absurd h.2.1 (by decide)
    · rcases ends h with h | ⟨b, ρ, rfl⟩
      · exact h.symm
      · obtain ⟨m, hm, hmc⟩ := nodeAt_prefix π' hn
        rcases (agree π' h (List.prefix_refl _) π' m n' (List.prefix_refl _) hm hn').2 with h | h | h | h
        · rw [hmc] at h; exact absurd h (by decide)
        · rw [hc'] at h; exact absurd h (by decide)
        · rw [hc'] at h; exact absurd h.2 (by decide)
        · rw [hmc] at h; exact absurd h.1 (by decide)
  refine ⟨same, ?_⟩
  subst same
  rcases (agree π (List.prefix_refl _) (List.prefix_refl _) π n n' (List.prefix_refl _) hn hn').2 with h | h | ⟨h, _⟩ | ⟨_, _, x, x', y, y', _, _, hy, hy', _, hs⟩
  · rw [hc] at h; exact absurd h (by decide)
  · rw [hc'] at h; exact absurd h (by decide)
  · rw [hc] at h; exact absurd h (by decide)
  · rw [hvv] at hy; rw [hvv'] at hy'
    cases hy; cases hy'
    exact hs
end

/-! ## Examples and the counterexample -/
namespace Ex
/-- The hash that the root of both views is closed over. -/
def root55 : Bytes := innerH (leafSealH 5 1) (leafSealH 5 2)

/-- The first view: the root is for the empty prefix, key 5 is on the left, the right side is unused. -/
def view1 : PTree := before [] 5 1 5 2

/-- The prefix of the root in the second view: the first 29 bits of the key 5, as 32 bits. -/
def p29 : List Bool := List.replicate 29 false

/-- The second view: the left side is unused, key 5 is on the right. -/
def view2 : PTree := innerT p29 (fakeWitnessT (fakeSealT root55)) (unusedT (p29 ++ [false]) (fakeSealT (leafH 5 1))) (leaf 5 2)

theorem view2_chk : view2.Checked T :=
  inner_chk (realHash.sha256_len _) (unused_chk (realHash.sha256_len _)) (leaf_chk 5 2) (.inl rfl) (.inr (.inl rfl))

theorem nodes1 {π : List Bool} {n : PTree} (h : nodeAt view1 π = some n) :
    (π = [] ∧ n = view1) ∨ (π = [false] ∧ n = leaf 5 1) ∨ (π = [true] ∧ n = unusedT [true] (fakeSealT (leafH 5 2))) :=
  nodeAt_inner (by show ¬ Cls.leafPrefix = _; decide) (by show ¬ Cls.unusedPrefix = _; decide) h

theorem nodes2 {π : List Bool} {n : PTree} (h : nodeAt view2 π = some n) :
    (π = [] ∧ n = view2) ∨ (π = [false] ∧ n = unusedT (p29 ++ [false]) (fakeSealT (leafH 5 1))) ∨ (π = [true] ∧ n = leaf 5 2) :=
  nodeAt_inner (by show ¬ Cls.unusedPrefix = _; decide) (by show ¬ Cls.leafPrefix = _; decide) h

/-- The strings hashed for the two views. -/
def strings55 : List Bytes :=
  let fake := fun h : Bytes => [h, hex "e5690d7316e34f8fbd4f148c32d37baf" ++ realHash.sha256 h]
  [leafTag realHash intGuMap ++ ([5] ++ [1]), leafTag realHash intGuMap ++ ([5] ++ [2]), innerTag realHash intGuMap ++ (leafSealH 5 1 ++ leafSealH 5 2)] ++
  (fake (leafH 5 1) ++ (fake (leafH 5 2) ++ fake root55))

theorem unused_strings {p : List Bool} {h x : Bytes} (hx : HashedAt T realHash intGuMap (unusedT p (fakeSealT h)) x) :
    x ∈ [h, hex "e5690d7316e34f8fbd4f148c32d37baf" ++ realHash.sha256 h] := by
  rcases hx with hx | ⟨q, hq, hx⟩
  · cases hx with
    | leaf h => exact absurd h (by show ¬ Cls.unusedPrefix = _; decide)
    | inner h => exact absurd h (by show ¬ Cls.unusedPrefix = _; decide)
  · cases (Option.some.inj hq : fakeSealT h = q)
    exact fake_hashed hx

theorem view1_strings {x : Bytes} (h : HashedIn T realHash intGuMap view1 x) : x ∈ strings55 := by
  obtain ⟨π, n, hn, hx⟩ := h
  simp only [strings55, List.mem_append]
  rcases nodes1 hn with ⟨_, rfl⟩ | ⟨_, rfl⟩ | ⟨_, rfl⟩
  · rcases inner_strings (leaf_seal 5 1) (unused_seal _ 5 2) hx with h | h
    · exact .inl (by rw [h]; simp)
    · exact .inr (.inr (.inr h))
  · rcases leaf_strings (by decide +kernel) (by decide +kernel) hx with h | h
    · exact .inl (by rw [h]; simp)
    · exact .inr (.inl h)
  · exact .inr (.inr (.inl (unused_strings hx)))

theorem view2_strings {x : Bytes} (h : HashedIn T realHash intGuMap view2 x) : x ∈ strings55 := by
  obtain ⟨π, n, hn, hx⟩ := h
  simp only [strings55, List.mem_append]
  rcases nodes2 hn with ⟨_, rfl⟩ | ⟨_, rfl⟩ | ⟨_, rfl⟩
  · rcases inner_strings (unused_seal _ 5 1) (leaf_seal 5 2) hx with h | h
    · exact .inl (by rw [h]; simp)
    · exact .inr (.inr (.inr h))
  · exact .inr (.inl (unused_strings hx))
  · rcases leaf_strings (by decide +kernel) (by decide +kernel) hx with h | h
    · exact .inl (by rw [h]; simp)
    · exact .inr (.inr (.inl h))

theorem strings55_free : CollisionFree realHash.sha256 strings55 := by
  have : ∀ a ∈ strings55, ∀ b ∈ strings55, realHash.sha256 a = realHash.sha256 b → a = b := by decide +kernel
  exact this

theorem fake1 {π : List Bool} {n w : PTree} (hn : nodeAt view1 π = some n) (hw : witnessOf n = some w) : w.cls = Cls.fakeWitness := by
  rcases nodes1 hn with ⟨_, rfl⟩ | ⟨_, rfl⟩ | ⟨_, rfl⟩
  · exact (congrArg PTree.cls (Option.some.inj hw)).symm
  · exact (congrArg PTree.cls (Option.some.inj hw)).symm
  · cases hw

theorem fake2 {π : List Bool} {n w : PTree} (hn : nodeAt view2 π = some n) (hw : witnessOf n = some w) : w.cls = Cls.fakeWitness := by
  rcases nodes2 hn with ⟨_, rfl⟩ | ⟨_, rfl⟩ | ⟨_, rfl⟩
  · exact (congrArg PTree.cls (Option.some.inj hw)).symm
  · cases hw
  · exact (congrArg PTree.cls (Option.some.inj hw)).symm

theorem notBtc {o : COutPoint} {c : Bytes} {i : Int} {x : CTransaction} {j : Int} {x' : CTransaction} (h : (fullWitnessT o c i x j x').cls = Cls.fakeWitness) : False :=
  absurd (show Cls.btcWitness = Cls.fakeWitness from h) (by decide)

theorem closed1 {h : Bytes} (hc : ClosedOver T realHash intGuMap view1 h) : h ∈ [root55, leafH 5 1] := by
  obtain ⟨π, n, m, hn, hm, rfl⟩ := hc
  rcases nodes1 hn with ⟨_, rfl⟩ | ⟨_, rfl⟩ | ⟨_, rfl⟩
  · have := sealed_fun hm (.inner rfl rfl rfl (leaf_seal 5 1) (unused_seal _ 5 2))
    rw [this]; exact List.mem_cons_self
  · have := sealed_fun hm (.leaf rfl rfl rfl (show (PrimTy.uint 0xffffffffffffffff).ser (.int (5 : Byte).toNat) = .ok [5] by decide +kernel)
      (show (PrimTy.uint 0xffffffffffffffff).ser (.int (1 : Byte).toNat) = .ok [1] by decide +kernel))
    rw [this]; exact List.mem_cons_of_mem _ List.mem_cons_self
  · cases hm with
    | leaf h => exact absurd h (by show ¬ Cls.unusedPrefix = _; decide)
    | inner h => exact absurd h (by show ¬ Cls.unusedPrefix = _; decide)

theorem closed2 {h : Bytes} (hc : ClosedOver T realHash intGuMap view2 h) : h ∈ [root55, leafH 5 2] := by
  obtain ⟨π, n, m, hn, hm, rfl⟩ := hc
  rcases nodes2 hn with ⟨_, rfl⟩ | ⟨_, rfl⟩ | ⟨_, rfl⟩
  · have := sealed_fun hm (.inner rfl rfl rfl (unused_seal _ 5 1) (leaf_seal 5 2))
    rw [this]; exact List.mem_cons_self
  · cases hm with
    | leaf h => exact absurd h (by show ¬ Cls.unusedPrefix = _; decide)
    | inner h => exact absurd h (by show ¬ Cls.unusedPrefix = _; decide)
  · have := sealed_fun hm (.leaf rfl rfl rfl (show (PrimTy.uint 0xffffffffffffffff).ser (.int (5 : Byte).toNat) = .ok [5] by decide +kernel)
      (show (PrimTy.uint 0xffffffffffffffff).ser (.int (2 : Byte).toNat) = .ok [2] by decide +kernel))
    rw [this]; exact List.mem_cons_of_mem _ List.mem_cons_self

/-- The two are views of one map, sealed without transactions. -/
theorem views : ∃ s s' r r', Views T realHash intGuMap (fun _ => False) s s' r r' view1 view2 := by
  obtain ⟨s, r, hs, _, hw⟩ := build (T := T) (H := realHash) view1 rfl (before_chk _ _ _ _ _) {}
  obtain ⟨s', r', hs', _, hw'⟩ := build (T := T) (H := realHash) view2 rfl view2_chk {}
  refine ⟨s, s', r, r', hs, hs', hw.represents, hw'.represents, ?_, ?_, ?_, ?_, ?_, tags_ne, ?_, ?_, ?_⟩
  · apply allVerify_of hs hw.represents
    intro π n hn
    rcases nodes1 hn with ⟨_, rfl⟩ | ⟨_, rfl⟩ | ⟨_, rfl⟩ <;> decide +kernel
  · apply allVerify_of hs' hw'.represents
    intro π n hn
    rcases nodes2 hn with ⟨_, rfl⟩ | ⟨_, rfl⟩ | ⟨_, rfl⟩ <;> decide +kernel
  · refine ⟨realHash.sha256 (hex "e5690d7316e34f8fbd4f148c32d37baf" ++ realHash.sha256 root55), ?_, ?_⟩
    · rw [run_eq classes_wf _ hs hw.represents, sealHash_ok]
      exact ⟨_, rfl, fakeSeal_hash _⟩
    · rw [run_eq classes_wf _ hs' hw'.represents, sealHash_ok]
      exact ⟨_, rfl, fakeSeal_hash _⟩
  · intro π n o c i x j x' hn hw
    exact (notBtc (fake1 hn hw)).elim
  · intro π n o c i x j x' hn hw
    exact (notBtc (fake2 hn hw)).elim
  · exact fun x y hx hy he => strings55_free x (hx.elim view1_strings view2_strings) y (hy.elim view1_strings view2_strings) he
  · rintro x y (⟨π, n, _, _, _, _, _, _, _, hn, hw, _⟩ | ⟨π, n, _, _, _, _, _, _, _, hn, hw, _⟩)
    · exact (notBtc (fake1 hn hw)).elim
    · exact (notBtc (fake2 hn hw)).elim
  · intro h h' hc hc'
    have : ∀ a ∈ [root55, leafH 5 1], ∀ b ∈ [root55, leafH 5 2], h160 realHash a = h160 realHash b → a = b := by decide +kernel
    exact this h (closed1 hc) h' (closed2 hc')

theorem key5 : intKey2prefix (.int 5) = .ok (p29 ++ [true, false, true]) := by decide +kernel

/-- The first view later, when the right side is closed too. -/
def view3 : PTree := two [] 5 1 5 2

theorem nodes3 {π : List Bool} {n : PTree} (h : nodeAt view3 π = some n) : (π = [] ∧ n = view3) ∨ (π = [false] ∧ n = leaf 5 1) ∨ (π = [true] ∧ n = leaf 5 2) :=
  nodeAt_inner (by show ¬ Cls.leafPrefix = _; decide) (by show ¬ Cls.leafPrefix = _; decide) h

theorem to_left {π : List Bool} (h : π <+: [false]) : π ≠ [true] := by
  rintro rfl
  exact absurd h (by decide)

theorem view3_strings {x : Bytes} (h : HashedTo T realHash intGuMap view3 [false] x) : x ∈ strings55 := by
  obtain ⟨π, n, hπ, hn, hx⟩ := h
  simp only [strings55, List.mem_append]
  rcases nodes3 hn with ⟨_, rfl⟩ | ⟨_, rfl⟩ | ⟨h, _⟩
  · rcases inner_strings (leaf_seal 5 1) (leaf_seal 5 2) hx with h | h
    · exact .inl (by rw [h]; simp)
    · exact .inr (.inr (.inr h))
  · rcases leaf_strings (by decide +kernel) (by decide +kernel) hx with h | h
    · exact .inl (by rw [h]; simp)
    · exact .inr (.inl h)
  · exact absurd h (to_left hπ)

theorem fake3 {π : List Bool} {n w : PTree} (hn : nodeAt view3 π = some n) (hw : witnessOf n = some w) : w.cls = Cls.fakeWitness := by
  rcases nodes3 hn with ⟨_, rfl⟩ | ⟨_, rfl⟩ | ⟨_, rfl⟩
  · exact (congrArg PTree.cls (Option.some.inj hw)).symm
  · exact (congrArg PTree.cls (Option.some.inj hw)).symm
  · exact (congrArg PTree.cls (Option.some.inj hw)).symm

theorem closed3 {h : Bytes} (hc : ClosedTo T realHash intGuMap view3 [false] h) : h ∈ [root55, leafH 5 1] := by
  obtain ⟨π, n, m, hπ, hn, hm, rfl⟩ := hc
  rcases nodes3 hn with ⟨_, rfl⟩ | ⟨_, rfl⟩ | ⟨h, _⟩
  · have := sealed_fun hm (.inner rfl rfl rfl (leaf_seal 5 1) (leaf_seal 5 2))
    rw [this]; exact List.mem_cons_self
  · have := sealed_fun hm (.leaf rfl rfl rfl (show (PrimTy.uint 0xffffffffffffffff).ser (.int (5 : Byte).toNat) = .ok [5] by decide +kernel)
      (show (PrimTy.uint 0xffffffffffffffff).ser (.int (1 : Byte).toNat) = .ok [1] by decide +kernel))
    rw [this]; exact List.mem_cons_of_mem _ List.mem_cons_self
  · exact absurd h (to_left hπ)

/-- Two proofs that the value of 5 is 1, from different states of one map, with nothing to collide (C142). -/
theorem keyProofs : ∃ k s s' r r', KeyProof T realHash intGuMap intKey2prefix (fun _ => False) [] k (.int 5) (.prim (.int 1)) s r view1 [false] ∧
    KeyProof T realHash intGuMap intKey2prefix (fun _ => False) [] k (.int 5) (.prim (.int 1)) s' r' view3 [false] ∧
    NoCollision T realHash intGuMap view1 [false] view3 [false] := by
  obtain ⟨s, r, hs, _, hw⟩ := build (T := T) (H := realHash) view1 rfl (before_chk _ _ _ _ _) {}
  obtain ⟨s', r', hs', _, hw'⟩ := build (T := T) (H := realHash) view3 rfl (two_chk _ _ _ _ _) {}
  refine ⟨realHash.sha256 (hex "e5690d7316e34f8fbd4f148c32d37baf" ++ realHash.sha256 root55), s, s', r, r', ⟨hs, hw.represents, ?_, ?_, ?_, ?_⟩,
    ⟨hs', hw'.represents, ?_, ?_, ?_, ?_⟩, ⟨tags_ne, ?_, ?_, ?_⟩⟩
  · refine fun ρ n _ hn => (allVerify_of hs hw.represents ?_) ρ n hn
    intro π n hn
    rcases nodes1 hn with ⟨_, rfl⟩ | ⟨_, rfl⟩ | ⟨_, rfl⟩ <;> decide +kernel
  · rw [run_eq classes_wf _ hs hw.represents, sealHash_ok]
    exact ⟨_, rfl, fakeSeal_hash _⟩
  · intro π n o c i x j x' _ hn hw
    exact (notBtc (fake1 hn hw)).elim
  · exact ⟨leaf 5 1, p29 ++ [true, false, true], rfl, rfl, rfl, rfl, key5, by decide⟩
  · refine fun ρ n _ hn => (allVerify_of hs' hw'.represents ?_) ρ n hn
    intro π n hn
    rcases nodes3 hn with ⟨_, rfl⟩ | ⟨_, rfl⟩ | ⟨_, rfl⟩ <;> decide +kernel
  · rw [run_eq classes_wf _ hs' hw'.represents, sealHash_ok]
    exact ⟨_, rfl, fakeSeal_hash _⟩
  · intro π n o c i x j x' _ hn hw
    exact (notBtc (fake3 hn hw)).elim
  · exact ⟨leaf 5 1, p29 ++ [true, false, true], rfl, rfl, rfl, rfl, key5, by decide⟩
  · have up : ∀ {x}, HashedTo T realHash intGuMap view1 [false] x → x ∈ strings55 := fun ⟨π, n, _, hn, hx⟩ => view1_strings ⟨π, n, hn, hx⟩
    exact fun x y hx hy he => strings55_free x (hx.elim up view3_strings) y (hy.elim up view3_strings) he
  · rintro x y (⟨π, n, _, _, _, _, _, _, _, _, hn, hw, _⟩ | ⟨π, n, _, _, _, _, _, _, _, _, hn, hw, _⟩)
    · exact (notBtc (fake1 hn hw)).elim
    · exact (notBtc (fake3 hn hw)).elim
  · intro h h' ⟨π, n, m, _, hn, hm, e⟩ hc'
    have : ∀ a ∈ [root55, leafH 5 1], ∀ b ∈ [root55, leafH 5 1], h160 realHash a = h160 realHash b → a = b := by decide +kernel
    exact this h (closed1 ⟨π, n, m, hn, hm, e⟩) h' (closed3 hc')

theorem placed1 : Placed intKey2prefix view1 := by
  intro π b n q hn hq
  rcases nodes1 hn with ⟨rfl, rfl⟩ | ⟨rfl, rfl⟩ | ⟨rfl, rfl⟩
  · cases b
    · cases (Option.some.inj hq : leaf 5 1 = q)
      exact ⟨[], _, rfl, prefixT_leaf key5, by decide +kernel⟩
    · cases (Option.some.inj hq : unusedT [true] (fakeSealT (leafH 5 2)) = q)
      exact ⟨[], [true], rfl, rfl, by simp⟩
  · cases b <;> cases hq
  · cases b <;> cases hq

theorem placed2 : Placed intKey2prefix view2 := by
  intro π b n q hn hq
  rcases nodes2 hn with ⟨rfl, rfl⟩ | ⟨rfl, rfl⟩ | ⟨rfl, rfl⟩
  · cases b
    · cases (Option.some.inj hq : unusedT (p29 ++ [false]) (fakeSealT (leafH 5 1)) = q)
      exact ⟨p29, p29 ++ [false], rfl, rfl, List.prefix_refl _⟩
    · cases (Option.some.inj hq : leaf 5 2 = q)
      exact ⟨p29, _, rfl, prefixT_leaf key5, by decide +kernel⟩
  · cases b <;> cases hq
  · cases b <;> cases hq
end Ex

/-- C141 does not hold: no seal is closed over the prefix of an inner node.  In one view the root is for the empty prefix and key 5 is on its left, with value 1; in
the other the root is for the first 29 bits of key 5, which is on its right, with value 2. -/
theorem C141_refuted : ¬ C141_statement := by
  intro hst
  obtain ⟨s, s', r, r', hv⟩ := Ex.views
  have := hst realHash intGuMap intKey2prefix _ s s' r r' _ _ hv (fun _ _ h => h.elim) Ex.placed1 Ex.placed2 [false] [true] _ _ _ _ _ rfl rfl rfl rfl rfl rfl rfl rfl
  have h2 : TVal.prim (.int 1) = TVal.prim (.int 2) := this
  injection h2 with h2
  injection h2 with h2
  exact absurd h2 (by decide)

namespace Ex
/-- A transaction that closes the seal of `Seal.Ex.op` over the key 4 with the value 1. -/
def closing : CTransaction := { vin := [⟨Seal.Ex.op, [], 0xffffffff⟩], vout := [⟨0, opReturnScript (leafH 4 1)⟩], nLockTime := 0, nVersion := 1 }

/-- A map that consists of one leaf, closed with this transaction. -/
def btcLeaf : PTree := leafT (fullWitnessT Seal.Ex.op Seal.Ex.nonce 0 closing 0 closing) (.int 4) (.int 1)

/-- The map before. -/
def btcUnused : PTree := unusedT [] (sealT Seal.Ex.op Seal.Ex.nonce)

theorem seal_chk : (sealT Seal.Ex.op Seal.Ex.nonce).Checked T := by
  have ha : (T Cls.btcSeal).attrs = [.prim .outpoint, .prim (.fixed 16)] := rfl
  show PFields.Checked T _ (T Cls.btcSeal).attrs
  rw [ha]
  exact ⟨rfl, rfl, trivial⟩

theorem btcLeaf_chk : btcLeaf.Checked T := by
  have h1 : PTree.Checked T (txinT 0 (txT closing)) := txinT_fields_checked (i := 0) closing (by omega)
  have h2 : PTree.Checked T (txoutT 0 (txT closing)) := txoutT_fields_checked (i := 0) closing (by omega)
  have hw : (fullWitnessT Seal.Ex.op Seal.Ex.nonce 0 closing 0 closing).Checked T := by
    have ha : (T Cls.btcWitness).attrs = [.proof Cls.btcSeal, .proof Cls.txInProof, .proof Cls.txOutProof] := rfl
    show PFields.Checked T _ (T Cls.btcWitness).attrs
    rw [ha]
    exact ⟨(fun us h => by cases h), seal_chk, (fun us h => by cases h), h1, (fun us h => by cases h), h2, trivial⟩
  exact ⟨rfl, hw, rfl, rfl, trivial⟩

theorem btcUnused_chk : btcUnused.Checked T := ⟨rfl, rfl, seal_chk, trivial⟩

theorem single {t n : PTree} {π : List Bool} (ht : t.cls ≠ Cls.innerPrefix) (h : nodeAt t π = some n) : n = t := by
  cases π with
  | nil => exact (Option.some.inj h).symm
  | cons b π => rw [nodeAt, if_neg ht] at h; cases h

def sealBytes : Bytes := PrimTy.lenPrefixed (Seal.Ex.op.hash ++ [0, 0, 0, 0]) ++ Seal.Ex.nonce

theorem seal_hashed : (sealT Seal.Ex.op Seal.Ex.nonce).hashed T realHash = [sealBytes, hex "b59093bf527f4d2a9a513c2e3d2f0c25" ++ realHash.sha256 sealBytes] := by
  decide +kernel

/-- C140 and C141 apply to a map before and after it was closed with a transaction of a chain. -/
theorem btcViews : ∃ s s' r r', Views T realHash intGuMap (fun x => x = closing) s s' r r' btcLeaf btcUnused := by
  obtain ⟨s, r, hs, _, hw⟩ := build (T := T) (H := realHash) btcLeaf rfl btcLeaf_chk {}
  obtain ⟨s', r', hs', _, hw'⟩ := build (T := T) (H := realHash) btcUnused rfl btcUnused_chk {}
  have n1 : ∀ {π n}, nodeAt btcLeaf π = some n → n = btcLeaf := single (by show ¬ Cls.leafPrefix = _; decide)
  have n2 : ∀ {π n}, nodeAt btcUnused π = some n → n = btcUnused := single (by show ¬ Cls.unusedPrefix = _; decide)
  have kd : (PrimTy.uint 0xffffffffffffffff).ser (.int 4) = .ok [4] := by decide +kernel
  have vd : (PrimTy.uint 0xffffffffffffffff).ser (.int 1) = .ok [1] := by decide +kernel
  have sl : Sealed T realHash intGuMap btcLeaf (leafTag realHash intGuMap ++ ([4] ++ [1])) := .leaf rfl rfl rfl kd vd
  have notSealed : ∀ {m}, ¬ Sealed T realHash intGuMap btcUnused m := by
    intro m hm
    cases hm with
    | leaf h => exact absurd h (by show ¬ Cls.unusedPrefix = _; decide)
    | inner h => exact absurd h (by show ¬ Cls.unusedPrefix = _; decide)
  refine ⟨s, s', r, r', hs, hs', hw.represents, hw'.represents, ?_, ?_, ?_, ?_, ?_, tags_ne, ?_, ?_, ?_⟩
  · apply allVerify_of hs hw.represents
    intro π n hn
    rw [n1 hn]; decide +kernel
  · apply allVerify_of hs' hw'.represents
    intro π n hn
    rw [n2 hn]; decide +kernel
  · refine ⟨realHash.sha256 (hex "b59093bf527f4d2a9a513c2e3d2f0c25" ++ realHash.sha256 sealBytes), ?_, ?_⟩
    · rw [run_eq classes_wf _ hs hw.represents, sealHash_ok]
      exact ⟨_, rfl, by decide +kernel⟩
    · rw [run_eq classes_wf _ hs' hw'.represents, sealHash_ok]
      exact ⟨_, rfl, by decide +kernel⟩
  · intro π n o c i x j x' hn hw
    rw [n1 hn] at hw
    have := Option.some.inj hw
    simp only [fullWitnessT, witnessT, txinT, txoutT, txT, PTree.node.injEq, PFields.sub.injEq, PFields.prim.injEq, PVal.int.injEq, PVal.tx.injEq, true_and, and_true] at this
    exact ⟨this.2.1.2.symm, this.2.2.1.symm⟩
  · intro π n o c i x j x' hn hw
    rw [n2 hn] at hw
    cases hw
  · have key : ∀ {x}, HashedIn T realHash intGuMap btcLeaf x ∨ HashedIn T realHash intGuMap btcUnused x →
        x ∈ [leafTag realHash intGuMap ++ ([4] ++ [1]), sealBytes, hex "b59093bf527f4d2a9a513c2e3d2f0c25" ++ realHash.sha256 sealBytes] := by
      rintro x (⟨π, n, hn, hx⟩ | ⟨π, n, hn, hx⟩)
      · rw [n1 hn] at hx
        rcases hx with hx | ⟨q, hq, hx⟩
        · rw [sealed_fun hx sl]; exact List.mem_cons_self
        · cases (Option.some.inj hq : sealT _ _ = q)
          rw [seal_hashed] at hx
          exact List.mem_cons_of_mem _ hx
      · rw [n2 hn] at hx
        rcases hx with hx | ⟨q, hq, hx⟩
        · exact absurd hx notSealed
        · cases (Option.some.inj hq : sealT _ _ = q)
          rw [seal_hashed] at hx
          exact List.mem_cons_of_mem _ hx
    have free : ∀ a ∈ [leafTag realHash intGuMap ++ ([4] ++ [1]), sealBytes, hex "b59093bf527f4d2a9a513c2e3d2f0c25" ++ realHash.sha256 sealBytes],
        ∀ b ∈ [leafTag realHash intGuMap ++ ([4] ++ [1]), sealBytes, hex "b59093bf527f4d2a9a513c2e3d2f0c25" ++ realHash.sha256 sealBytes],
        realHash.sha256 a = realHash.sha256 b → a = b := by decide +kernel
    exact fun x y hx hy he => free x (key hx) y (key hy) he
  · obtain ⟨e, he⟩ : ∃ e, closing.ser = .ok e := by
      cases h : closing.ser with
      | ok e => exact ⟨e, rfl⟩
      | error e => exact absurd h (by
          have : closing.ser.toBool = true := by decide +kernel
          intro hc; rw [hc] at this; cases this)
    have key : ∀ {x}, TxHashed realHash btcLeaf x ∨ TxHashed realHash btcUnused x → ∃ b, closing.ser = .ok b ∧ x ∈ [b, realHash.sha256 b] := by
      rintro x (⟨π, n, o, c, i, y, j, y', b, hn, hw, hb, hx⟩ | ⟨π, n, o, c, i, y, j, y', b, hn, hw, hb, hx⟩)
      · rw [n1 hn] at hw
        have := Option.some.inj hw
        simp only [fullWitnessT, witnessT, txinT, txoutT, txT, PTree.node.injEq, PFields.sub.injEq, PFields.prim.injEq, PVal.int.injEq, PVal.tx.injEq, true_and, and_true] at this
        rw [← this.2.2.2] at hb
        exact ⟨b, hb, by simpa using hx⟩
      · rw [n2 hn] at hw
        cases hw
    have free : (match closing.ser with | .ok b => decide (realHash.sha256 b ≠ realHash.sha256 (realHash.sha256 b)) | .error _ => false) = true := by decide +kernel
    rw [he] at free
    have free := of_decide_eq_true free
    intro x y hx hy hxy
    obtain ⟨b, hb, hx⟩ := key hx
    obtain ⟨b', hb', hy⟩ := key hy
    rw [he] at hb hb'
    cases hb; cases hb'
    simp only [List.mem_cons, List.not_mem_nil, or_false] at hx hy
    rcases hx with rfl | rfl <;> rcases hy with rfl | rfl
    · rfl
    · exact absurd hxy free
    · exact absurd hxy.symm free
    · rfl
  · intro h h' _ hc
    obtain ⟨π, n, m, hn, hm, _⟩ := hc
    rw [n2 hn] at hm
    exact absurd hm notSealed

example : SpentOnce realHash (fun x => x = closing) := by
  rintro x y rfl rfl _
  cases h : closing.ser with
  | ok e => exact ⟨_, ⟨e, h, rfl⟩, ⟨e, h, rfl⟩⟩
  | error e =>
    have : closing.ser.toBool = true := by decide +kernel
    rw [h] at this; cases this

/-- The condition of C141 holds for these two. -/
example : SamePrefixes intKey2prefix btcLeaf btcUnused := by
  intro π n n' hn _ hc
  rw [single (by show ¬ Cls.leafPrefix = _; decide) hn] at hc
  exact absurd hc (by show ¬ Cls.leafPrefix = _; decide)
end Ex
end Verif.GuMap
