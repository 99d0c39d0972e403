import Verif.Lemmas.GuMapAgree
import Verif.Props.Seal
/-!
# Globally unique maps

The classes are those made by `make_GuMap_subclass` for any tag, key and value serializers; the hash functions are arbitrary.
-/
namespace Verif.GuMap
open Verif Seal
section
variable {H : HashFns} {g : GuMapDecl}
local notation "C" => classes H g

theorem shape_unused {q : PTree} (hc : q.cls = Cls.unusedPrefix) (hk : q.Checked C) (hf : ∃ v, q.get? 1 = some v) : ∃ p ts, q = .node Cls.unusedPrefix (.prim p (.sub ts .nil)) ∨
    ∃ p', q = .node Cls.unusedPrefix (.sub p' (.sub ts .nil)) := by
  rcases q with ⟨c, fs⟩ | ⟨c, d⟩
  · simp only [PTree.cls] at hc
    subst hc
    have hk' : fs.Checked C [.prim .bits, .union [Cls.fakeSeal, Cls.btcSeal]] := hk
    have two : ∀ {fs : PFields}, fs.Checked C [.union [Cls.fakeSeal, Cls.btcSeal]] → ∃ ts, fs = .sub ts .nil := by
      intro fs h
      rcases fs with _ | ⟨b, fs⟩ | ⟨b, fs⟩
      · simp [PFields.Checked] at h
      · simp [PFields.Checked] at h
      · simp only [PFields.Checked] at h
        obtain ⟨_, _, h⟩ := h
        rcases fs with _ | ⟨_, _⟩ | ⟨_, _⟩ <;> simp [PFields.Checked] at h
        exact ⟨b, rfl⟩
    rcases fs with _ | ⟨a, fs⟩ | ⟨a, fs⟩
    · simp [PFields.Checked] at hk'
    · simp only [PFields.Checked] at hk'
      obtain ⟨ts, rfl⟩ := two hk'.2
      exact ⟨a, ts, .inl rfl⟩
    · simp only [PFields.Checked] at hk'
      obtain ⟨ts, rfl⟩ := two hk'.2.2
      exact ⟨.other, ts, .inr ⟨a, rfl⟩⟩
  · obtain ⟨v, h⟩ := hf
    simp [PTree.get?] at h

theorem sealHash_eval {T : Table} {ini : List Nat} {t q : PTree} (hn : IsNode t) (hq : sealOf t = some q) :
    sealHash.eval T H ini t = (q.hash T H >>= fun h => .ok (.ok h)) := by
  have key : ∀ π, (TVal.sub t).walk T ini π = .ok (.sub q) → Prog.eval T H ini (Prog.hash π fun h => .ret (.ok h)) t = (q.hash T H >>= fun h => .ok (.ok h)) := by
    intro π h
    rw [Prog.eval, h, Except.bind_ok]
    rfl
  have two : ∀ i, (t.sub? i).bind (·.sub? 0) = some q → (TVal.sub t).walk T ini [i, 0] = .ok (.sub q) := by
    intro i h
    rw [walk2]
    cases h1 : t.sub? i with
    | none => rw [h1] at h; cases h
    | some w => rw [h1] at h; exact ⟨w, rfl, sub?_eq.mp h⟩
  unfold sealHash
  rw [eval_cls_nil]
  unfold sealOf witnessOf at hq
  rcases hn with h | h | h <;> rw [h] at hq ⊢
  · rw [if_pos rfl] at hq
    exact key [1] (walk1.mpr (sub?_eq.mp hq))
  · rw [if_neg (by decide), if_pos rfl] at hq
    exact key [0, 0] (two 0 hq)
  · rw [if_neg (by decide), if_neg (by decide), if_pos rfl] at hq
    exact key [1, 0] (two 1 hq)

/-! ## C52 -/

/-- C52, leaves: if `LeafPrefix.from_unused_prefix(unused, key, value, make_witness)` returns, for a maker that makes witnesses of the given seal
for the given hash, then, at any later time, the new node has this key and value and the seal of `unused`, and `verify()` succeeds. -/
theorem C52_leaf {mk : HVal → Bytes → HM HVal} (hmk : Honest C H mk) {s s' : PState} {u n : Nat} {p : List Bool} {ts : PTree} {key value : HVal}
    {tk tv : TVal} (hs : Reachable C H s) (hu : Represents s u (unusedT p ts)) (hk : key.Rep s tk) (hv : value.Rep s tv)
    (h : leafFromUnused C H g u key value mk s = (.ok n, s')) :
    Steps C H s s' ∧ (∃ t, Represents s' n t ∧ t.cls = Cls.leafPrefix ∧ t.get? 1 = some tk ∧ t.get? 2 = some tv) ∧
    ∀ s1, Steps C H s' s1 → ((verify H g).run C H n s1).1 = .ok (.ok ()) ∧ (sealHash.run C H n s1).1 = (sealHash.run C H u s).1 := by
  obtain ⟨kd, vd, tw, ts', hkd, hvd, hst, hn, hsub, hh, hck, hver⟩ := leafFromUnused_inv hmk hs hu hk hv h
  refine ⟨hst, ⟨_, hn, rfl, get_consT.1, get_consT.2⟩, fun s1 hst1 => ?_⟩
  have hs' : Reachable C H s' := hs.trans hst
  have hs1 : Reachable C H s1 := hs'.trans hst1
  have hn1 := hst1.represents classes_wf hs' hn
  constructor
  · rw [run_eq classes_wf _ hs1 hn1, verify_ok (Reachable.checked classes_wf hs1 hn1)]
    exact .inr ⟨tw, _, rfl, .leaf rfl get_consT.1 get_consT.2 hkd hvd, eval_inited _ _ hver⟩
  · rw [run_eq classes_wf _ hs1 hn1, run_eq classes_wf _ hs hu, sealHash_eval (.inr (.inl rfl)) (q := ts') (by exact hsub), sealHash_eval (.inl rfl) (q := ts) rfl, hh]

/-- C52, inner nodes: the same for `InnerPrefix.from_unused_prefix(unused, left, right, make_witness)`; the prefix is that of `unused`. -/
theorem C52_inner {mk : HVal → Bytes → HM HVal} (hmk : Honest C H mk) {k2p : PVal → Py (List Bool)} {s s' : PState} {u n l r : Nat} {p : List Bool}
    {ts tl tr : PTree} (hs : Reachable C H s) (hu : Represents s u (unusedT p ts)) (hl : Represents s l tl) (hr : Represents s r tr)
    (h : innerFromUnused C H g k2p u l r mk s = (.ok n, s')) :
    Steps C H s s' ∧ (∃ w, Represents s' n (innerT p w tl tr)) ∧
    ∀ s1, Steps C H s' s1 → ((verify H g).run C H n s1).1 = .ok (.ok ()) ∧ (sealHash.run C H n s1).1 = (sealHash.run C H u s).1 := by
  obtain ⟨a, b, tw, ts', ha, hb, hst, hn, hsub, hh, hck, hver⟩ := innerFromUnused_inv hmk hs hu hl hr h
  refine ⟨hst, ⟨_, hn⟩, fun s1 hst1 => ?_⟩
  have hs' : Reachable C H s' := hs.trans hst
  have hs1 : Reachable C H s1 := hs'.trans hst1
  have hn1 := hst1.represents classes_wf hs' hn
  constructor
  · rw [run_eq classes_wf _ hs1 hn1, verify_ok (Reachable.checked classes_wf hs1 hn1)]
    exact .inr ⟨tw, _, rfl, .inner rfl rfl rfl ha hb, eval_inited _ _ hver⟩
  · rw [run_eq classes_wf _ hs1 hn1, run_eq classes_wf _ hs hu, sealHash_eval (.inr (.inr rfl)) (q := ts') (by exact hsub), sealHash_eval (.inl rfl) (q := ts) rfl, hh]

/-- C52: `LeafPrefix.from_unused_prefix` does return if the maker does, and the key and the value can be hashed and are accepted by the
serializers. -/
theorem C52_leaf_total {mk : HVal → Bytes → HM HVal} (hmk : Honest C H mk) {s : PState} {u : Nat} {p : List Bool} {ts : PTree} {key value : HVal}
    {tk tv : TVal} {kd vd : Bytes} (hs : Reachable C H s) (hu : Represents s u (unusedT p ts)) (hk : key.Rep s tk) (hv : value.Rep s tv)
    (hkd : DigestIs C H g.key tk kd) (hvd : DigestIs C H g.value tv vd) (hck : (consT tk (consT tv .nil)).Checked C [g.key, g.value])
    (hret : ∀ s q, Reachable C H s → Represents s q ts → ∃ v s', mk (.ref q) (H.sha256 (leafTag H g ++ (kd ++ vd))) s = (.ok v, s')) :
    ∃ n s', leafFromUnused C H g u key value mk s = (.ok n, s') := leafFromUnused_total hmk hs hu hk hv hkd hvd hck hret

/-- C52: `InnerPrefix.from_unused_prefix` does return if the maker does, for children that are nodes of the map and whose seals can be hashed. -/
theorem C52_inner_total {mk : HVal → Bytes → HM HVal} (hmk : Honest C H mk) {k2p : PVal → Py (List Bool)} {s : PState} {u l r : Nat} {p : List Bool}
    {ts tl tr : PTree} {a b : Bytes} (hs : Reachable C H s) (hu : Represents s u (unusedT p ts)) (hl : Represents s l tl) (hr : Represents s r tr)
    (nl : IsNode tl) (nr : IsNode tr) (ha : (sealHash.run C H l s).1 = .ok (.ok a)) (hb : (sealHash.run C H r s).1 = .ok (.ok b))
    (hret : ∀ s q, Reachable C H s → Represents s q ts → ∃ v s', mk (.ref q) (H.sha256 (innerTag H g ++ (a ++ b))) s = (.ok v, s')) :
    ∃ n s', innerFromUnused C H g k2p u l r mk s = (.ok n, s') := by
  rw [run_eq classes_wf _ hs hl, sealHash_ok] at ha
  rw [run_eq classes_wf _ hs hr, sealHash_ok] at hb
  exact innerFromUnused_total hmk hs hu hl hr nl nr ha hb hret

/-! ## C53 -/

/-- C53: if `InnerPrefix.from_children(left, right)` returns, its prefix is the longest common prefix of those of the children, the children are
the given ones, and `verify()` of it succeeds at any later time. -/
theorem C53_from_children {k2p : PVal → Py (List Bool)} {s s' : PState} {l r n : Nat} {tl tr : PTree} (hs : Reachable C H s) (hl : Represents s l tl)
    (hr : Represents s r tr) (h : fromChildren C H g k2p l r s = (.ok n, s')) :
    Steps C H s s' ∧ (∃ p w, Represents s' n (innerT p w tl tr)) ∧
    ∀ s1, Steps C H s' s1 → ((verify H g).run C H n s1).1 = .ok (.ok ()) ∧
      ∃ p q c, (getPrefix C k2p l s1).1 = .ok p ∧ (getPrefix C k2p r s1).1 = .ok q ∧ (getPrefix C k2p n s1).1 = .ok c ∧ IsLongestCommonPrefix c p q := by
  obtain ⟨p, q, a, b, hp, hq, ha, hb, hst, hn⟩ := fromChildren_inv hs hl hr h
  refine ⟨hst, ⟨_, _, hn⟩, fun s1 hst1 => ?_⟩
  have hs' : Reachable C H s' := hs.trans hst
  have hs1 : Reachable C H s1 := hs'.trans hst1
  have hn1 := hst1.represents classes_wf hs' hn
  have hl1 := (hst.trans hst1).represents classes_wf hs hl
  have hr1 := (hst.trans hst1).represents classes_wf hs hr
  constructor
  · have hck := Reachable.checked classes_wf hs1 hn1
    rw [run_eq classes_wf _ hs1 hn1, verify_ok hck]
    refine .inr ⟨_, _, rfl, .inner rfl rfl rfl ha hb, ?_⟩
    rw [verifyHash_ok (hck.sub (i := 1) rfl)]
    exact .inl rfl
  · exact ⟨p, q, commonPrefix p q, ((getPrefix_rep k2p hs1 hl1).2 p).mpr hp, ((getPrefix_rep k2p hs1 hr1).2 q).mpr hq,
      ((getPrefix_rep k2p hs1 hn1).2 _).mpr rfl, commonPrefix_lcp p q⟩

/-- C53: it does return if the children are nodes of the map whose prefixes and seals can be read. -/
theorem C53_total {k2p : PVal → Py (List Bool)} {s : PState} {l r : Nat} {tl tr : PTree} {p q : List Bool} {a b : Bytes} (hs : Reachable C H s)
    (hl : Represents s l tl) (hr : Represents s r tr) (nl : IsNode tl) (nr : IsNode tr) (hp : (getPrefix C k2p l s).1 = .ok p)
    (hq : (getPrefix C k2p r s).1 = .ok q) (ha : (sealHash.run C H l s).1 = .ok (.ok a)) (hb : (sealHash.run C H r s).1 = .ok (.ok b)) :
    ∃ n s', fromChildren C H g k2p l r s = (.ok n, s') := by
  rw [run_eq classes_wf _ hs hl, sealHash_ok] at ha
  rw [run_eq classes_wf _ hs hr, sealHash_ok] at hb
  exact fromChildren_total hs hl hr (((getPrefix_rep k2p hs hl).2 p).mp hp) (((getPrefix_rep k2p hs hr).2 q).mp hq) ha hb nl nr

/-- C53: replacing the children by others whose seals have the same hashes keeps `verify()` succeeding, and the seal.  (`n` and `n'` are inner nodes
with the same witness, and any prefixes.) -/
theorem C53_replace {s : PState} {n n' l r l' r' : Nat} {p p' : List Bool} {w tl tr tl' tr' : PTree} {a b : Bytes} (hs : Reachable C H s)
    (hn : Represents s n (innerT p w tl tr)) (hn' : Represents s n' (innerT p' w tl' tr')) (hl : Represents s l tl) (hr : Represents s r tr)
    (hl' : Represents s l' tl') (hr' : Represents s r' tr') (ha : (sealHash.run C H l s).1 = .ok (.ok a)) (hb : (sealHash.run C H r s).1 = .ok (.ok b))
    (ha' : (sealHash.run C H l' s).1 = .ok (.ok a)) (hb' : (sealHash.run C H r' s).1 = .ok (.ok b)) :
    (((verify H g).run C H n s).1 = .ok (.ok ()) ↔ ((verify H g).run C H n' s).1 = .ok (.ok ())) ∧ (sealHash.run C H n s).1 = (sealHash.run C H n' s).1 := by
  rw [run_eq classes_wf _ hs hl, sealHash_ok] at ha
  rw [run_eq classes_wf _ hs hr, sealHash_ok] at hb
  rw [run_eq classes_wf _ hs hl', sealHash_ok] at ha'
  rw [run_eq classes_wf _ hs hr', sealHash_ok] at hb'
  rw [run_eq classes_wf _ hs hn, run_eq classes_wf _ hs hn', run_eq classes_wf _ hs hn, run_eq classes_wf _ hs hn',
    verify_ok (Reachable.checked classes_wf hs hn), verify_ok (Reachable.checked classes_wf hs hn')]
  have one : ∀ {p : List Bool} {tl tr : PTree} {m : Bytes}, SealHashIs C H tl a → SealHashIs C H tr b → Sealed C H g (innerT p w tl tr) m → m = innerTag H g ++ (a ++ b) := by
    intro p tl tr m ha hb hm
    cases hm with
    | leaf h => exact absurd h (by show ¬ Cls.innerPrefix = _; decide)
    | inner _ h1 h2 h3 h4 =>
      cases (Option.some.inj h1 : tl = _)
      cases (Option.some.inj h2 : tr = _)
      rw [sealHash_fun h3 ha, sealHash_fun h4 hb]
  constructor
  · constructor
    · rintro (h | ⟨w', m, hw, hm, h⟩)
      · exact .inl h
      · rw [one ha hb hm] at h
        exact .inr ⟨w', _, hw, .inner rfl rfl rfl ha' hb', h⟩
    · rintro (h | ⟨w', m, hw, hm, h⟩)
      · exact .inl h
      · rw [one ha' hb' hm] at h
        exact .inr ⟨w', _, hw, .inner rfl rfl rfl ha hb, h⟩
  · rfl

/-! ## C54 -/

/-- Two maps, of which the nodes on the way to `π` verify fully, with the same root seal, agree on this way. -/
theorem agree_path {s s' : PState} {r r' : Nat} {t t' : PTree} {k : Bytes} {π : List Bool} (hs : Reachable C H s) (hs' : Reachable C H s') (hr : Represents s r t)
    (hr' : Represents s' r' t') (hv : VerifiedTo C H g s r t π) (hv' : VerifiedTo C H g s' r' t' π) (hk : (sealHash.run C H r s).1 = .ok (.ok k))
    (hk' : (sealHash.run C H r' s').1 = .ok (.ok k)) (htag : CollisionFree (fun m => (H.sha256 m).take 16)
      [derivationTag ++ (hex "59c17f377e264aea8a5b7c0db66af35b" ++ H.derive (hex "0c60f34491094930aec1432c5750fcba") g.hashtag),
       derivationTag ++ (hex "b925044d320e4c1f9ef820614d260676" ++ H.derive (hex "6893cac7e83449cd8e9577707b0499b5") g.hashtag)])
    (hcf : ∀ x y, (HashedTo C H g t π x ∨ HashedTo C H g t' π x) → (HashedTo C H g t π y ∨ HashedTo C H g t' π y) → H.sha256 x = H.sha256 y → x = y)
    (huniq : ∀ ρ n n' w w' m m' d, ρ <+: π → nodeAt t ρ = some n → nodeAt t' ρ = some n' → witnessOf n = some w → witnessOf n' = some w' → SealHashIs C H n d →
      SealHashIs C H n' d → Sealed C H g n m → Sealed C H g n' m' → IsClosed H w (H.sha256 m) → IsClosed H w' (H.sha256 m') → H.sha256 m = H.sha256 m') :
    ∀ ρ n n', ρ <+: π → nodeAt t ρ = some n → nodeAt t' ρ = some n' → (∃ d, SealHashIs C H n d ∧ SealHashIs C H n' d) ∧
      (n.cls = Cls.unusedPrefix ∨ n'.cls = Cls.unusedPrefix ∨ (n.cls = Cls.innerPrefix ∧ n'.cls = Cls.innerPrefix) ∨
        (n.cls = Cls.leafPrefix ∧ n'.cls = Cls.leafPrefix ∧ ∃ x x' y y', n.get? 1 = some x ∧ n'.get? 1 = some x' ∧ n.get? 2 = some y ∧ n'.get? 2 = some y' ∧
          Same C H g.key x x' ∧ Same C H g.value y y')) := by
  have htag : leafTag H g ≠ innerTag H g := fun h => by
    have := htag _ (by simp) _ (by simp) (show (H.sha256 _).take 16 = (H.sha256 _).take 16 from h)
    exact absurd (List.append_inj (List.append_cancel_left this) (by decide)).1 (by decide)
  rw [run_eq classes_wf _ hs hr, sealHash_ok] at hk
  rw [run_eq classes_wf _ hs' hr', sealHash_ok] at hk'
  have hck := Reachable.checked classes_wf hs hr
  have hck' := Reachable.checked classes_wf hs' hr'
  have full : ∀ {s : PState} {r : Nat} {t : PTree}, Reachable C H s → Represents s r t → VerifiedTo C H g s r t π → ∀ ρ n, ρ <+: π → nodeAt t ρ = some n →
      n.cls = Cls.unusedPrefix ∨ ∃ w m, witnessOf n = some w ∧ Sealed C H g n m ∧ (IsFake w (H.sha256 m) ∨ IsClosed H w (H.sha256 m)) := by
    intro s r t hs hr hv π n hp hn
    have h1 := hv π n hp hn
    rw [run_eq classes_wf _ hs hr, Prog.eval_at (nodeAt_walk π hn)] at h1
    exact verifyFull_inv (nodeAt_checked π (Reachable.checked classes_wf hs hr) hn) h1
  have F := full hs hr hv
  have F' := full hs' hr' hv'
  have agree : ∀ ρ n n' d w w' m m', ρ <+: π → nodeAt t ρ = some n → nodeAt t' ρ = some n' → SealHashIs C H n d → SealHashIs C H n' d → n.cls ≠ Cls.unusedPrefix →
      n'.cls ≠ Cls.unusedPrefix → witnessOf n = some w → witnessOf n' = some w' → Sealed C H g n m → Sealed C H g n' m' →
      (IsFake w (H.sha256 m) ∨ IsClosed H w (H.sha256 m)) → (IsFake w' (H.sha256 m') ∨ IsClosed H w' (H.sha256 m')) → m = m' := by
    intro ρ n n' d w w' m m' hp hn hn' hd hd' hu hu' hw hw' hm hm' h1 h1'
    refine closed_agree hd hd' hu hu' hw hw' hm hm' h1 h1' (fun hc hc' => huniq ρ n n' w w' _ _ d hp hn hn' hw hw' hd hd' hm hm' hc hc') ?_
    have up : ∀ x, (HashedAt C H g n x ∨ HashedAt C H g n' x) → (HashedTo C H g t π x ∨ HashedTo C H g t' π x) := by
      rintro x (h | h)
      · exact .inl ⟨ρ, n, hp, hn, h⟩
      · exact .inr ⟨ρ, n', hp, hn', h⟩
    exact fun x y hx hy he => hcf x y (up x hx) (up y hy) he
  have seals : ∀ (ρ : List Bool) n n', ρ.reverse <+: π → nodeAt t ρ.reverse = some n → nodeAt t' ρ.reverse = some n' → ∃ d, SealHashIs C H n d ∧ SealHashIs C H n' d := by
    intro ρ
    induction ρ with
    | nil =>
      intro n n' _ hn hn'
      cases hn; cases hn'
      exact ⟨k, hk, hk'⟩
    | cons b ρ ih =>
      intro n n' hpre hn hn'
      rw [List.reverse_cons] at hn hn' hpre
      have hpre := (List.prefix_append _ _).trans hpre
      obtain ⟨p, hp, hpc, hpn⟩ := nodeAt_snoc _ _ hn
      obtain ⟨p', hp', hpc', hpn'⟩ := nodeAt_snoc _ _ hn'
      obtain ⟨d, hd, hd'⟩ := ih p p' hpre hp hp'
      have hu : p.cls ≠ Cls.unusedPrefix := by rw [hpc]; decide
      have hu' : p'.cls ≠ Cls.unusedPrefix := by rw [hpc']; decide
      rcases F _ p hpre hp with h | ⟨w, m, hw, hm, h1⟩
      · exact absurd h hu
      · rcases F' _ p' hpre hp' with h | ⟨w', m', hw', hm', h1'⟩
        · exact absurd h hu'
        · have hmm := agree _ p p' d w w' m m' hpre hp hp' hd hd' hu hu' hw hw' hm hm' h1 h1'
          cases hm with
          | leaf h => rw [hpc] at h; exact absurd h (by decide)
          | @inner l r a c hc0 hl hr ha hc =>
            cases hm' with
            | leaf h => rw [hpc'] at h; exact absurd h (by decide)
            | @inner l' r' a' c' hc0' hl' hr' ha' hc' =>
              have len : ∀ {t : PTree} {x : Bytes}, SealHashIs C H t x → x.length = 32 := fun ⟨_, _, h⟩ => PTree.hash_len h
              obtain ⟨e1, e2⟩ := List.append_inj (List.append_cancel_left hmm) ((len ha).trans (len ha').symm)
              subst e1 e2
              cases b with
              | false =>
                simp only [Bool.false_eq_true, if_false] at hpn hpn'
                rw [hl] at hpn; rw [hl'] at hpn'
                cases hpn; cases hpn'
                exact ⟨a, ha, ha'⟩
              | true =>
                simp only [if_true] at hpn hpn'
                rw [hr] at hpn; rw [hr'] at hpn'
                cases hpn; cases hpn'
                exact ⟨c, hc, hc'⟩
  intro ρ n n' hp hn hn'
  obtain ⟨d, hd, hd'⟩ := seals ρ.reverse n n' (by rw [List.reverse_reverse]; exact hp) (by rw [List.reverse_reverse]; exact hn) (by rw [List.reverse_reverse]; exact hn')
  refine ⟨⟨d, hd, hd'⟩, ?_⟩
  rcases F ρ n hp hn with h | ⟨w, m, hw, hm, h1⟩
  · exact .inl h
  · rcases F' ρ n' hp hn' with h | ⟨w', m', hw', hm', h1'⟩
    · exact .inr (.inl h)
    · right; right
      have hu : n.cls ≠ Cls.unusedPrefix := by cases hm with | leaf h => rw [h]; decide | inner h => rw [h]; decide
      have hu' : n'.cls ≠ Cls.unusedPrefix := by cases hm' with | leaf h => rw [h]; decide | inner h => rw [h]; decide
      have hmm := agree ρ n n' d w w' m m' hp hn hn' hd hd' hu hu' hw hw' hm hm' h1 h1'
      cases hm with
      | leaf hc hx hy hxd hyd =>
        cases hm' with
        | inner => exact absurd (List.append_inj hmm (leafTag_len.trans innerTag_len.symm)).1 htag
        | leaf hc' hx' hy' hxd' hyd' =>
          right
          have kc := nodeAt_checked ρ hck hn
          have kc' := nodeAt_checked ρ hck' hn'
          obtain ⟨s1, e⟩ := same_prefix hxd hxd' (fun τ w h1 h2 => (leaf_checked hc kc).1 τ w h1 hx h2) (fun τ w h1 h2 => (leaf_checked hc' kc').1 τ w h1 hx' h2)
            (List.append_cancel_left hmm)
          obtain ⟨s2, _⟩ := same_prefix (r := []) (r' := []) hyd hyd' (fun τ w h1 h2 => (leaf_checked hc kc).2 τ w h1 hy h2)
            (fun τ w h1 h2 => (leaf_checked hc' kc').2 τ w h1 hy' h2) (by rw [List.append_nil, List.append_nil]; exact e)
          exact ⟨hc, hc', _, _, _, _, hx, hx', hy, hy', s1, s2⟩
      | inner hc =>
        cases hm' with
        | leaf => exact absurd (List.append_inj hmm (innerTag_len.trans leafTag_len.symm)).1.symm htag
        | inner hc' => exact .inl ⟨hc, hc'⟩

/-- C54: two maps (also of different executions) all of whose nodes verify fully, with the same root seal, agree: at every position in both,
both nodes have the same seal, and one is still unused, or they are of the same class, and if they are leaves have the same key and
the same value.  This is provided that the tags of leaves and inner nodes are different, SHA-256 does not collide on the strings hashed for
the seals and contents of the nodes of the two, and no Bitcoin seal of theirs was closed over the contents of two nodes with different hashes (C140 says
where this comes from). -/
theorem C54_agree {s s' : PState} {r r' : Nat} {t t' : PTree} {k : Bytes} (hs : Reachable C H s) (hs' : Reachable C H s') (hr : Represents s r t)
    (hr' : Represents s' r' t') (hv : AllVerify C H g s r t) (hv' : AllVerify C H g s' r' t') (hk : (sealHash.run C H r s).1 = .ok (.ok k))
    (hk' : (sealHash.run C H r' s').1 = .ok (.ok k)) (htag : CollisionFree (fun m => (H.sha256 m).take 16)
      [derivationTag ++ (hex "59c17f377e264aea8a5b7c0db66af35b" ++ H.derive (hex "0c60f34491094930aec1432c5750fcba") g.hashtag),
       derivationTag ++ (hex "b925044d320e4c1f9ef820614d260676" ++ H.derive (hex "6893cac7e83449cd8e9577707b0499b5") g.hashtag)])
    (hcf : ∀ x y, (HashedIn C H g t x ∨ HashedIn C H g t' x) → (HashedIn C H g t y ∨ HashedIn C H g t' y) → H.sha256 x = H.sha256 y → x = y)
    (huniq : ∀ π n n' w w' m m' d, nodeAt t π = some n → nodeAt t' π = some n' → witnessOf n = some w → witnessOf n' = some w' → SealHashIs C H n d →
      SealHashIs C H n' d → Sealed C H g n m → Sealed C H g n' m' → IsClosed H w (H.sha256 m) → IsClosed H w' (H.sha256 m') → H.sha256 m = H.sha256 m') :
    ∀ π n n', nodeAt t π = some n → nodeAt t' π = some n' → (∃ d, SealHashIs C H n d ∧ SealHashIs C H n' d) ∧
      (n.cls = Cls.unusedPrefix ∨ n'.cls = Cls.unusedPrefix ∨ (n.cls = Cls.innerPrefix ∧ n'.cls = Cls.innerPrefix) ∨
        (n.cls = Cls.leafPrefix ∧ n'.cls = Cls.leafPrefix ∧ ∃ x x' y y', n.get? 1 = some x ∧ n'.get? 1 = some x' ∧ n.get? 2 = some y ∧ n'.get? 2 = some y' ∧
          Same C H g.key x x' ∧ Same C H g.value y y')) := by
  intro π n n' hn hn'
  have up : ∀ {x}, (HashedTo C H g t π x ∨ HashedTo C H g t' π x) → (HashedIn C H g t x ∨ HashedIn C H g t' x) := by
    rintro x (⟨ρ, n, _, h1, h2⟩ | ⟨ρ, n, _, h1, h2⟩)
    · exact .inl ⟨ρ, n, h1, h2⟩
    · exact .inr ⟨ρ, n, h1, h2⟩
  exact agree_path (π := π) hs hs' hr hr' (fun ρ n _ h => hv ρ n h) (fun ρ n _ h => hv' ρ n h) hk hk' htag (fun x y hx hy he => hcf x y (up hx) (up hy) he)
    (fun ρ n n' w w' m m' d _ => huniq ρ n n' w w' m m' d) π n n' (List.prefix_refl _) hn hn'

/-! ## C55 -/

/-- C55 as stated: in a map all of whose nodes verify, leaves with the same key have the same value. -/
def C55_statement : Prop := ∀ (H : HashFns) (g : GuMapDecl) (s : PState) (r : Nat) (t : PTree), Reachable (classes H g) H s → Represents s r t →
  AllVerify (classes H g) H g s r t → ∀ π π' n n' k v v', nodeAt t π = some n → nodeAt t π' = some n' → n.cls = Cls.leafPrefix → n'.cls = Cls.leafPrefix →
  n.get? 1 = some k → n'.get? 1 = some k → n.get? 2 = some v → n'.get? 2 = some v' → v = v'

theorem nodeAt_prefix : ∀ (π : List Bool) {b : Bool} {ρ : List Bool} {t q : PTree}, nodeAt t (π ++ b :: ρ) = some q →
    ∃ n, nodeAt t π = some n ∧ n.cls = Cls.innerPrefix
  | [], b, ρ, t, q, h => by
    rw [List.nil_append, nodeAt] at h
    split at h
    · next hc => exact ⟨t, rfl, hc⟩
    · cases h
  | a :: π, b, ρ, t, q, h => by
    rw [List.cons_append, nodeAt] at h
    split at h
    · next ht =>
      cases hs : t.sub? (if a then 3 else 2) with
      | none => rw [hs] at h; cases h
      | some x =>
        rw [hs] at h
        obtain ⟨n, h1, h2⟩ := nodeAt_prefix π (t := x) h
        exact ⟨n, by rw [nodeAt, if_pos ht, hs]; exact h1, h2⟩
    · cases h

theorem placed_below {k2p : PVal → Py (List Bool)} {t : PTree} (hp : Placed k2p t) (π : List Bool) (b : Bool) (ρ : List Bool) : ∀ {n q : PTree},
    nodeAt t π = some n → nodeAt t (π ++ b :: ρ.reverse) = some q → ∃ p p', prefixT k2p n = some p ∧ prefixT k2p q = some p' ∧ p ++ [b] <+: p' := by
  induction ρ with
  | nil => intro n q hn hq; exact hp π b n q hn hq
  | cons c ρ ih =>
    intro n q hn hq
    have hq' : nodeAt t ((π ++ b :: ρ.reverse) ++ [c]) = some q := by
      rw [← hq, List.reverse_cons, List.append_assoc]; rfl
    obtain ⟨m, hm, _⟩ := nodeAt_snoc _ _ hq'
    obtain ⟨p, p', h1, h2, h3⟩ := ih hn hm
    obtain ⟨p2, p3, h4, h5, h6⟩ := hp _ c m q hm hq'
    rw [h2] at h4
    cases h4
    exact ⟨p, p3, h1, h5, h3.trans ((List.prefix_append p' [c]).trans h6)⟩

theorem diverge : ∀ (π π' : List Bool), π = π' ∨ (∃ b ρ, π' = π ++ b :: ρ) ∨ (∃ b ρ, π = π' ++ b :: ρ) ∨ ∃ σ b ρ ρ', π = σ ++ b :: ρ ∧ π' = σ ++ (!b) :: ρ'
  | [], [] => .inl rfl
  | [], b :: π' => .inr (.inl ⟨b, π', rfl⟩)
  | b :: π, [] => .inr (.inr (.inl ⟨b, π, rfl⟩))
  | a :: π, b :: π' => by
    by_cases h : a = b
    · subst h
      rcases diverge π π' with rfl | ⟨b, ρ, rfl⟩ | ⟨b, ρ, rfl⟩ | ⟨σ, b, ρ, ρ', rfl, rfl⟩
      · exact .inl rfl
      · exact .inr (.inl ⟨b, ρ, rfl⟩)
      · exact .inr (.inr (.inl ⟨b, ρ, rfl⟩))
      · exact .inr (.inr (.inr ⟨a :: σ, b, ρ, ρ', rfl, rfl⟩))
    · have : b = !a := by cases a <;> cases b <;> simp at h ⊢
      subst this
      exact .inr (.inr (.inr ⟨[], a, π, π', rfl, rfl⟩))

/-- What holds of C55: if moreover every child has a prefix that goes on on its side (which the code does not check: GM:119, GM:127 "FIXME"), no
two leaves have the same key. -/
theorem C55_placed_partial {k2p : PVal → Py (List Bool)} {t : PTree} (hp : Placed k2p t) : ∀ π π' n n' k, nodeAt t π = some n → nodeAt t π' = some n' →
    n.cls = Cls.leafPrefix → n'.cls = Cls.leafPrefix → n.get? 1 = some k → n'.get? 1 = some k → π = π' := by
  intro π π' n n' k hn hn' hc hc' hk hk'
  have notInner : ∀ {σ : List Bool} {b : Bool} {ρ : List Bool} {n q : PTree}, nodeAt t σ = some n → n.cls = Cls.leafPrefix → nodeAt t (σ ++ b :: ρ) = some q → False := by
    intro σ b ρ n q hn hc hq
    obtain ⟨m, hm, hmc⟩ := nodeAt_prefix σ hq
    rw [hn] at hm
    cases hm
    rw [hc] at hmc
    exact absurd hmc (by decide)
  rcases diverge π π' with rfl | ⟨b, ρ, rfl⟩ | ⟨b, ρ, rfl⟩ | ⟨σ, b, ρ, ρ', rfl, rfl⟩
  · rfl
  · exact (notInner hn hc hn').elim
  · exact (notInner hn' hc' hn).elim
  · obtain ⟨m, hm, _⟩ := nodeAt_prefix σ hn
    obtain ⟨p, q, h1, h2, h3⟩ := placed_below hp σ b ρ.reverse hm (by rw [List.reverse_reverse]; exact hn)
    obtain ⟨p', q', h1', h2', h3'⟩ := placed_below hp σ (!b) ρ'.reverse hm (by rw [List.reverse_reverse]; exact hn')
    rw [h1] at h1'
    cases h1'
    have hpp : prefixT k2p n = prefixT k2p n' := by unfold prefixT; rw [hc, hc', hk, hk']; simp [Cls.leafPrefix, Cls.unusedPrefix, Cls.innerPrefix]
    rw [hpp, h2'] at h2
    cases h2
    obtain ⟨x, hx⟩ := h3
    obtain ⟨y, hy⟩ := h3'
    rw [← hx, List.append_assoc, List.append_assoc] at hy
    have := List.append_cancel_left hy
    simp at this

/-! ## Examples and counterexamples -/

/-- `lambda seal, hash: FakeSealWitness(seal=seal)`, raising if the witness is not for the hash. -/
def fakeMaker (T : Table) (H : HashFns) : HVal → Bytes → HM HVal := fun sl h => do
  let w ← Prf.new T Cls.fakeWitness [sl]
  (verifyHash H h).runM T H w
  return .ref w

/-- A maker that makes a `BitcoinSealWitness` from input `i` and output `j` of the transaction `x`, and raises if it is not for the hash. -/
def btcMaker (T : Table) (H : HashFns) (x : Btc.CTransaction) (i j : Int) : HVal → Bytes → HM HVal := fun sl h => do
  let tp ← Prf.new T Cls.txProof [.prim (.tx x)]
  let a ← Prf.new T Cls.txInProof [.prim (.int i), .ref tp]
  let b ← Prf.new T Cls.txOutProof [.prim (.int j), .ref tp]
  let w ← Prf.new T Cls.btcWitness [sl, .ref a, .ref b]
  (verifyHash H h).runM T H w
  return .ref w

theorem runM_run {α} {p : Prog α} {s s' : PState} {r : Nat} {t : PTree} {a : α} (hs : Reachable C H s) (hr : Represents s r t)
    (h : p.runM C H r s = (.ok a, s')) : Steps C H s s' ∧ Represents s' r t ∧ (p.run C H r s').1 = .ok (.ok a) := by
  obtain ⟨h1, h2⟩ := runM_eq classes_wf p hs hr
  rw [h] at h1 h2
  have hr' := h1.represents classes_wf hs hr
  refine ⟨h1, hr', ?_⟩
  rw [run_eq classes_wf _ (hs.trans h1) hr']
  exact eval_inited _ _ ((h2 a).mp rfl)

theorem fakeMaker_honest : Honest C H (fakeMaker C H) where
  witness := by
    intro s q ts h v s' hs hq hm
    unfold fakeMaker at hm
    obtain ⟨w, s1, h1, hm⟩ := HM.bind_ok_inv hm
    obtain ⟨st1, _, e1⟩ := new_rep classes_wf hs Cls.fakeWitness (vs := [.ref q]) (.ref hq .nil) rfl
    rw [h1] at st1 e1
    obtain ⟨_, s2, h2, hm⟩ := HM.bind_ok_inv hm
    obtain ⟨st2, hw, hv⟩ := runM_run (hs.trans st1) (e1 w rfl) h2
    cases hm
    exact ⟨st1.trans st2, w, _, ts, rfl, hw, rfl, rfl, hv⟩

theorem btcMaker_honest (x : Btc.CTransaction) (i j : Int) : Honest C H (btcMaker C H x i j) where
  witness := by
    intro s q ts h v s' hs hq hm
    unfold btcMaker at hm
    obtain ⟨tp, s1, h1, hm⟩ := HM.bind_ok_inv hm
    obtain ⟨st1, _, e1⟩ := new_rep classes_wf hs Cls.txProof (vs := [.prim (.tx x)]) (.prim .nil) rfl
    rw [h1] at st1 e1
    have hs1 : Reachable C H s1 := hs.trans st1
    have htp := e1 tp rfl
    obtain ⟨a, s2, h2, hm⟩ := HM.bind_ok_inv hm
    obtain ⟨st2, _, e2⟩ := new_rep classes_wf hs1 Cls.txInProof (vs := [.prim (.int i), .ref tp]) (.prim (.ref htp .nil)) rfl
    rw [h2] at st2 e2
    have hs2 : Reachable C H s2 := hs1.trans st2
    obtain ⟨b, s3, h3, hm⟩ := HM.bind_ok_inv hm
    obtain ⟨st3, _, e3⟩ := new_rep classes_wf hs2 Cls.txOutProof (vs := [.prim (.int j), .ref tp]) (.prim (.ref (st2.represents classes_wf hs1 htp) .nil)) rfl
    rw [h3] at st3 e3
    have hs3 : Reachable C H s3 := hs2.trans st3
    obtain ⟨w, s4, h4, hm⟩ := HM.bind_ok_inv hm
    obtain ⟨st4, _, e4⟩ := new_rep classes_wf hs3 Cls.btcWitness (vs := [.ref q, .ref a, .ref b])
      (.ref (((st1.trans st2).trans st3).represents classes_wf hs hq) (.ref (st3.represents classes_wf hs2 (e2 a rfl)) (.ref (e3 b rfl) .nil))) rfl
    rw [h4] at st4 e4
    obtain ⟨_, s5, h5, hm⟩ := HM.bind_ok_inv hm
    obtain ⟨st5, hw, hv⟩ := runM_run (hs3.trans st4) (e4 w rfl) h5
    cases hm
    exact ⟨(((st1.trans st2).trans st3).trans st4).trans st5, w, _, ts, rfl, hw, rfl, rfl, hv⟩
end

namespace Ex
/-- The classes, for `IntGuMap`. -/
abbrev T : Table := classes realHash intGuMap

/-- What closes the seal of a leaf for a key and a value. -/
def leafH (k v : Byte) : Bytes := realHash.sha256 (leafTag realHash intGuMap ++ ([k] ++ [v]))

/-- A leaf closed with a fake witness. -/
def leaf (k v : Byte) : PTree := leafT (fakeWitnessT (fakeSealT (leafH k v))) (.int k.toNat) (.int v.toNat)

/-- The hash of the seal of that leaf. -/
def leafSealH (k v : Byte) : Bytes := realHash.sha256 (hex "e5690d7316e34f8fbd4f148c32d37baf" ++ realHash.sha256 (leafH k v))

def innerH (a b : Bytes) : Bytes := realHash.sha256 (innerTag realHash intGuMap ++ (a ++ b))

/-- Two leaves under one node. -/
def two (p : List Bool) (k v k' v' : Byte) : PTree := innerT p (fakeWitnessT (fakeSealT (innerH (leafSealH k v) (leafSealH k' v')))) (leaf k v) (leaf k' v')

/-- Such a map, before the second leaf was closed. -/
def before (p : List Bool) (k v k' v' : Byte) : PTree :=
  innerT p (fakeWitnessT (fakeSealT (innerH (leafSealH k v) (leafSealH k' v')))) (leaf k v) (unusedT (p ++ [true]) (fakeSealT (leafH k' v')))

theorem tags_ne : CollisionFree (fun m => (realHash.sha256 m).take 16)
    [derivationTag ++ (hex "59c17f377e264aea8a5b7c0db66af35b" ++ realHash.derive (hex "0c60f34491094930aec1432c5750fcba") intGuMap.hashtag),
     derivationTag ++ (hex "b925044d320e4c1f9ef820614d260676" ++ realHash.derive (hex "6893cac7e83449cd8e9577707b0499b5") intGuMap.hashtag)] := by
  have h : leafTag realHash intGuMap ≠ innerTag realHash intGuMap := by decide +kernel
  intro x hx y hy he
  simp only [List.mem_cons, List.not_mem_nil, or_false] at hx hy
  rcases hx with rfl | rfl <;> rcases hy with rfl | rfl
  · rfl
  · exact absurd he h
  · exact absurd he.symm h
  · rfl

theorem allVerify_of {H : HashFns} {g : GuMapDecl} {s : PState} {r : Nat} {t : PTree} (hs : Reachable (classes H g) H s) (hr : Represents s r t)
    (h : ∀ π n, nodeAt t π = some n → (verifyFull H g).eval (classes H g) H [] n = .ok (.ok ())) : AllVerify (classes H g) H g s r t := by
  intro π n hn
  rw [run_eq classes_wf _ hs hr, Prog.eval_at (nodeAt_walk π hn)]
  exact eval_inited _ _ (h π n hn)

theorem nodeAt_inner {p : List Bool} {w l r : PTree} (hl : l.cls ≠ Cls.innerPrefix) (hr : r.cls ≠ Cls.innerPrefix) : ∀ {π : List Bool} {n : PTree},
    nodeAt (innerT p w l r) π = some n → (π = [] ∧ n = innerT p w l r) ∨ (π = [false] ∧ n = l) ∨ (π = [true] ∧ n = r)
  | [], n, h => .inl ⟨rfl, (Option.some.inj h).symm⟩
  | [false], n, h => .inr (.inl ⟨rfl, (Option.some.inj h).symm⟩)
  | [true], n, h => .inr (.inr ⟨rfl, (Option.some.inj h).symm⟩)
  | false :: c :: π, n, h => by
    have : nodeAt l (c :: π) = some n := h
    rw [nodeAt, if_neg hl] at this; cases this
  | true :: c :: π, n, h => by
    have : nodeAt r (c :: π) = some n := h
    rw [nodeAt, if_neg hr] at this; cases this

theorem leaf_chk (k v : Byte) : (leaf k v).Checked T := by
  have h : ∀ b : Byte, (PrimTy.uint 0xffffffffffffffff).check (.int b.toNat) = .ok () := by
    intro b
    have := b.isLt
    simp only [PrimTy.check]
    rw [if_neg (by omega)]
  refine ⟨rfl, ⟨?_, ⟨?_, trivial⟩, trivial⟩, h k, h v, trivial⟩
  · intro us hu; cases hu
  · simp [PrimTy.check, leafH, realHash.sha256_len]

theorem inner_chk {p : List Bool} {h : Bytes} {l r : PTree} (hh : h.length = 32) (hl : l.Checked T) (hr : r.Checked T) (nl : IsNode l) (nr : IsNode r) :
    (innerT p (fakeWitnessT (fakeSealT h)) l r).Checked T := by
  have kids : ∀ t : PTree, IsNode t → ∀ us, (T Cls.guMap).variants = some us → us.any (T.isInst t.cls) = true := by
    intro t ht us hu
    cases (Option.some.inj hu : [Cls.unusedPrefix, Cls.leafPrefix, Cls.innerPrefix] = us)
    rcases ht with h | h | h <;> rw [h] <;> rfl
  refine ⟨rfl, rfl, ⟨?_, ⟨?_, trivial⟩, trivial⟩, kids l nl, hl, kids r nr, hr, trivial⟩
  · intro us hu; cases hu
  · simp [PrimTy.check, hh]

theorem unused_chk {p : List Bool} {h : Bytes} (hh : h.length = 32) : (unusedT p (fakeSealT h)).Checked T := by
  refine ⟨rfl, rfl, ⟨?_, trivial⟩, trivial⟩
  simp [PrimTy.check, hh]

theorem two_chk (p : List Bool) (k v k' v' : Byte) : (two p k v k' v').Checked T :=
  inner_chk (realHash.sha256_len _) (leaf_chk k v) (leaf_chk k' v') (.inr (.inl rfl)) (.inr (.inl rfl))

theorem before_chk (p : List Bool) (k v k' v' : Byte) : (before p k v k' v').Checked T :=
  inner_chk (realHash.sha256_len _) (leaf_chk k v) (unused_chk (realHash.sha256_len _)) (.inr (.inl rfl)) (.inl rfl)

theorem two_verify {s : PState} {r : Nat} (hs : Reachable T realHash s) (hr : Represents s r (two [] 5 1 5 2)) : AllVerify T realHash intGuMap s r (two [] 5 1 5 2) := by
  apply allVerify_of hs hr
  intro π n hn
  rcases nodeAt_inner (by show ¬ Cls.leafPrefix = _; decide) (by show ¬ Cls.leafPrefix = _; decide) hn with ⟨_, rfl⟩ | ⟨_, rfl⟩ | ⟨_, rfl⟩
  · show (verifyFull realHash intGuMap).eval T realHash [] (two [] 5 1 5 2) = _
    decide +kernel
  · decide +kernel
  · decide +kernel
end Ex

/-- C55 does not hold: nothing relates the keys to the positions. -/
theorem C55_refuted : ¬ C55_statement := by
  intro hst
  obtain ⟨s, r, hs, _, hw⟩ := build (T := Ex.T) (H := realHash) (Ex.two [] 5 1 5 2) rfl (Ex.two_chk _ _ _ _ _) {}
  have := hst realHash intGuMap s r _ hs hw.represents (Ex.two_verify hs hw.represents) [false] [true] _ _ _ _ _ rfl rfl rfl rfl rfl rfl rfl rfl
  injection this with this
  injection this with this
  exact absurd this (by decide)

namespace Ex
/-- The common prefix of the keys 4 and 5. -/
def p45 : List Bool := match intKey2prefix (.int 4), intKey2prefix (.int 5) with | .ok a, .ok b => commonPrefix a b | _, _ => []

theorem prefixT_leaf {k2p : PVal → Py (List Bool)} {w : PTree} {k v : PVal} {p : List Bool} (h : k2p k = .ok p) : prefixT k2p (leafT w k v) = some p := by
  have : prefixT k2p (leafT w k v) = (match k2p k with | .ok p => some p | .error _ => none) := rfl
  rw [this, h]

/-- A map that is placed well: C55's restriction applies. -/
example : Placed intKey2prefix (two p45 4 1 5 2) := by
  have h4 : ∃ q, intKey2prefix (.int 4) = .ok q ∧ p45 ++ [false] <+: q := ⟨List.replicate 24 false ++ (match intKey2prefix (.int 4) with | .ok a => a.drop 24 | _ => []), by decide +kernel⟩
  have h5 : ∃ q, intKey2prefix (.int 5) = .ok q ∧ p45 ++ [true] <+: q := ⟨List.replicate 24 false ++ (match intKey2prefix (.int 5) with | .ok a => a.drop 24 | _ => []), by decide +kernel⟩
  obtain ⟨q4, h4, g4⟩ := h4
  obtain ⟨q5, h5, g5⟩ := h5
  intro π b n q hn hq
  rcases nodeAt_inner (by show ¬ Cls.leafPrefix = _; decide) (by show ¬ Cls.leafPrefix = _; decide) hn with ⟨rfl, rfl⟩ | ⟨rfl, rfl⟩ | ⟨rfl, rfl⟩
  · cases b
    · cases (Option.some.inj hq : leaf 4 1 = q)
      refine ⟨p45, q4, rfl, ?_, g4⟩
      exact prefixT_leaf h4
    · cases (Option.some.inj hq : leaf 5 2 = q)
      refine ⟨p45, q5, rfl, ?_, g5⟩
      exact prefixT_leaf h5
  · cases b <;> cases hq
  · cases b <;> cases hq

theorem sealed_fun {T : Table} {H : HashFns} {g : GuMapDecl} {t : PTree} {m m' : Bytes} (h : Sealed T H g t m) (h' : Sealed T H g t m') : m = m' := by
  have dig : ∀ {k : Kind} {v : TVal} {d d' : Bytes}, DigestIs T H k v d → DigestIs T H k v d' → d = d' := by
    intro k v d d' h h'
    cases k <;> cases v <;> simp only [DigestIs] at h h' <;> rw [h] at h' <;> exact Except.ok.inj h'
  cases h with
  | leaf hc h1 h2 h3 h4 =>
    cases h' with
    | leaf _ g1 g2 g3 g4 =>
      rw [h1] at g1; rw [h2] at g2
      cases g1; cases g2
      rw [dig h3 g3, dig h4 g4]
    | inner hc' => rw [hc] at hc'; exact absurd hc' (by decide)
  | inner hc h1 h2 h3 h4 =>
    cases h' with
    | leaf hc' => rw [hc] at hc'; exact absurd hc' (by decide)
    | inner _ g1 g2 g3 g4 =>
      rw [h1] at g1; rw [h2] at g2
      cases g1; cases g2
      rw [sealHash_fun h3 g3, sealHash_fun h4 g4]

/-- The strings hashed for the seals and contents of the two maps. -/
def strings : List Bytes :=
  let fake := fun h : Bytes => [h, hex "e5690d7316e34f8fbd4f148c32d37baf" ++ realHash.sha256 h]
  [leafTag realHash intGuMap ++ ([4] ++ [1]), leafTag realHash intGuMap ++ ([5] ++ [2]), innerTag realHash intGuMap ++ (leafSealH 4 1 ++ leafSealH 5 2)] ++
  (fake (leafH 4 1) ++ (fake (leafH 5 2) ++ fake (innerH (leafSealH 4 1) (leafSealH 5 2))))

theorem fake_hashed {h x : Bytes} (hx : x ∈ (fakeSealT h).hashed T realHash) : x ∈ [h, hex "e5690d7316e34f8fbd4f148c32d37baf" ++ realHash.sha256 h] := by
  have : (fakeSealT h).hashed T realHash = [h ++ [], hex "e5690d7316e34f8fbd4f148c32d37baf" ++ realHash.sha256 (h ++ [])] := rfl
  rw [this, List.append_nil] at hx
  exact hx

theorem leaf_strings {k v : Byte} (hk : (PrimTy.uint 0xffffffffffffffff).ser (.int k.toNat) = .ok [k]) (hv : (PrimTy.uint 0xffffffffffffffff).ser (.int v.toNat) = .ok [v])
    {x : Bytes} (h : HashedAt T realHash intGuMap (leaf k v) x) : x = leafTag realHash intGuMap ++ ([k] ++ [v]) ∨
      x ∈ [leafH k v, hex "e5690d7316e34f8fbd4f148c32d37baf" ++ realHash.sha256 (leafH k v)] := by
  rcases h with h | ⟨q, hq, h⟩
  · exact .inl (sealed_fun h (.leaf rfl rfl rfl hk hv))
  · cases (Option.some.inj hq : fakeSealT (leafH k v) = q)
    exact .inr (fake_hashed h)

theorem leaf_seal (k v : Byte) : SealHashIs T realHash (leaf k v) (leafSealH k v) := ⟨_, rfl, fakeSeal_hash _⟩
theorem unused_seal (p : List Bool) (k v : Byte) : SealHashIs T realHash (unusedT p (fakeSealT (leafH k v))) (leafSealH k v) := ⟨_, rfl, fakeSeal_hash _⟩

theorem inner_strings {p : List Bool} {a b : Bytes} {l r : PTree} (ha : SealHashIs T realHash l a) (hb : SealHashIs T realHash r b)
    {x : Bytes} (h : HashedAt T realHash intGuMap (innerT p (fakeWitnessT (fakeSealT (innerH a b))) l r) x) : x = innerTag realHash intGuMap ++ (a ++ b) ∨
      x ∈ [innerH a b, hex "e5690d7316e34f8fbd4f148c32d37baf" ++ realHash.sha256 (innerH a b)] := by
  rcases h with h | ⟨q, hq, h⟩
  · exact .inl (sealed_fun h (.inner rfl rfl rfl ha hb))
  · cases (Option.some.inj hq : fakeSealT (innerH a b) = q)
    exact .inr (fake_hashed h)

theorem two_strings {x : Bytes} (h : HashedIn T realHash intGuMap (two p45 4 1 5 2) x) : x ∈ strings := by
  obtain ⟨π, n, hn, hx⟩ := h
  simp only [strings, List.mem_append]
  rcases nodeAt_inner (by show ¬ Cls.leafPrefix = _; decide) (by show ¬ Cls.leafPrefix = _; decide) hn with ⟨_, rfl⟩ | ⟨_, rfl⟩ | ⟨_, rfl⟩
  · rcases inner_strings (leaf_seal 4 1) (leaf_seal 5 2) hx with h | h
    · exact .inl (by rw [h]; simp)
    · exact .inr (.inr (.inr h))
  · rcases leaf_strings (by decide +kernel) (by decide +kernel) hx with h | h
    · exact .inl (by rw [h]; simp)
    · exact .inr (.inl h)
  · rcases leaf_strings (by decide +kernel) (by decide +kernel) hx with h | h
    · exact .inl (by rw [h]; simp)
    · exact .inr (.inr (.inl h))

theorem before_strings {x : Bytes} (h : HashedIn T realHash intGuMap (before p45 4 1 5 2) x) : x ∈ strings := by
  obtain ⟨π, n, hn, hx⟩ := h
  simp only [strings, List.mem_append]
  rcases nodeAt_inner (by show ¬ Cls.leafPrefix = _; decide) (by show ¬ Cls.unusedPrefix = _; decide) hn with ⟨_, rfl⟩ | ⟨_, rfl⟩ | ⟨_, rfl⟩
  · rcases inner_strings (leaf_seal 4 1) (unused_seal _ 5 2) hx with h | h
    · exact .inl (by rw [h]; simp)
    · exact .inr (.inr (.inr h))
  · rcases leaf_strings (by decide +kernel) (by decide +kernel) hx with h | h
    · exact .inl (by rw [h]; simp)
    · exact .inr (.inl h)
  · rcases hx with hx | ⟨q, hq, hx⟩
    · cases hx with
      | leaf h => exact absurd h (by show ¬ Cls.unusedPrefix = _; decide)
      | inner h => exact absurd h (by show ¬ Cls.unusedPrefix = _; decide)
    · cases (Option.some.inj hq : fakeSealT (leafH 5 2) = q)
      exact .inr (.inr (.inl (fake_hashed hx)))

theorem strings_free : CollisionFree realHash.sha256 strings := by
  have : ∀ a ∈ strings, ∀ b ∈ strings, realHash.sha256 a = realHash.sha256 b → a = b := by decide +kernel
  exact this

/-- C54 applies to a map before and after its second leaf was closed, and gives: the first leaf is the same in both. -/
example : ∃ s r s' r', Reachable T realHash s ∧ Reachable T realHash s' ∧ Represents s r (two p45 4 1 5 2) ∧ Represents s' r' (before p45 4 1 5 2) ∧
    ∀ π n n', nodeAt (two p45 4 1 5 2) π = some n → nodeAt (before p45 4 1 5 2) π = some n' → ∃ d, SealHashIs T realHash n d ∧ SealHashIs T realHash n' d := by
  obtain ⟨s, r, hs, _, hw⟩ := build (T := T) (H := realHash) (two p45 4 1 5 2) rfl (two_chk _ _ _ _ _) {}
  obtain ⟨s', r', hs', _, hw'⟩ := build (T := T) (H := realHash) (before p45 4 1 5 2) rfl (before_chk _ _ _ _ _) {}
  refine ⟨s, r, s', r', hs, hs', hw.represents, hw'.represents, ?_⟩
  have sl : ∀ {s : PState} {r : Nat} {l rr : PTree}, Reachable T realHash s → Represents s r (innerT p45 (fakeWitnessT (fakeSealT (innerH (leafSealH 4 1) (leafSealH 5 2)))) l rr) →
      (sealHash.run T realHash r s).1 = .ok (.ok (realHash.sha256 (hex "e5690d7316e34f8fbd4f148c32d37baf" ++ realHash.sha256 (innerH (leafSealH 4 1) (leafSealH 5 2))))) := by
    intro s r l rr hs hr
    rw [run_eq classes_wf _ hs hr, sealHash_ok]
    exact ⟨_, rfl, fakeSeal_hash _⟩
  have := C54_agree (g := intGuMap) hs hs' hw.represents hw'.represents
    (allVerify_of hs hw.represents (by
      intro π n hn
      rcases nodeAt_inner (by show ¬ Cls.leafPrefix = _; decide) (by show ¬ Cls.leafPrefix = _; decide) hn with ⟨_, rfl⟩ | ⟨_, rfl⟩ | ⟨_, rfl⟩
      · show (verifyFull realHash intGuMap).eval T realHash [] (two p45 4 1 5 2) = _
        decide +kernel
      · decide +kernel
      · decide +kernel))
    (allVerify_of hs' hw'.represents (by
      intro π n hn
      rcases nodeAt_inner (by show ¬ Cls.leafPrefix = _; decide) (by show ¬ Cls.unusedPrefix = _; decide) hn with ⟨_, rfl⟩ | ⟨_, rfl⟩ | ⟨_, rfl⟩
      · show (verifyFull realHash intGuMap).eval T realHash [] (before p45 4 1 5 2) = _
        decide +kernel
      · decide +kernel
      · decide +kernel))
    (sl hs hw.represents) (sl hs' hw'.represents) tags_ne
    (fun x y hx hy he => strings_free x (hx.elim two_strings before_strings) y (hy.elim two_strings before_strings) he)
    (by
      intro π n n' w w' m m' d hn hn' hw hw' _ _ _ _ hc hc'
      obtain ⟨_, _, _, _, _, _, rfl, _⟩ := hc
      rcases nodeAt_inner (by show ¬ Cls.leafPrefix = _; decide) (by show ¬ Cls.leafPrefix = _; decide) hn with ⟨_, rfl⟩ | ⟨_, rfl⟩ | ⟨_, rfl⟩ <;>
      exact absurd (congrArg PTree.cls (Option.some.inj hw)) (by show ¬ Cls.fakeWitness = Cls.btcWitness; decide))
  exact fun π n n' hn hn' => (this π n n' hn hn').1

/-- A heap with an unused prefix (object 1) whose seal is for the leaf with key 4 and value 1. -/
def s0 : PState := ((do
  let sl ← Prf.new T Cls.fakeSeal [.prim (.bytes (leafH 4 1))]
  Prf.new T Cls.unusedPrefix [.prim (.bits [false]), .ref sl] : HM Nat) {}).2

/-- C52 applies: the node is made; and for other contents the maker raises. -/
example : ((leafFromUnused T realHash intGuMap 1 (.prim (.int 4)) (.prim (.int 1)) (fakeMaker T realHash) s0).1 = .ok 3) ∧
    ((leafFromUnused T realHash intGuMap 1 (.prim (.int 4)) (.prim (.int 2)) (fakeMaker T realHash) s0).1 = .error .assertion) := by decide +kernel

/-- C53 applies: an inner node is made over the leaf made before and the unused prefix. -/
example : ((do
    let l ← leafFromUnused T realHash intGuMap 1 (.prim (.int 4)) (.prim (.int 1)) (fakeMaker T realHash)
    let n ← fromChildren T realHash intGuMap intKey2prefix l 1
    getPrefix T intKey2prefix n : HM (List Bool)) s0).1 = .ok [false] := by decide +kernel
end Ex
end Verif.GuMap
