import Verif.Model.ProofRepr
import Verif.Lemmas.SusText
import Verif.Props.Proof
/-!
# C152: what `repr` of a proof shows

Nothing of the model but `Prf.repr`, `Prf.hash`, `Prf.eq` and `Prf.prune` is mentioned by the statements.
-/
namespace Verif
open Sus (Str b2x unhex unhex_b2x)
variable {T : Table} {H : HashFns}

/-- The names of classes: `module.qualname`, in which there is no parenthesis. -/
def IsNames (name : Nat → Str) : Prop := ∀ c, '(' ∉ name c

theorem b2x_inj {a b : Bytes} (h : b2x a = b2x b) : a = b := by
  have := unhex_b2x a
  rw [h, unhex_b2x b] at this
  exact (Except.ok.inj this).symm

theorem split_name {x y u v : Str} (hx : '(' ∉ x) (hy : '(' ∉ y) (h : x ++ '(' :: u = y ++ '(' :: v) : x = y ∧ u = v := by
  induction x generalizing y with
  | nil =>
    cases y with
    | nil => simpa using h
    | cons d y => rw [List.nil_append, List.cons_append, List.cons.injEq] at h; exact absurd (h.1 ▸ List.mem_cons_self) hy
  | cons c x ih =>
    cases y with
    | nil => simp at h; exact absurd (by simp [h.1]) hx
    | cons d y =>
      simp at h hx hy
      obtain ⟨e, e'⟩ := ih hx.2 hy.2 h.2
      exact ⟨by rw [h.1, e], e'⟩

theorem text_inj {x y : Str} {a b : Bytes} (hx : '(' ∉ x) (hy : '(' ∉ y)
    (h : x ++ "(<".toList ++ b2x a ++ ">)".toList = y ++ "(<".toList ++ b2x b ++ ">)".toList) : x = y ∧ a = b := by
  have h' : x ++ '(' :: ('<' :: (b2x a ++ ">)".toList)) = y ++ '(' :: ('<' :: (b2x b ++ ">)".toList)) := by simpa using h
  obtain ⟨e, e'⟩ := split_name hx hy h'
  simp only [List.cons.injEq, true_and] at e'
  exact ⟨e, b2x_inj (List.append_cancel_right e')⟩

/-- What `repr` gives, by the tree. -/
theorem repr_result (hT : T.WF) (name : Nat → Str) {s : PState} {τ : List PTree} (hi : Inv T H s τ) {r : Nat} {t : PTree} (ht : τ[r]? = some t) :
    (Prf.repr T H name r s).1 = (do let h ← t.hash T H; return name t.cls ++ "(<".toList ++ b2x h ++ ">)".toList) ∧
    (Prf.repr T H name r s).2 = (Prf.hash T H r s).2 := by
  obtain ⟨_, _, _, h1⟩ := hash_spec hT hi ht
  have := get_lt ht
  rw [hi.len] at this
  have ho := List.getElem?_eq_getElem this
  have hc : _ = t.cls := ((hi.obj r _ t ho ht).cls).symm
  unfold Prf.repr
  have e : HM.obj r s = (.ok (s.objs[r]), s) := by unfold HM.obj; rw [ho]
  rw [HM.bind_apply, e]
  simp only
  rw [HM.bind_apply]
  rcases hx : Prf.hash T H r s with ⟨e | x, s1⟩
  · rw [hx] at h1; rw [← h1]; exact ⟨rfl, rfl⟩
  · rw [hx] at h1; rw [← h1, ← hc]; exact ⟨rfl, rfl⟩

/-- C152: `repr` of a proof is the name of its class and, between `(<` and `>)`, digits that stand for its hash; it fails only
as `hash` does, and leaves behind what `hash` does. -/
theorem C152_text (hT : T.WF) (name : Nat → Str) {s : PState} (hs : Reachable T H s) {r : Nat} {t : PTree} (hr : Represents s r t) :
    (∀ e, (Prf.repr T H name r s).1 = .error e ↔ (Prf.hash T H r s).1 = .error e) ∧
    (∀ h, (Prf.hash T H r s).1 = .ok h → ∃ d, (Prf.repr T H name r s).1 = .ok (name t.cls ++ "(<".toList ++ d ++ ">)".toList) ∧ unhex d = .ok h) ∧
    Steps T H s (Prf.repr T H name r s).2 := by
  obtain ⟨τ, hi⟩ := hs.inv hT
  have ht := hi.of_represents hr
  obtain ⟨h1, h2⟩ := repr_result hT name hi ht
  obtain ⟨_, _, _, h3⟩ := hash_spec hT hi ht
  rw [h1, h3, h2]
  refine ⟨fun e => ?_, fun h hh => ⟨b2x h, ?_, unhex_b2x h⟩, .tail .refl (.hash r)⟩
  · cases t.hash T H with
    | error e' => constructor <;> (intro hh; cases hh; rfl)
    | ok h => constructor <;> intro hh <;> cases hh
  · rw [hh]; rfl

/-- C152: two proofs have the same `repr` exactly if their classes have the same name and they are `==`; nothing that is done
between the two calls, or before, makes a difference. -/
theorem C152_same (hT : T.WF) {name : Nat → Str} (hn : IsNames name) {s : PState} (hs : Reachable T H s) {a b : Nat} {t u : PTree}
    (ha : Represents s a t) (hb : Represents s b u) {s1 s2 : PState} (h1 : Steps T H s s1) (h2 : Steps T H s s2) {x y : Str}
    (hx : (Prf.repr T H name a s1).1 = .ok x) (hy : (Prf.repr T H name b s2).1 = .ok y) :
    x = y ↔ name t.cls = name u.cls ∧ (Prf.eq T H a b s).1 = .ok true := by
  obtain ⟨τ, hi⟩ := hs.inv hT
  have hta := hi.of_represents ha
  have htb := hi.of_represents hb
  obtain ⟨τ1, hi1, _⟩ := h1.inv hT hi
  obtain ⟨τ2, hi2, _⟩ := h2.inv hT hi
  rw [(repr_result hT name hi1 (append_get hta)).1] at hx
  rw [(repr_result hT name hi2 (append_get htb)).1] at hy
  rw [eq_result hT hi hta htb]
  obtain ⟨p, e1, hx⟩ := Except.bind_eq_ok hx
  obtain ⟨q, e2, hy⟩ := Except.bind_eq_ok hy
  cases hx; cases hy
  rw [e1, e2, Except.bind_ok, Except.bind_ok]
  constructor
  · intro h
    obtain ⟨g, g'⟩ := text_inj (hn _) (hn _) h
    exact ⟨g, by rw [g']; simp; rfl⟩
  · rintro ⟨g, g'⟩
    have : decide (p = q) = true := Except.ok.inj g'
    rw [g, of_decide_eq_true this]

/-- C152: the `repr` of a pruned view is that of the original, whatever is done after pruning. -/
theorem C152_pruned (hT : T.WF) (name : Nat → Str) {s : PState} (hs : Reachable T H s) {r : Nat} (hr : r < s.objs.length) :
    ∃ p s1, Prf.prune T r s = (.ok p, s1) ∧ ∀ s2, Steps T H s1 s2 → (Prf.repr T H name p s2).1 = (Prf.repr T H name r s2).1 := by
  obtain ⟨τ, hi⟩ := hs.inv hT
  have ht : τ[r]? = some (τ[r]'(by rw [hi.len]; exact hr)) := List.getElem?_eq_getElem _
  obtain ⟨τ1, hi1, _, h1, h2, _⟩ := prune_spec hi ht
  refine ⟨s.objs.length, (Prf.prune T r s).2, Prod.ext h1 rfl, fun s2 hs2 => ?_⟩
  obtain ⟨τ2, hi2, _⟩ := hs2.inv hT hi1
  rw [(repr_result hT name hi2 (append_get (τ' := τ2) h2)).1, (repr_result hT name hi2 (append_get (τ' := τ2) (append_get (τ' := τ1) ht))).1]

/-- The classes of the tests of proof.py. -/
def ProofEx.names : Nat → Str
  | 0 => "proofmarshal.test.test_proof.FooProof".toList
  | 1 => "proofmarshal.test.test_proof.BarProof".toList
  | _ => "proofmarshal.proof.Proof".toList

open ProofEx in
example : IsNames names := by
  intro c
  unfold names
  split <;> decide

open ProofEx in
example : (Prf.repr TT realHash names 2 s0).1 =
    .ok "proofmarshal.test.test_proof.BarProof(<ca073be0933fae1710fff5b298199414f7ccddb5a34ba15b2330050bcf4ec02f>)".toList ∧
    (Prf.repr TT realHash names 3 s1).1 = (Prf.repr TT realHash names 2 s0).1 ∧
    (Prf.repr TT realHash names 0 s0).1 ≠ (Prf.repr TT realHash names 1 s0).1 ∧ (Prf.eq TT realHash 0 1 s0).1 = .ok false := by decide +kernel

end Verif
