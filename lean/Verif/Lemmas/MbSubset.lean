import Verif.Model.MbSubset
import Verif.Lemmas.MbProof
import Verif.Lemmas.GuMapMk
import Verif.Lemmas.Forged
/-! # `issubset` on the heap is `issubset` on trees -/
namespace Verif
open Seal
namespace Merb
open Mmr (bind_ok lift_bind)
variable {T : Table} {H : HashFns} {m : Nat} {tag : Bytes} {τ : PrimTy} {kv : Kind} {k2p : PVal → Py (List Bool)} {kp : Key τ → List Bool}

/-- The action gives the value, or raises. -/
def Gives (T : Table) (H : HashFns) {α : Type} (s : PState) (x : HM α) : Py α → Prop
  | .ok b => ∃ s', x s = (.ok b, s') ∧ Steps T H s s'
  | .error e => (x s).1 = .error e

theorem Gives.after {α : Type} {s s' : PState} {x x' : HM α} {y : Py α} (st : Steps T H s s') (he : x s = x' s') (h : Gives T H s' x' y) : Gives T H s x y := by
  cases y with
  | error e => show (x s).1 = _; rw [he]; exact h
  | ok b =>
    obtain ⟨s'', e, st'⟩ := h
    exact ⟨s'', he.trans e, Steps.trans st st'⟩

theorem eq_ok (hT : T.WF) {s : PState} (hs : Reachable T H s) {a b : Nat} {t u : PTree} (ha : Represents s a t) (hb : Represents s b u) {h h' : Bytes}
    (e : t.hash T H = .ok h) (e' : u.hash T H = .ok h') : ∃ s', Prf.eq T H a b s = (.ok (decide (h = h')), s') ∧ Steps T H s s' := by
  have e1 : Prf.hash T H a s = (.ok h, (Prf.hash T H a s).2) := Prod.ext ((hash_rep hT hs ha).trans e) rfl
  have st1 : Steps T H s (Prf.hash T H a s).2 := .tail .refl (.hash a)
  generalize (Prf.hash T H a s).2 = s1 at e1 st1
  have hs1 : Reachable T H s1 := Steps.trans hs st1
  have e2 : Prf.hash T H b s1 = (.ok h', (Prf.hash T H b s1).2) := Prod.ext ((hash_rep hT hs1 (st1.represents hT hs hb)).trans e') rfl
  refine ⟨(Prf.hash T H b s1).2, ?_, Steps.trans st1 (.tail .refl (.hash b))⟩
  unfold Prf.eq
  rw [bind_ok e1, bind_ok e2]
  rfl

theorem attr_ok (hT : T.WF) {s : PState} (hs : Reachable T H s) {r : Nat} {t : PTree} (hr : Represents s r t) {i : Nat} {tv : TVal} (h : t.get? i = some tv) :
    ∃ v s', Prf.getAttr T r i s = (.ok v, s') ∧ Steps T H s s' ∧ v.Rep s' tv := by
  obtain ⟨st, h1, _⟩ := getAttr_rep (H := H) hT hs hr i
  obtain ⟨v, hv, hrep⟩ := h1 tv h
  exact ⟨v, _, Prod.ext hv rfl, st, hrep⟩

theorem child_ok (hT : T.WF) {s : PState} (hs : Reachable T H s) {r : Nat} {p : List Bool} {x y : MB (Key τ) TVal} (hr : Represents s r (emb m (.inner p x y))) {i : Nat}
    (hi : i = 1 ∨ i = 2) : ∃ c s', child m T r i s = (.ok c, s') ∧ Steps T H s s' ∧ Represents s' c (emb m (if i = 1 then x else y)) := by
  obtain ⟨o, ho, hoc⟩ := obj_ok hT hs hr
  have hg : (emb m (.inner p x y)).get? i = some (.sub (emb m (if i = 1 then x else y))) := by
    rcases hi with rfl | rfl <;> rfl
  obtain ⟨v, s', e, st, hv⟩ := attr_ok hT hs hr hg
  cases v with
  | prim v => exact hv.elim
  | ref c =>
    refine ⟨c, s', ?_, st, hv⟩
    unfold child
    rw [bind_ok ho, if_pos (by rw [hoc]; rfl), bind_ok e]
    rfl

theorem child_fails (hT : T.WF) {s : PState} (hs : Reachable T H s) {r : Nat} {t : PTree} (hr : Represents s r t) (hc : t.cls ≠ m + 3) (i : Nat) :
    child m T r i s = (.error .attributeError, s) := by
  obtain ⟨o, ho, hoc⟩ := obj_ok hT hs hr
  unfold child
  rw [bind_ok ho, if_neg (by rw [hoc]; exact hc)]
  rfl

/-- What is needed to compare a tree: the hashes can be computed. -/
def Hashes (T : Table) (H : HashFns) (kv : Kind) (t : MB (Key τ) TVal) : Prop :=
  ∀ x ∈ t.pairs, ((∃ b, τ.ser x.1.1 = .ok b) ∧ ∃ b, (PFields.cons x.2 .nil).hashBytes T H [kv] = .ok b) ∧ ∀ w, x.2 = .sub w → ∃ h, w.hash T H = .ok h

theorem Hashes.hash (hD : Declares T H m tag τ kv) {t : MB (Key τ) TVal} (h : Hashes T H kv t) : (emb m t).hash T H = .ok (t.hash (cls T H τ kv kp) H tag) :=
  emb_hash hD fun x hx => (h x hx).1

theorem Hashes.left {p} {l r : MB (Key τ) TVal} (h : Hashes T H kv (.inner p l r)) : Hashes T H kv l := fun x hx => h x (List.mem_append_left _ hx)
theorem Hashes.right {p} {l r : MB (Key τ) TVal} (h : Hashes T H kv (.inner p l r)) : Hashes T H kv r := fun x hx => h x (List.mem_append_right _ hx)

theorem valueEq_ok (hT : T.WF) {s : PState} (hs : Reachable T H s) {v w : HVal} {tv tw : TVal} (hv : v.Rep s tv) (hw : w.Rep s tw)
    (h1 : ∀ t, tv = .sub t → ∃ h, t.hash T H = .ok h) (h2 : ∀ t, tw = .sub t → ∃ h, t.hash T H = .ok h) :
    ∃ s', valueEq T H v w s = (.ok (same T H tv tw), s') ∧ Steps T H s s' := by
  cases v with
  | prim a =>
    cases tv with
    | sub => exact hv.elim
    | prim a' =>
      cases w with
      | prim b =>
        cases tw with
        | sub => exact hw.elim
        | prim b' =>
          simp only [HVal.Rep] at hv hw
          subst hv hw
          exact ⟨s, rfl, .refl⟩
      | ref b =>
        cases tw with
        | prim => exact hw.elim
        | sub u => exact ⟨s, rfl, .refl⟩
  | ref a =>
    cases tv with
    | prim => exact hv.elim
    | sub t =>
      cases w with
      | prim b =>
        cases tw with
        | sub => exact hw.elim
        | prim b' => exact ⟨s, rfl, .refl⟩
      | ref b =>
        cases tw with
        | prim => exact hw.elim
        | sub u =>
          obtain ⟨h, e⟩ := h1 t rfl
          obtain ⟨h', e'⟩ := h2 u rfl
          obtain ⟨s', e1, st⟩ := eq_ok hT hs hv hw e e'
          refine ⟨s', ?_, st⟩
          rw [valueEq, e1, same, e, e']
          simp

theorem Rep_steps (hT : T.WF) {s s' : PState} (hs : Reachable T H s) (st : Steps T H s s') {v : HVal} {tv : TVal} (h : v.Rep s tv) : v.Rep s' tv :=
  h.steps hT hs st

theorem getItem_steps (hT : T.WF) {s : PState} (hs : Reachable T H s) {r : Nat} {t : PTree} (hr : Represents s r t) (key : PVal) :
    Steps T H s (getItem m k2p T H r key s).2 := by
  unfold getItem
  have st1 := (runM_eq hT (locate m k2p (s.objs.length + 1) key) hs hr).1
  rw [HM.bind_apply]
  rcases he : (locate m k2p (s.objs.length + 1) key).runM T H r s with ⟨y, s'⟩
  rw [he] at st1
  cases y with
  | error e => exact st1
  | ok π => exact Steps.trans st1 (walk_rep hT (Steps.trans hs st1) (st1.represents hT hs hr) π).1

variable (hT : T.WF) (hD : Declares T H m tag τ kv) (hk : Prefixes τ k2p kp)
include hT hD hk

theorem subset_rep : ∀ n : Nat,
    (∀ (t u : MB (Key τ) TVal) (s : PState) (a b : Nat), 2 * (t.height + u.height) + 2 ≤ n → Reachable T H s → Represents s a (emb m t) → Represents s b (emb m u) →
      Hashes T H kv t → Hashes T H kv u → Gives T H s (issubsetF m k2p T H n a b) (MB.issubset (cls T H τ kv kp) H tag t u)) ∧
    (∀ (t u : MB (Key τ) TVal) (s : PState) (a b : Nat), 2 * (t.height + u.height) + 1 ≤ n → Reachable T H s → Represents s a (emb m t) → Represents s b (emb m u) →
      Hashes T H kv t → Hashes T H kv u → Gives T H s (subImplF m k2p T H n a b) (MB.subImpl (cls T H τ kv kp) H tag t u)) := by
  intro n
  induction n with
  | zero => exact ⟨fun _ _ _ _ _ h => by omega, fun _ _ _ _ _ h => by omega⟩
  | succ n ih =>
    refine ⟨?_, ?_⟩
    · intro t u s a b hn hs ha hb ht hu
      obtain ⟨oa, hoa, hca⟩ := obj_ok hT hs ha
      obtain ⟨ob, hob, hcb⟩ := obj_ok hT hs hb
      have hba : ∀ x : MB (Key τ) TVal, (T (emb m x).cls).bases.head? = some m := by
        intro x; cases x
        · show (T (m + 1)).bases.head? = _; rw [hD.empty]; rfl
        · show (T (m + 2)).bases.head? = _; rw [hD.leaf]; rfl
        · show (T (m + 3)).bases.head? = _; rw [hD.inner]; rfl
      rw [issubsetF]
      refine Gives.after .refl (bind_ok hoa) (Gives.after .refl (bind_ok hob) ?_)
      rw [if_neg (by rw [hca, hcb, hba, hba]; simp)]
      obtain ⟨s1, e1, st1⟩ := eq_ok hT hs ha hb (ht.hash hD (kp := kp)) (hu.hash hD (kp := kp))
      refine Gives.after st1 (bind_ok e1) ?_
      have hs1 : Reachable T H s1 := Steps.trans hs st1
      unfold MB.issubset MB.issubsetWith
      by_cases h1 : t.hash (cls T H τ kv kp) H tag = u.hash (cls T H τ kv kp) H tag
      · rw [if_pos h1, if_pos (by simpa using h1)]
        exact ⟨s1, rfl, .refl⟩
      · rw [if_neg h1, if_neg (by simpa using h1)]
        obtain ⟨x, s2, e2, st2, hx⟩ := mkEmpty_makes (τ := τ) hT hD hs1
        refine Gives.after st2 (bind_ok e2) ?_
        have hs2 : Reachable T H s2 := Steps.trans hs1 st2
        have st12 := Steps.trans st1 st2
        have hemp : Hashes T H kv (.empty : MB (Key τ) TVal) := fun x hx => by cases hx
        obtain ⟨s3, e3, st3⟩ := eq_ok hT hs2 (st12.represents hT hs hb) hx (hu.hash hD (kp := kp)) (hemp.hash hD (kp := kp))
        refine Gives.after st3 (bind_ok e3) ?_
        have hs3 : Reachable T H s3 := Steps.trans hs2 st3
        have st13 := Steps.trans st12 st3
        by_cases h2 : u.hash (cls T H τ kv kp) H tag = (MB.empty : MB (Key τ) TVal).hash (cls T H τ kv kp) H tag
        · rw [if_pos h2, if_pos (by simpa using h2)]
          exact ⟨s3, rfl, .refl⟩
        · rw [if_neg h2, if_neg (by simpa using h2)]
          exact ih.2 t u s3 a b (by omega) hs3 (st13.represents hT hs ha) (st13.represents hT hs hb) ht hu
    · intro t u s a b hn hs ha hb ht hu
      obtain ⟨o, ho, hoc⟩ := obj_ok hT hs ha
      rw [subImplF]
      refine Gives.after .refl (bind_ok ho) ?_
      cases t with
      | empty =>
        rw [if_pos (by rw [hoc]; rfl)]
        exact ⟨s, rfl, .refl⟩
      | leaf k v =>
        have hc : o.cls = m + 2 := by rw [hoc]; rfl
        rw [if_neg (by omega), if_pos hc]
        obtain ⟨kk, s1, e1, st1, hk1⟩ := attr_ok (i := 0) (tv := .prim k.1) hT hs ha rfl
        refine Gives.after st1 (bind_ok e1) ?_
        have hs1 : Reachable T H s1 := Steps.trans hs st1
        cases kk with
        | ref c => exact hk1.elim
        | prim key =>
          simp only [HVal.Rep] at hk1
          subst hk1
          simp only
          have hg := getItem_rep (kv := kv) hT hk hs1 (st1.represents hT hs hb) k
          unfold MB.subImpl
          cases hgi : u.getItem (cls T H τ kv kp) k with
          | error e =>
            rw [hgi] at hg
            simp only at hg ⊢
            rcases he : getItem m k2p T H b k.1 s1 with ⟨y, s2⟩
            rw [he] at hg
            simp only at hg
            subst hg
            have st2 := getItem_steps (m := m) (k2p := k2p) hT hs1 (st1.represents hT hs hb) k.1
            rw [he] at st2
            by_cases hke : e = .keyError
            · subst hke
              have e2 : tryGet m k2p T H b k.1 s1 = (.ok none, s2) := by unfold tryGet; rw [he]
              exact Gives.after st2 (bind_ok e2) ⟨s2, rfl, .refl⟩
            · have e2 : (tryGet m k2p T H b k.1 s1).1 = .error e := by unfold tryGet; rw [he]; cases e <;> first | rfl | exact absurd rfl hke
              cases e <;> first | exact fail_of e2 | exact absurd rfl hke
          | ok w =>
            rw [hgi] at hg
            obtain ⟨w', s2, e2, st2, hw⟩ := hg
            have e2' : tryGet m k2p T H b k.1 s1 = (.ok (some w'), s2) := by unfold tryGet; rw [e2]
            refine Gives.after st2 (bind_ok e2') ?_
            have hs2 : Reachable T H s2 := Steps.trans hs1 st2
            have st12 := Steps.trans st1 st2
            obtain ⟨v', s3, e3, st3, hv⟩ := attr_ok (i := 1) (tv := v) hT hs2 (st12.represents hT hs ha) (walk_get v)
            refine Gives.after st3 (bind_ok e3) ?_
            have hs3 : Reachable T H s3 := Steps.trans hs2 st3
            have hmem := MB.getItem_mem hgi
            exact valueEq_ok hT hs3 hv (Rep_steps hT hs2 st3 hw) (ht (k, v) (by simp [MB.pairs])).2 (hu _ hmem).2
      | inner p l r =>
        have hc : o.cls = m + 3 := by rw [hoc]; rfl
        rw [if_neg (by omega), if_neg (by omega), if_pos hc]
        obtain ⟨s1, e1, st1⟩ := eq_ok hT hs ha hb (ht.hash hD (kp := kp)) (hu.hash hD (kp := kp))
        refine Gives.after st1 (bind_ok e1) ?_
        have hs1 : Reachable T H s1 := Steps.trans hs st1
        have ha1 := st1.represents hT hs ha
        have hb1 := st1.represents hT hs hb
        by_cases h1 : (MB.inner p l r).hash (cls T H τ kv kp) H tag = u.hash (cls T H τ kv kp) H tag
        · have : MB.subImpl (cls T H τ kv kp) H tag (.inner p l r) u = .ok true := by
            unfold MB.subImpl
            cases u <;> (unfold MB.subInner; rw [if_pos h1])
          rw [this, if_pos (by simpa using h1)]
          exact ⟨s1, rfl, .refl⟩
        · rw [if_neg (by simpa using h1)]
          obtain ⟨s2, e2, st2⟩ := pfx_ok (kv := kv) hT hk hs1 ha1
          refine Gives.after st2 (bind_ok e2) ?_
          have hs2 : Reachable T H s2 := Steps.trans hs1 st2
          have hb2 := st2.represents hT hs1 hb1
          obtain ⟨s3, e3, st3⟩ := pfx_ok (kv := kv) hT hk hs2 hb2
          refine Gives.after st3 (bind_ok e3) ?_
          have hs3 : Reachable T H s3 := Steps.trans hs2 st3
          have ha3 := st3.represents hT hs2 (st2.represents hT hs1 ha1)
          have hb3 := st3.represents hT hs2 hb2
          clear e1 e2 e3 st1 st2 st3 ha1 hb1 hb2 hs1 hs2
          have hpl : (MB.inner p l r).pfx (cls T H τ kv kp) = p := rfl
          rw [hpl]
          obtain ⟨ob, hob, hcb⟩ := obj_ok hT hs3 hb3
          have hlt : ∀ {q : List Bool}, p ≠ q → q.isPrefixOf p = true → q.length < p.length := by
            intro q hne hp
            have hp : q <+: p := by simpa using hp
            rcases Nat.lt_or_ge q.length p.length with h | h
            · exact h
            · exact absurd (hp.eq_of_length (Nat.le_antisymm hp.length_le h)).symm hne
          cases u with
          | empty =>
            have hq : (MB.empty : MB (Key τ) TVal).pfx (cls T H τ kv kp) = [] := rfl
            rw [hq]
            unfold MB.subImpl MB.subInner
            rw [if_neg h1]
            by_cases h2 : p = []
            · rw [if_pos h2, if_pos h2]
              refine Gives.after .refl (bind_ok hob) ?_
              have : pyAssert (decide (ob.cls = o.cls)) = .error .assertion := by rw [hcb, hc]; simp [pyAssert]
              rw [this]
              exact fail_of rfl
            · rw [if_neg h2, if_neg h2, if_pos (show ([] : List Bool).isPrefixOf p = true by simp)]
              have : pyAssert (decide (([] : List Bool).length < p.length)) = .ok () := by simp [pyAssert, List.length_pos_iff, h2]
              refine Gives.after .refl (lift_bind this) ?_
              cases p with
              | nil => exact absurd rfl h2
              | cons x p => cases x <;> exact fail_of (congrArg Prod.fst (child_fails hT hs3 hb3 (by simp) _))
          | leaf k v =>
            have hq : (MB.leaf k v : MB (Key τ) TVal).pfx (cls T H τ kv kp) = (cls T H τ kv kp).key2prefix k := rfl
            rw [hq]
            unfold MB.subImpl MB.subInner
            rw [if_neg h1]
            generalize (cls T H τ kv kp).key2prefix k = q
            by_cases h2 : p = q
            · rw [if_pos h2, if_pos h2]
              refine Gives.after .refl (bind_ok hob) ?_
              have : pyAssert (decide (ob.cls = o.cls)) = .error .assertion := by rw [hcb, hc]; simp [pyAssert]
              rw [this]
              exact fail_of rfl
            · rw [if_neg h2, if_neg h2]
              by_cases h3 : q.isPrefixOf p = true
              · rw [if_pos h3, if_pos h3]
                have hl := hlt h2 h3
                have : pyAssert (decide (q.length < p.length)) = .ok () := by simp [pyAssert, hl]
                refine Gives.after .refl (lift_bind this) ?_
                rw [List.getElem?_eq_getElem hl]
                cases p[q.length] <;> exact fail_of (congrArg Prod.fst (child_fails hT hs3 hb3 (by simp) _))
              · rw [if_neg h3, if_neg h3]
                exact ⟨s3, rfl, .refl⟩
          | inner q l' r' =>
            have hq : (MB.inner q l' r' : MB (Key τ) TVal).pfx (cls T H τ kv kp) = q := rfl
            rw [hq]
            simp only [MB.height] at hn
            unfold MB.subImpl MB.subInner
            rw [if_neg h1]
            by_cases h2 : p = q
            · rw [if_pos h2, if_pos h2]
              refine Gives.after .refl (bind_ok hob) ?_
              have : pyAssert (decide (ob.cls = o.cls)) = .ok () := by rw [hcb, hc]; simp [pyAssert]
              refine Gives.after .refl (lift_bind this) ?_
              obtain ⟨x, s4, e4, st4, hx⟩ := child_ok hT hs3 ha3 (.inl rfl)
              refine Gives.after st4 (bind_ok e4) ?_
              have hs4 : Reachable T H s4 := Steps.trans hs3 st4
              have ha4 := st4.represents hT hs3 ha3
              have hb4 := st4.represents hT hs3 hb3
              obtain ⟨x', s5, e5, st5, hx'⟩ := child_ok hT hs4 hb4 (.inl rfl)
              refine Gives.after st5 (bind_ok e5) ?_
              have hs5 : Reachable T H s5 := Steps.trans hs4 st5
              have ha5 := st5.represents hT hs4 ha4
              have hb5 := st5.represents hT hs4 hb4
              have hx := st5.represents hT hs4 hx
              simp only [if_true] at hx hx'
              clear e4 st4 hs4 ha4 hb4 e5 st5
              obtain ⟨s6, e6, st6⟩ := eq_ok hT hs5 hx hx' (ht.left.hash hD (kp := kp)) (hu.left.hash hD (kp := kp))
              refine Gives.after st6 (bind_ok e6) ?_
              have hs6 : Reachable T H s6 := Steps.trans hs5 st6
              have ha6 := st6.represents hT hs5 ha5
              have hb6 := st6.represents hT hs5 hb5
              have hx := st6.represents hT hs5 hx
              have hx' := st6.represents hT hs5 hx'
              clear e6 st6 hs5 ha5 hb5
              have hright : ∀ {s : PState}, Reachable T H s → Represents s a (emb m (.inner p l r)) → Represents s b (emb m (.inner q l' r')) →
                  ∃ y y' s', (∀ {α} (f : Nat → Nat → HM α), (do let r ← child m T a 2; let r' ← child m T b 2; f r r' : HM α) s = f y y' s') ∧ Steps T H s s' ∧
                    Represents s' y (emb m r) ∧ Represents s' y' (emb m r') := by
                intro s hs ha hb
                obtain ⟨y, s4, e4, st4, hy⟩ := child_ok hT hs ha (.inr rfl)
                have hs4 : Reachable T H s4 := Steps.trans hs st4
                obtain ⟨y', s5, e5, st5, hy'⟩ := child_ok hT hs4 (st4.represents hT hs hb) (.inr rfl)
                refine ⟨y, y', s5, fun f => ?_, Steps.trans st4 st5, ?_, ?_⟩
                · rw [bind_ok e4, bind_ok e5]
                · have := st5.represents hT hs4 hy; simpa using this
                · simpa using hy'
              have hboth : ∃ s7, (if decide (l.hash (cls T H τ kv kp) H tag = l'.hash (cls T H τ kv kp) H tag) = true then (do
                    let r ← child m T a 2
                    let r' ← child m T b 2
                    Prf.eq T H r r') else return false : HM Bool) s6 =
                  (.ok (decide (l.hash (cls T H τ kv kp) H tag = l'.hash (cls T H τ kv kp) H tag) && decide (r.hash (cls T H τ kv kp) H tag = r'.hash (cls T H τ kv kp) H tag)), s7) ∧
                  Steps T H s6 s7 := by
                by_cases h3 : l.hash (cls T H τ kv kp) H tag = l'.hash (cls T H τ kv kp) H tag
                · rw [if_pos (by simpa using h3)]
                  obtain ⟨y, y', s7, e7, st7, hy, hy'⟩ := hright hs6 ha6 hb6
                  rw [e7 (fun r r' => Prf.eq T H r r')]
                  obtain ⟨s8, e8, st8⟩ := eq_ok hT (Steps.trans hs6 st7) hy hy' (ht.right.hash hD (kp := kp)) (hu.right.hash hD (kp := kp))
                  exact ⟨s8, by rw [e8]; simp [h3], Steps.trans st7 st8⟩
                · rw [if_neg (by simpa using h3)]
                  exact ⟨s6, by simp [h3]; rfl, .refl⟩
              obtain ⟨s7, e7, st7⟩ := hboth
              refine Gives.after st7 (bind_ok e7) ?_
              have hs7 : Reachable T H s7 := Steps.trans hs6 st7
              have ha7 := st7.represents hT hs6 ha6
              have hb7 := st7.represents hT hs6 hb6
              have hx := st7.represents hT hs6 hx
              have hx' := st7.represents hT hs6 hx'
              clear e7 st7 hs6 ha6 hb6
              by_cases h4 : (decide (l.hash (cls T H τ kv kp) H tag = l'.hash (cls T H τ kv kp) H tag) && decide (r.hash (cls T H τ kv kp) H tag = r'.hash (cls T H τ kv kp) H tag)) = true
              · rw [h4]
                exact fail_of rfl
              · rw [Bool.not_eq_true] at h4
                rw [h4]
                refine Gives.after .refl (lift_bind rfl) ?_
                have hl := ih.1 l l' s7 x x' (by omega) hs7 hx hx' ht.left hu.left
                change Gives T H s7 _ (MB.issubset (cls T H τ kv kp) H tag l l' >>= fun a => if a then MB.issubset (cls T H τ kv kp) H tag r r' else return false)
                cases he : MB.issubset (cls T H τ kv kp) H tag l l' with
                | error e => rw [he] at hl; exact fail_of hl
                | ok z =>
                  rw [he] at hl
                  obtain ⟨s8, e8, st8⟩ := hl
                  refine Gives.after st8 (bind_ok e8) ?_
                  have hs8 : Reachable T H s8 := Steps.trans hs7 st8
                  cases z with
                  | false => exact ⟨s8, rfl, .refl⟩
                  | true =>
                    obtain ⟨y, y', s9, e9, st9, hy, hy'⟩ := hright hs8 (st8.represents hT hs7 ha7) (st8.represents hT hs7 hb7)
                    exact Gives.after st9 (e9 (fun r r' => issubsetF m k2p T H n r r')) (ih.1 r r' s9 y y' (by omega) (Steps.trans hs8 st9) hy hy' ht.right hu.right)
            · rw [if_neg h2, if_neg h2]
              by_cases h3 : q.isPrefixOf p = true
              · rw [if_pos h3, if_pos h3]
                have hl := hlt h2 h3
                have hpa : pyAssert (decide (q.length < p.length)) = .ok () := by simp [pyAssert, hl]
                refine Gives.after .refl (lift_bind hpa) ?_
                rw [hpa, List.getElem?_eq_getElem hl]
                cases p[q.length] with
                | true =>
                  obtain ⟨y, s4, e4, st4, hy⟩ := child_ok hT hs3 hb3 (.inr rfl)
                  refine Gives.after st4 (bind_ok e4) ?_
                  have := ih.2 (.inner p l r) r' s4 a y (by simp only [MB.height]; omega) (Steps.trans hs3 st4) (st4.represents hT hs3 ha3) (by simpa using hy) ht hu.right
                  unfold MB.subImpl at this
                  exact this
                | false =>
                  obtain ⟨y, s4, e4, st4, hy⟩ := child_ok hT hs3 hb3 (.inl rfl)
                  refine Gives.after st4 (bind_ok e4) ?_
                  have := ih.2 (.inner p l r) l' s4 a y (by simp only [MB.height]; omega) (Steps.trans hs3 st4) (st4.represents hT hs3 ha3) (by simpa using hy) ht hu.left
                  unfold MB.subImpl at this
                  exact this
              · rw [if_neg h3, if_neg h3]
                exact ⟨s3, rfl, .refl⟩
where
  walk_get {k : PVal} (v : TVal) : (PTree.node (m + 2) (.prim k (.cons v .nil))).get? 1 = some v := by cases v <;> rfl

end Merb
end Verif
