import Verif.Spec.MmrProof
import Verif.Lemmas.GuMapMk
import Verif.Lemmas.ProofSer
import Mathlib.Data.List.Forall2
/-! # Lemmas about mountain ranges on the heap -/
namespace Verif
open Seal

section
variable {T : Table} {H : HashFns} {ini : List Nat} {t : PTree}

theorem runM_val (hT : T.WF) {α} (p : Prog α) {s : PState} {r : Nat} (hs : Reachable T H s) (hr : Represents s r t) :
    (p.runM T H r s).1 = (do let x ← p.eval T H s.inited t; x) := by
  have h2 := run_eq hT p hs hr
  unfold Prog.runM
  rw [HM.bind_apply]
  rcases hh : p.run T H r s with ⟨e | x, s'⟩ <;> rw [hh] at h2
  · rw [← h2]; rfl
  · rw [← h2]; rfl

theorem runM_ok (hT : T.WF) {α} {p : Prog α} {s : PState} {r : Nat} (hs : Reachable T H s) (hr : Represents s r t) {a : α}
    (h : p.eval T H s.inited t = .ok (.ok a)) : ∃ s', p.runM T H r s = (.ok a, s') ∧ Steps T H s s' := by
  have h1 := runM_eq hT p hs hr
  exact ⟨_, Prod.ext ((h1.2 a).mpr h) rfl, h1.1⟩

theorem depth_le_objs (hT : T.WF) {s : PState} {r : Nat} (hs : Reachable T H s) (hr : Represents s r t) : t.depth ≤ s.objs.length := by
  obtain ⟨τ, hi⟩ := hs.inv hT
  have ht := hi.of_represents hr
  have h1 := hi.depth r t ht
  have h2 := get_lt ht
  rw [hi.len] at h2
  omega
end

namespace Mmr
variable {T : Table} {H : HashFns} {ini : List Nat} {m : Nat} {tag : Bytes} {k : Kind}

theorem ne21 : (m + 2 = m + 1) = False := by simp
theorem ne31 : (m + 3 = m + 1) = False := by simp
theorem ne32 : (m + 3 = m + 2) = False := by simp

@[simp] theorem emb_cls_empty : (emb m .empty).cls = m + 1 := rfl
@[simp] theorem emb_cls_leaf {v} : (emb m (.leaf v)).cls = m + 2 := rfl
@[simp] theorem emb_cls_inner {l r n} : (emb m (.inner l r n)).cls = m + 3 := rfl

theorem cons_get_zero (v : TVal) (fs : PFields) : (PFields.cons v fs).get? 0 = some v := by cases v <;> rfl

theorem depth_emb : ∀ t : MMR TVal, t.depth + 1 ≤ (emb m t).depth
  | .empty => by simp [MMR.depth, emb, PTree.depth]
  | .leaf v => by simp [MMR.depth, emb, PTree.depth]
  | .inner l r n => by
    have h1 := depth_emb l
    have h2 := depth_emb r
    simp only [MMR.depth, emb, PTree.depth, PFields.depth]
    omega

theorem len_inner {α} {l r : MMR α} {n : Nat} : (MMR.inner l r n).len = pyLen n := rfl

theorem eval_len (t : MMR TVal) : (len m).eval T H ini (emb m t) = .ok t.len := by
  cases t with
  | empty => simp [len, Prog.eval, TVal.walk, TVal.asProof, MMR.len, Except.bind_ok]
  | leaf v => simp [len, Prog.eval, TVal.walk, TVal.asProof, MMR.len, Except.bind_ok]
  | inner l r n =>
    have h0 : ¬ ((n : Int) < 0) := by omega
    simp [len, Prog.eval, TVal.walk, TVal.asProof, MMR.len, Except.bind_ok, emb, PTree.attr, PTree.get?, PFields.get?, PTree.cls, h0]

theorem walk_left (l r : MMR TVal) (n : Nat) : (TVal.sub (emb m (.inner l r n))).walk T ini [0] = .ok (.sub (emb m l)) := rfl
theorem walk_right (l r : MMR TVal) (n : Nat) : (TVal.sub (emb m (.inner l r n))).walk T ini [1] = .ok (.sub (emb m r)) := rfl

theorem eval_cls_here {α} {f : Nat → Prog α} {t : PTree} : (Prog.cls [] f).eval T H ini t = (f t.cls).eval T H ini t := rfl

theorem eval_ite {α} {c : Prop} [Decidable c] {p q : Prog α} {t : PTree} : (if c then p else q).eval T H ini t = if c then p.eval T H ini t else q.eval T H ini t := by
  split <;> rfl

/-- `self[idx]` on the proof is `self[idx]` on the tree. -/
theorem eval_locate : ∀ (t : MMR TVal) (n : Nat) (idx : Int), t.depth < n → ∃ x, (locate m n idx).eval T H ini (emb m t) = .ok x ∧
    match t.getItem idx with
    | .ok v => ∃ π, x = .ok π ∧ ∀ ini, (TVal.sub (emb m t)).walk T ini π = .ok v
    | .error e => x = .error e
  | _, 0, _, h => by omega
  | .empty, n + 1, idx, _ => by
    simp [locate, eval_cls_here, Prog.eval, MMR.getItem]
  | .leaf v, n + 1, idx, _ => by
    by_cases hi : idx = 0 ∨ idx = -1
    · simp only [locate, eval_cls_here, emb_cls_leaf, MMR.getItem, if_pos hi]
      have hw : ∀ ini, (TVal.sub (emb m (.leaf v))).walk T ini [0] = .ok v := fun ini => walk1.mpr (cons_get_zero v .nil)
      refine ⟨.ok [0], ?_, [0], rfl, hw⟩
      simp only [ne21, ne31, ne32, if_false, if_true]
      simp only [Prog.eval, hw, Except.bind_ok]
    · simp [locate, eval_cls_here, MMR.getItem, hi, Prog.eval]
  | .inner l r len', n + 1, idx, hd => by
    simp only [MMR.depth] at hd
    simp only [locate, eval_cls_here, emb_cls_inner, ne21, ne31, ne32, if_false, if_true, eval_bind, eval_len, Except.bind_ok, MMR.getItem, len_inner]
    cases pyLen len' with
    | error e => exact ⟨_, rfl, rfl⟩
    | ok L =>
      simp only [Except.bind_ok]
      generalize (if idx < 0 then (L : Int) + idx else idx) = idx
      by_cases h1 : ¬ (0 ≤ idx ∧ idx < L)
      · simp only [if_pos h1]
        exact ⟨_, rfl, rfl⟩
      · simp only [if_neg h1, eval_bind, Prog.eval_at (walk_left l r len'), Prog.eval_at (walk_right l r len'), eval_len, Except.bind_ok]
        cases l.len with
        | error e => exact ⟨_, rfl, rfl⟩
        | ok a =>
          simp only [Except.bind_ok]
          by_cases h2 : 0 ≤ idx ∧ idx < a
          · simp only [if_pos h2, eval_bind, Prog.eval_at (walk_left l r len')]
            obtain ⟨x, hx, hv⟩ := eval_locate l n idx (by omega)
            rw [hx]
            cases hg : l.getItem idx with
            | error e => rw [hg] at hv; subst hv; exact ⟨_, rfl, rfl⟩
            | ok v =>
              rw [hg] at hv
              obtain ⟨π, rfl, hw⟩ := hv
              exact ⟨_, rfl, 0 :: π, rfl, fun ini => hw ini⟩
          · simp only [if_neg h2, eval_bind, Prog.eval_at (walk_right l r len'), eval_len, Except.bind_ok]
            cases r.len with
            | error e => exact ⟨_, rfl, rfl⟩
            | ok b =>
              simp only [Except.bind_ok]
              by_cases h3 : (a : Int) ≤ idx ∧ idx < (a : Int) + b
              · simp only [if_pos h3, eval_bind, Prog.eval_at (walk_right l r len')]
                obtain ⟨x, hx, hv⟩ := eval_locate r n (idx - a) (by omega)
                rw [hx]
                cases hg : r.getItem (idx - a) with
                | error e => rw [hg] at hv; subst hv; exact ⟨_, rfl, rfl⟩
                | ok v =>
                  rw [hg] at hv
                  obtain ⟨π, rfl, hw⟩ := hv
                  exact ⟨_, rfl, 1 :: π, rfl, fun ini => hw ini⟩
              · simp only [if_neg h3]
                exact ⟨_, rfl, rfl⟩

theorem eval_places : ∀ (t : MMR TVal) (n : Nat), t.depth < n → ∃ πs, (places m n).eval T H ini (emb m t) = .ok (.ok πs) ∧
    List.Forall₂ (fun π v => ∀ ini, (TVal.sub (emb m t)).walk T ini π = .ok v) πs t.items
  | _, 0, h => by omega
  | .empty, n + 1, _ => ⟨[], by simp [places, eval_cls_here, Prog.eval], .nil⟩
  | .leaf v, n + 1, _ => by
    have hw : ∀ ini, (TVal.sub (emb m (.leaf v))).walk T ini [0] = .ok v := fun ini => walk1.mpr (cons_get_zero v .nil)
    refine ⟨[[0]], ?_, .cons hw .nil⟩
    simp only [places, eval_cls_here, emb_cls_leaf, ne21, ne31, ne32, if_false, if_true]
    simp only [Prog.eval, hw, Except.bind_ok]
  | .inner l r len', n + 1, hd => by
    simp only [MMR.depth] at hd
    obtain ⟨πs, h1, h2⟩ := eval_places l n (by omega)
    obtain ⟨ρs, h3, h4⟩ := eval_places r n (by omega)
    refine ⟨πs.map (0 :: ·) ++ ρs.map (1 :: ·), ?_, ?_⟩
    · simp only [places, eval_cls_here, emb_cls_inner, ne21, ne31, ne32, if_false, if_true, eval_bind, Prog.eval_at (walk_left l r len'), Prog.eval_at (walk_right l r len'), h1, h3, Except.bind_ok]
      rfl
    · rw [MMR.items]
      refine List.rel_append (List.forall₂_map_left_iff.mpr (h2.imp fun _ _ h ini => h ini)) (List.forall₂_map_left_iff.mpr (h4.imp fun _ _ h ini => h ini))

theorem eval_perfect (t : MMR TVal) : (isPerfectTree m).eval T H ini (emb m t) = .ok t.isPerfectTree := by
  unfold isPerfectTree MMR.isPerfectTree
  rw [eval_bind, eval_len]
  cases t.len with
  | error e => rfl
  | ok l =>
    simp only [Except.bind_ok]
    by_cases h : l = 0
    · simp only [if_pos h]; rfl
    · simp only [if_neg h]; rfl

/-! ## Making nodes -/

/-- The action returns an object standing for the tree. -/
def Makes (T : Table) (H : HashFns) (s : PState) (x : HM Nat) (t : PTree) : Prop :=
  ∃ r s', x s = (.ok r, s') ∧ Steps T H s s' ∧ Represents s' r t

theorem new_makes (hT : T.WF) {s : PState} (hs : Reachable T H s) (c : Nat) {vs : List HVal} {fs : PFields} (hv : RepVals s vs fs)
    (hc : fs.Checked T (T c).attrs) (hl : vs.length = (T c).attrs.length) : Makes T H s (Prf.new T c vs) (.node c fs) := by
  obtain ⟨h1, h2, h3⟩ := new_rep hT hs c hv hl
  obtain ⟨r, hr⟩ := h2 hc
  exact ⟨r, _, Prod.ext hr rfl, h1, h3 r hr⟩

theorem accepts_checked {v : TVal} (h : accepts T k v = .ok ()) (hv : ∀ t, v = .sub t → t.Checked T) : (PFields.cons v .nil).Checked T [k] := by
  cases v with
  | prim v =>
    cases k with
    | prim τ => simp only [PFields.cons, PFields.Checked]; exact ⟨h, trivial⟩
    | proof c => cases h
    | union us => cases h
  | sub t =>
    simp only [PFields.cons, PFields.Checked]
    refine ⟨?_, hv t rfl, trivial⟩
    cases k with
    | prim τ => exact h
    | proof c =>
      intro us hus
      simp only [accepts, hus] at h
      split at h
      · assumption
      · cases h
    | union us =>
      simp only [accepts] at h
      split at h
      · assumption
      · cases h

theorem mkLeaf_makes (hT : T.WF) (hD : Declares T H m tag k) {s : PState} (hs : Reachable T H s) {v : HVal} {tv : TVal} (hv : v.Rep s tv) {t : MMR TVal}
    (h : MMR.mkLeaf (valueSer T H k) tv = .ok t) : Makes T H s (mkLeaf m T v) (emb m t) := by
  obtain ⟨_, h1, h2⟩ := Except.bind_eq_ok h
  cases h2
  have hck : (PFields.cons tv .nil).Checked T (T (m + 2)).attrs := by
    rw [hD.leaf]
    refine accepts_checked h1 fun t ht => ?_
    subst ht
    cases v with
    | prim v => exact hv.elim
    | ref r => exact hs.checked hT hv
  refine new_makes hT hs (m + 2) ?_ hck (by rw [hD.leaf]; rfl)
  cases v <;> cases tv <;> simp only [HVal.Rep] at hv
  · subst hv; exact .prim .nil
  · exact .ref hv .nil

theorem len_ok (hT : T.WF) {s : PState} (hs : Reachable T H s) {r : Nat} {t : MMR TVal} (hr : Represents s r (emb m t)) {a : Nat} (h : t.len = .ok a) :
    ∃ s', (len m).runM T H r s = (.ok a, s') ∧ Steps T H s s' :=
  runM_ok hT hs hr (by rw [eval_len, h])

theorem inst_variant (hD : Declares T H m tag k) (t : MMR TVal) : [m + 1, m + 2, m + 3].any (T.isInst (emb m t).cls) = true := by
  cases t <;> simp [Table.isInst]

theorem mkInner_makes (hT : T.WF) (hD : Declares T H m tag k) {s : PState} (hs : Reachable T H s) {l r : Nat} {a b : MMR TVal}
    (hl : Represents s l (emb m a)) (hr : Represents s r (emb m b)) {t : MMR TVal}
    (h : MMR.mkInner a b = .ok t) : Makes T H s (mkInner m T H l r) (emb m t) := by
  obtain ⟨x, hx, h⟩ := Except.bind_eq_ok h
  obtain ⟨y, hy, h⟩ := Except.bind_eq_ok h
  obtain ⟨_, hc, h⟩ := Except.bind_eq_ok h
  cases h
  obtain ⟨s1, e1, st1⟩ := len_ok hT hs hl hx
  have hs1 : Reachable T H s1 := Steps.trans hs st1
  obtain ⟨s2, e2, st2⟩ := len_ok hT hs1 (st1.represents hT hs hr) hy
  have hs2 : Reachable T H s2 := Steps.trans hs1 st2
  have st := Steps.trans st1 st2
  have hl2 := st.represents hT hs hl
  have hr2 := st.represents hT hs hr
  obtain ⟨q, s', e, st', hq⟩ := new_makes hT hs2 (m + 3) (RepVals.ref hl2 (.ref hr2 (.prim (v := .int ((x + y : Nat) : Int)) .nil)))
    (by
      rw [hD.inner]
      simp only [PFields.Checked, hD.base]
      refine ⟨?_, hs2.checked hT hl2, ?_, hs2.checked hT hr2, hc, trivial⟩
      · intro us hus; cases hus; exact inst_variant hD a
      · intro us hus; cases hus; exact inst_variant hD b) (by rw [hD.inner]; rfl)
  refine ⟨q, s', ?_, Steps.trans st st', hq⟩
  unfold mkInner
  rw [HM.bind_apply, e1]
  simp only []
  rw [HM.bind_apply, e2]
  exact e

theorem child_left (hT : T.WF) {s : PState} (hs : Reachable T H s) {r : Nat} {a b : MMR TVal} {n : Nat} (hr : Represents s r (emb m (.inner a b n))) :
    Makes T H s (child T r 0) (emb m a) := by
  obtain ⟨h1, h2, _⟩ := getAttr_rep hT hs hr 0
  obtain ⟨v, hv, hrep⟩ := h2 (.sub (emb m a)) rfl
  cases v with
  | prim v => exact hrep.elim
  | ref q =>
    refine ⟨q, _, ?_, h1, hrep⟩
    unfold child
    rw [HM.bind_apply]
    rcases he : Prf.getAttr T r 0 s with ⟨x, s'⟩
    rw [he] at hv
    cases hv
    rfl

theorem child_right (hT : T.WF) {s : PState} (hs : Reachable T H s) {r : Nat} {a b : MMR TVal} {n : Nat} (hr : Represents s r (emb m (.inner a b n))) :
    Makes T H s (child T r 1) (emb m b) := by
  obtain ⟨h1, h2, _⟩ := getAttr_rep hT hs hr 1
  obtain ⟨v, hv, hrep⟩ := h2 (.sub (emb m b)) rfl
  cases v with
  | prim v => exact hrep.elim
  | ref q =>
    refine ⟨q, _, ?_, h1, hrep⟩
    unfold child
    rw [HM.bind_apply]
    rcases he : Prf.getAttr T r 1 s with ⟨x, s'⟩
    rw [he] at hv
    cases hv
    rfl

theorem obj_bind {α} (hT : T.WF) {s : PState} (hs : Reachable T H s) {r : Nat} {t : PTree} (hr : Represents s r t) (f : Obj → HM α) :
    ∃ o, o.cls = t.cls ∧ (HM.obj r >>= f) s = f o s := by
  obtain ⟨o, h1, h2⟩ := obj_rep hT hs hr
  exact ⟨o, h2, by rw [HM.bind_apply]; unfold HM.obj; rw [h1]⟩

theorem bind_ok {α β} {x : HM α} {f : α → HM β} {s s' : PState} {a : α} (h : x s = (.ok a, s')) : (x >>= f) s = f a s' := by
  rw [HM.bind_apply, h]

theorem lift_bind {α β} {x : Py α} {f : α → HM β} {s : PState} {a : α} (h : x = .ok a) : (HM.lift x >>= f) s = f a s := by
  rw [HM.bind_apply, HM.lift_apply, h]

theorem mergeTrees_makes (hT : T.WF) (hD : Declares T H m tag k) : ∀ (t u v : MMR TVal) (n : Nat) (s : PState) (a b : Nat), Reachable T H s → t.depth < n →
    Represents s a (emb m t) → Represents s b (emb m u) → t.mergeTrees u = .ok v → Makes T H s (mergeTreesF m T H n a b) (emb m v)
  | _, _, _, 0, _, _, _, _, h, _, _, _ => by omega
  | .empty, _, _, _ + 1, _, _, _, _, _, _, _, h => by cases h
  | .leaf _, _, _, _ + 1, _, _, _, _, _, _, _, h => by cases h
  | .inner l r len', u, v, n + 1, s, a, b, hs, hd, ha, hb, h => by
    simp only [MMR.depth] at hd
    rw [MMR.mergeTrees] at h
    obtain ⟨x, hx, h⟩ := Except.bind_eq_ok h
    obtain ⟨y, hy, h⟩ := Except.bind_eq_ok h
    obtain ⟨_, hxy, h⟩ := Except.bind_eq_ok h
    unfold Makes mergeTreesF
    obtain ⟨o, hoc, ho⟩ := obj_bind hT hs ha (fun o => (if o.cls ≠ m + 3 then HM.fail .attributeError
      else do
        let a' ← (len m).runM T H a
        let b' ← (len m).runM T H b
        HM.lift (pyAssert (decide (a' ≥ b')))
        if a' &&& b' = 0 then mkInner m T H a b
        else if a' = b' then do
          let p ← (isPerfectTree m).runM T H a
          HM.lift (pyAssert p)
          mkInner m T H a b
        else do
          let r ← child T a 1
          let c ← (len m).runM T H r
          HM.lift (pyAssert (decide (c &&& b' ≠ 0)))
          let newRight ← mergeTreesF m T H n r b
          let l ← child T a 0
          mergeTreesF m T H n l newRight : HM Nat))
    rw [ho, if_neg (by rw [hoc]; simp)]
    obtain ⟨s1, e1, st1⟩ := len_ok hT hs ha (t := .inner l r len') hx
    have hs1 : Reachable T H s1 := Steps.trans hs st1
    obtain ⟨s2, e2, st2⟩ := len_ok hT hs1 (st1.represents hT hs hb) hy
    have hs2 : Reachable T H s2 := Steps.trans hs1 st2
    have st := Steps.trans st1 st2
    have ha2 := st.represents hT hs ha
    have hb2 := st.represents hT hs hb
    rw [bind_ok e1, bind_ok e2, lift_bind hxy]
    split at h
    · next h0 =>
      rw [if_pos h0]
      obtain ⟨q, s', e, st', hq⟩ := mkInner_makes hT hD hs2 ha2 hb2 h
      exact ⟨q, s', e, Steps.trans st st', hq⟩
    · next h0 =>
      rw [if_neg h0]
      split at h
      · next h1 =>
        rw [if_pos h1]
        obtain ⟨p, hp, h⟩ := Except.bind_eq_ok h
        obtain ⟨_, hp', h⟩ := Except.bind_eq_ok h
        obtain ⟨s3, e3, st3⟩ := runM_ok (p := isPerfectTree m) hT hs2 ha2 (by rw [eval_perfect, hp])
        have hs3 : Reachable T H s3 := Steps.trans hs2 st3
        rw [bind_ok e3, lift_bind hp']
        obtain ⟨q, s', e, st', hq⟩ := mkInner_makes hT hD hs3 (st3.represents hT hs2 ha2) (st3.represents hT hs2 hb2) h
        exact ⟨q, s', e, Steps.trans (Steps.trans st st3) st', hq⟩
      · next h1 =>
        rw [if_neg h1]
        obtain ⟨c, hc, h⟩ := Except.bind_eq_ok h
        obtain ⟨_, hc', h⟩ := Except.bind_eq_ok h
        obtain ⟨w, hw, h⟩ := Except.bind_eq_ok h
        obtain ⟨rr, s3, e3, st3, hrr⟩ := child_right hT hs2 ha2
        have hs3 : Reachable T H s3 := Steps.trans hs2 st3
        obtain ⟨s4, e4, st4⟩ := len_ok hT hs3 hrr hc
        have hs4 : Reachable T H s4 := Steps.trans hs3 st4
        obtain ⟨nr, s5, e5, st5, hnr⟩ := mergeTrees_makes hT hD r u w n s4 rr b hs4 (by omega) (st4.represents hT hs3 hrr)
          ((Steps.trans st3 st4).represents hT hs2 hb2) hw
        have hs5 : Reachable T H s5 := Steps.trans hs4 st5
        have st25 := Steps.trans (Steps.trans st3 st4) st5
        obtain ⟨ll, s6, e6, st6, hll⟩ := child_left hT hs5 (st25.represents hT hs2 ha2)
        have hs6 : Reachable T H s6 := Steps.trans hs5 st6
        obtain ⟨q, s7, e7, st7, hq⟩ := mergeTrees_makes hT hD l w v n s6 ll nr hs6 (by omega) hll (st6.represents hT hs5 hnr) h
        rw [bind_ok e3, bind_ok e4, lift_bind hc', bind_ok e5, bind_ok e6]
        exact ⟨q, s7, e7, Steps.trans (Steps.trans st st25) (Steps.trans st6 st7), hq⟩

theorem append_makesF (hT : T.WF) (hD : Declares T H m tag k) : ∀ (t u : MMR TVal) (tv : TVal) (n : Nat) (s : PState) (a : Nat) (v : HVal), Reachable T H s → t.depth < n →
    Represents s a (emb m t) → v.Rep s tv → t.append (valueSer T H k) tv = .ok u → Makes T H s (appendF m T H n a v) (emb m u)
  | _, _, _, 0, _, _, _, _, h, _, _, _ => by omega
  | .empty, u, tv, n + 1, s, a, v, hs, _, ha, hv, h => by
    unfold Makes appendF
    obtain ⟨o, ho, hoc⟩ := obj_rep hT hs ha
    have e0 : HM.obj a s = (.ok o, s) := by unfold HM.obj; rw [ho]
    rw [bind_ok e0, if_neg (by rw [hoc]; simp), if_neg (by rw [hoc]; simp)]
    exact mkLeaf_makes hT hD hs hv h
  | .leaf w, u, tv, n + 1, s, a, v, hs, _, ha, hv, h => by
    unfold Makes appendF
    obtain ⟨o, ho, hoc⟩ := obj_rep hT hs ha
    have e0 : HM.obj a s = (.ok o, s) := by unfold HM.obj; rw [ho]
    rw [bind_ok e0, if_pos (by rw [hoc]; simp)]
    obtain ⟨x, hx, h⟩ := Except.bind_eq_ok h
    obtain ⟨r, s1, e1, st1, hr⟩ := mkLeaf_makes hT hD hs hv hx
    have hs1 : Reachable T H s1 := Steps.trans hs st1
    obtain ⟨q, s2, e2, st2, hq⟩ := mkInner_makes hT hD hs1 (st1.represents hT hs ha) hr h
    rw [bind_ok e1]
    exact ⟨q, s2, e2, Steps.trans st1 st2, hq⟩
  | .inner l r len', u, tv, n + 1, s, a, v, hs, hd, ha, hv, h => by
    simp only [MMR.depth] at hd
    unfold Makes appendF
    obtain ⟨o, ho, hoc⟩ := obj_rep hT hs ha
    have e0 : HM.obj a s = (.ok o, s) := by unfold HM.obj; rw [ho]
    rw [bind_ok e0, if_neg (by rw [hoc]; simp), if_pos (by rw [hoc]; simp)]
    rw [MMR.append] at h
    obtain ⟨x, hx, h⟩ := Except.bind_eq_ok h
    obtain ⟨s1, e1, st1⟩ := len_ok hT hs ha (t := .inner l r len') hx
    have hs1 : Reachable T H s1 := Steps.trans hs st1
    rw [bind_ok e1]
    have ha1 := st1.represents hT hs ha
    have hv1 := hv.steps hT hs st1
    split at h
    · next h0 =>
      rw [if_pos h0]
      obtain ⟨y, hy, h⟩ := Except.bind_eq_ok h
      obtain ⟨b, s2, e2, st2, hb⟩ := mkLeaf_makes hT hD hs1 hv1 hy
      have hs2 : Reachable T H s2 := Steps.trans hs1 st2
      obtain ⟨q, s3, e3, st3, hq⟩ := mkInner_makes hT hD hs2 (st2.represents hT hs1 ha1) hb h
      rw [bind_ok e2]
      exact ⟨q, s3, e3, Steps.trans st1 (Steps.trans st2 st3), hq⟩
    · next h0 =>
      rw [if_neg h0]
      obtain ⟨y, hy, h⟩ := Except.bind_eq_ok h
      obtain ⟨b, s2, e2, st2, hb⟩ := child_right hT hs1 ha1
      have hs2 : Reachable T H s2 := Steps.trans hs1 st2
      obtain ⟨c, s3, e3, st3, hc⟩ := append_makesF hT hD r y tv n s2 b v hs2 (by omega) hb (hv1.steps hT hs1 st2) hy
      have hs3 : Reachable T H s3 := Steps.trans hs2 st3
      obtain ⟨d, s4, e4, st4, hd'⟩ := child_left hT hs3 ((Steps.trans st2 st3).represents hT hs1 ha1)
      have hs4 : Reachable T H s4 := Steps.trans hs3 st4
      have hdep := depth_le_objs hT hs4 hd'
      have hdep2 := depth_emb (m := m) l
      obtain ⟨q, s5, e5, st5, hq⟩ := mergeTrees_makes hT hD l y u (s4.objs.length + 1) s4 d c hs4 (by omega) hd' (st4.represents hT hs3 hc) h
      rw [bind_ok e2, bind_ok e3, bind_ok e4]
      exact ⟨q, s5, e5, Steps.trans (Steps.trans st1 st2) (Steps.trans st3 (Steps.trans st4 st5)), hq⟩

/-- `append` on objects is `append` on trees. -/
theorem append_makes (hT : T.WF) (hD : Declares T H m tag k) {t u : MMR TVal} {tv : TVal} {s : PState} {a : Nat} {v : HVal} (hs : Reachable T H s)
    (ha : Represents s a (emb m t)) (hv : v.Rep s tv) (h : t.append (valueSer T H k) tv = .ok u) : Makes T H s (append m T H a v) (emb m u) := by
  have h1 := depth_le_objs hT hs ha
  have h2 := depth_emb (m := m) t
  exact append_makesF hT hD t u tv _ s a v hs (by omega) ha hv h

theorem AllRep.steps (hT : T.WF) {s s' : PState} (hs : Reachable T H s) (hst : Steps T H s s') : ∀ {vs : List HVal} {tvs : List TVal}, AllRep s vs tvs → AllRep s' vs tvs
  | _, _, .nil => .nil
  | _, _, .prim h => .prim (h.steps hT hs hst)
  | _, _, .ref hr h => .ref (hst.represents hT hs hr) (h.steps hT hs hst)

theorem AllRep.cons_inv {s : PState} {v : HVal} {vs : List HVal} {tvs : List TVal} (h : AllRep s (v :: vs) tvs) : ∃ tv ts, tvs = tv :: ts ∧ v.Rep s tv ∧ AllRep s vs ts := by
  cases h with
  | prim h => exact ⟨_, _, rfl, rfl, h⟩
  | ref hr h => exact ⟨_, _, rfl, hr, h⟩

theorem AllRep.cons {s : PState} {v : HVal} {tv : TVal} {vs : List HVal} {tvs : List TVal} (h1 : v.Rep s tv) (h : AllRep s vs tvs) : AllRep s (v :: vs) (tv :: tvs) := by
  cases v <;> cases tv <;> simp only [HVal.Rep] at h1
  · subst h1; exact .prim h
  · exact .ref h1 h

theorem extend_makes (hT : T.WF) (hD : Declares T H m tag k) : ∀ (vs : List HVal) (t u : MMR TVal) (tvs : List TVal) (s : PState) (a : Nat), Reachable T H s →
    Represents s a (emb m t) → AllRep s vs tvs → t.extend (valueSer T H k) tvs = .ok u → Makes T H s (extend m T H a vs) (emb m u)
  | [], t, u, tvs, s, a, hs, ha, hv, h => by
    cases hv
    cases h
    exact ⟨a, s, rfl, .refl, ha⟩
  | v :: vs, t, u, tvs, s, a, hs, ha, hv, h => by
    obtain ⟨tv, ts, rfl, h1, h2⟩ := hv.cons_inv
    obtain ⟨t', ht', h⟩ := Except.bind_eq_ok h
    obtain ⟨b, s1, e1, st1, hb⟩ := append_makes hT hD hs ha h1 ht'
    have hs1 : Reachable T H s1 := Steps.trans hs st1
    obtain ⟨q, s2, e2, st2, hq⟩ := extend_makes hT hD vs t' u ts s1 b hs1 hb (h2.steps hT hs st1) h
    refine ⟨q, s2, ?_, Steps.trans st1 st2, hq⟩
    rw [extend, bind_ok e1, e2]

theorem ofIterable_makes (hT : T.WF) (hD : Declares T H m tag k) {vs : List HVal} {u : MMR TVal} {tvs : List TVal} {s : PState} (hs : Reachable T H s)
    (hv : AllRep s vs tvs) (h : MMR.ofIterable (valueSer T H k) tvs = .ok u) : Makes T H s (ofIterable m T H vs) (emb m u) := by
  obtain ⟨a, s1, e1, st1, ha⟩ := new_makes hT hs (m + 1) (vs := []) (fs := .nil) .nil (by rw [hD.empty]; trivial) (by rw [hD.empty]; rfl)
  have hs1 : Reachable T H s1 := Steps.trans hs st1
  obtain ⟨q, s2, e2, st2, hq⟩ := extend_makes hT hD vs .empty u tvs s1 a hs1 ha (hv.steps hT hs st1) h
  exact ⟨q, s2, by rw [ofIterable, bind_ok e1, e2], Steps.trans st1 st2, hq⟩

/-! ## Reading -/

theorem getItem_rep (hT : T.WF) {s : PState} (hs : Reachable T H s) {r : Nat} {t : MMR TVal} (hr : Represents s r (emb m t)) (i : Int) :
    match t.getItem i with
    | .ok tv => ∃ v s', getItem m T H r i s = (.ok v, s') ∧ Steps T H s s' ∧ v.Rep s' tv
    | .error e => (getItem m T H r i s).1 = .error e := by
  have h1 := depth_le_objs hT hs hr
  have h2 := depth_emb (m := m) t
  obtain ⟨x, hx, h⟩ := eval_locate (T := T) (H := H) (ini := s.inited) (m := m) t (s.objs.length + 1) i (by omega)
  have hv := runM_val hT (locate m (s.objs.length + 1) i) hs hr
  rw [hx, Except.bind_ok] at hv
  cases hg : t.getItem i with
  | error e =>
    rw [hg] at h
    subst h
    show (getItem m T H r i s).1 = _
    unfold getItem
    rw [HM.bind_apply]
    rcases he : (locate m (s.objs.length + 1) i).runM T H r s with ⟨y, s'⟩
    rw [he] at hv
    cases hv
    rfl
  | ok tv =>
    rw [hg] at h
    obtain ⟨π, rfl, hw⟩ := h
    obtain ⟨s1, e1, st1⟩ := runM_ok (p := locate m (s.objs.length + 1) i) hT hs hr hx
    have hs1 : Reachable T H s1 := Steps.trans hs st1
    obtain ⟨st2, _, h4⟩ := walk_rep hT hs1 (st1.represents hT hs hr) π
    obtain ⟨v, hv, hrep⟩ := h4 tv (hw _)
    refine ⟨v, _, ?_, Steps.trans st1 st2, hrep⟩
    unfold getItem
    rw [bind_ok e1]
    exact Prod.ext hv rfl

theorem walks_rep (hT : T.WF) {r : Nat} {t : PTree} : ∀ {πs : List (List Nat)} {tvs : List TVal} {s : PState}, Reachable T H s → Represents s r t →
    List.Forall₂ (fun π v => ∀ ini, (TVal.sub t).walk T ini π = .ok v) πs tvs → ∃ vs s', walks T r πs s = (.ok vs, s') ∧ Steps T H s s' ∧ AllRep s' vs tvs
  | _, _, s, _, _, .nil => ⟨[], s, rfl, .refl, .nil⟩
  | _, _, s, hs, hr, .cons (a := π) (b := tv) h hh => by
    obtain ⟨st1, _, h4⟩ := walk_rep hT hs hr π
    obtain ⟨v, hv, hrep⟩ := h4 tv (h _)
    have hs1 : Reachable T H _ := Steps.trans hs st1
    obtain ⟨vs, s2, e2, st2, hvs⟩ := walks_rep hT hs1 (st1.represents hT hs hr) hh
    refine ⟨v :: vs, s2, ?_, Steps.trans st1 st2, .cons (hrep.steps hT hs1 st2) hvs⟩
    rw [walks, bind_ok (Prod.ext hv rfl), bind_ok e2]
    rfl

theorem toList_rep (hT : T.WF) {s : PState} (hs : Reachable T H s) {r : Nat} {t : MMR TVal} (hr : Represents s r (emb m t)) :
    ∃ vs s', toList m T H r s = (.ok vs, s') ∧ Steps T H s s' ∧ AllRep s' vs t.items := by
  have h1 := depth_le_objs hT hs hr
  have h2 := depth_emb (m := m) t
  obtain ⟨πs, hx, h⟩ := eval_places (T := T) (H := H) (ini := s.inited) (m := m) t (s.objs.length + 1) (by omega)
  obtain ⟨s1, e1, st1⟩ := runM_ok (p := places m (s.objs.length + 1)) hT hs hr hx
  have hs1 : Reachable T H s1 := Steps.trans hs st1
  obtain ⟨vs, s2, e2, st2, hvs⟩ := walks_rep hT hs1 (st1.represents hT hs hr) h
  exact ⟨vs, s2, by unfold toList; rw [bind_ok e1, e2], Steps.trans st1 st2, hvs⟩

theorem obj_ok (hT : T.WF) {s : PState} (hs : Reachable T H s) {r : Nat} {t : PTree} (hr : Represents s r t) :
    ∃ o, o.cls = t.cls ∧ HM.obj r s = (.ok o, s) := by
  obtain ⟨o, h1, h2⟩ := obj_rep hT hs hr
  exact ⟨o, h2, by unfold HM.obj; rw [h1]⟩

theorem empty_makes (hT : T.WF) (hD : Declares T H m tag k) {s : PState} (hs : Reachable T H s) : Makes T H s (Prf.new T (m + 1) []) (emb m .empty) :=
  new_makes hT hs (m + 1) (vs := []) (fs := .nil) .nil (by rw [hD.empty]; trivial) (by rw [hD.empty]; rfl)

theorem getSlice_makesF (hT : T.WF) (hD : Declares T H m tag k) : ∀ (t u : MMR TVal) (sl : PySlice) (n : Nat) (s : PState) (a : Nat), Reachable T H s → t.depth < n →
    Represents s a (emb m t) → t.getSlice (valueSer T H k) sl = .ok u → Makes T H s (getSliceF m T H n a sl) (emb m u)
  | _, _, _, 0, _, _, _, h, _, _ => by omega
  | .empty, u, sl, n + 1, s, a, hs, _, ha, h => by
    obtain ⟨o, hoc, ho⟩ := obj_ok hT hs ha
    rw [MMR.getSlice] at h
    obtain ⟨x, hx, h⟩ := Except.bind_eq_ok h
    cases h
    refine ⟨a, s, ?_, .refl, ha⟩
    rw [getSliceF, bind_ok ho, if_pos (by rw [hoc]; rfl), lift_bind hx]
    rfl
  | .leaf v, u, sl, n + 1, s, a, hs, _, ha, h => by
    obtain ⟨o, hoc, ho⟩ := obj_ok hT hs ha
    rw [MMR.getSlice] at h
    obtain ⟨⟨start, stop, step⟩, hx, h⟩ := Except.bind_eq_ok h
    unfold Makes
    rw [getSliceF, bind_ok ho, if_neg (by rw [hoc]; simp), if_pos (by rw [hoc]; rfl), lift_bind hx]
    dsimp only at h ⊢
    by_cases h1 : step ≠ 1
    · rw [if_pos h1] at h; cases h
    rw [if_neg h1] at h ⊢
    by_cases h2 : start ≤ 0 ∧ stop ≥ 1
    · rw [if_pos h2] at h ⊢
      cases h
      exact ⟨a, s, rfl, .refl, ha⟩
    · rw [if_neg h2] at h ⊢
      cases h
      exact empty_makes hT hD hs
  | .inner l r len', u, sl, n + 1, s, a, hs, hd, ha, h => by
    simp only [MMR.depth] at hd
    obtain ⟨o, hoc, ho⟩ := obj_ok hT hs ha
    rw [MMR.getSlice] at h
    obtain ⟨L, hL, h⟩ := Except.bind_eq_ok h
    obtain ⟨⟨start, stop, step⟩, hx, h⟩ := Except.bind_eq_ok h
    obtain ⟨s1, e1, st1⟩ := len_ok hT hs ha (t := .inner l r len') hL
    have hs1 : Reachable T H s1 := Steps.trans hs st1
    have ha1 := st1.represents hT hs ha
    unfold Makes
    rw [getSliceF, bind_ok ho, if_neg (by rw [hoc]; simp), if_neg (by rw [hoc]; simp), if_pos (by rw [hoc]; rfl), bind_ok e1, lift_bind hx]
    dsimp only at h ⊢
    by_cases h1 : step ≠ 1
    · rw [if_pos h1] at h; cases h
    rw [if_neg h1] at h ⊢
    by_cases h2 : start ≤ 0 ∧ stop ≥ (L : Int)
    · rw [if_pos h2] at h ⊢
      cases h
      exact ⟨a, s1, rfl, st1, ha1⟩
    rw [if_neg h2] at h ⊢
    obtain ⟨A, hA, h⟩ := Except.bind_eq_ok h
    obtain ⟨c, s2, e2, st2, hc⟩ := child_left hT hs1 ha1
    have hs2 : Reachable T H s2 := Steps.trans hs1 st2
    obtain ⟨s3, e3, st3⟩ := len_ok hT hs2 hc hA
    have hs3 : Reachable T H s3 := Steps.trans hs2 st3
    have hc3 := st3.represents hT hs2 hc
    have st13 := Steps.trans st2 st3
    have ha3 := st13.represents hT hs1 ha1
    have st03 := Steps.trans st1 st13
    rw [bind_ok e2, bind_ok e3]
    by_cases h3 : start < (A : Int)
    · rw [if_pos h3] at h ⊢
      obtain ⟨x, hx', h⟩ := Except.bind_eq_ok h
      obtain ⟨q, s4, e4, st4, hq⟩ := getSlice_makesF hT hD l x _ n s3 c hs3 (by omega) hc3 hx'
      have hs4 : Reachable T H s4 := Steps.trans hs3 st4
      rw [bind_ok e4]
      by_cases h4 : stop > (A : Int)
      · rw [if_pos h4] at h ⊢
        obtain ⟨y, hy, h⟩ := Except.bind_eq_ok h
        obtain ⟨d, s5, e5, st5, hd'⟩ := child_right hT hs4 (st4.represents hT hs3 ha3)
        have hs5 : Reachable T H s5 := Steps.trans hs4 st5
        obtain ⟨p, s6, e6, st6, hp⟩ := getSlice_makesF hT hD r y _ n s5 d hs5 (by omega) hd' hy
        have hs6 : Reachable T H s6 := Steps.trans hs5 st6
        obtain ⟨vs, s7, e7, st7, hvs⟩ := toList_rep hT hs6 hp
        have hs7 : Reachable T H s7 := Steps.trans hs6 st7
        have st47 := Steps.trans st5 (Steps.trans st6 st7)
        obtain ⟨w, s8, e8, st8, hw⟩ := extend_makes hT hD vs x u y.items s7 q hs7 (st47.represents hT hs4 hq) hvs h
        refine ⟨w, s8, ?_, Steps.trans st03 (Steps.trans st4 (Steps.trans st47 st8)), hw⟩
        rw [bind_ok e5, bind_ok e6, bind_ok e7, e8]
      · rw [if_neg h4] at h ⊢
        cases h
        exact ⟨q, s4, rfl, Steps.trans st03 st4, hq⟩
    · rw [if_neg h3] at h ⊢
      by_cases h4 : start ≥ (A : Int) ∧ start < (L : Int)
      · rw [if_pos h4] at h ⊢
        obtain ⟨d, s5, e5, st5, hd'⟩ := child_right hT hs3 ha3
        have hs5 : Reachable T H s5 := Steps.trans hs3 st5
        obtain ⟨p, s6, e6, st6, hp⟩ := getSlice_makesF hT hD r u _ n s5 d hs5 (by omega) hd' h
        exact ⟨p, s6, by rw [bind_ok e5, e6], Steps.trans st03 (Steps.trans st5 st6), hp⟩
      · rw [if_neg h4] at h ⊢
        cases h
        obtain ⟨p, s5, e5, st5, hp⟩ := empty_makes hT hD hs3
        exact ⟨p, s5, e5, Steps.trans st03 st5, hp⟩

theorem getSlice_makes (hT : T.WF) (hD : Declares T H m tag k) {t u : MMR TVal} {sl : PySlice} {s : PState} {a : Nat} (hs : Reachable T H s)
    (ha : Represents s a (emb m t)) (h : t.getSlice (valueSer T H k) sl = .ok u) : Makes T H s (getSlice m T H a sl) (emb m u) := by
  have h1 := depth_le_objs hT hs ha
  have h2 := depth_emb (m := m) t
  exact getSlice_makesF hT hD t u sl _ s a hs (by omega) ha h

end Mmr
end Verif
