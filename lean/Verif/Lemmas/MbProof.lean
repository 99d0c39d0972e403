import Verif.Spec.MbProof
import Verif.Lemmas.MmrProof
import Verif.Lemmas.Merbinner2
import Verif.Lemmas.Prim
/-! # Lemmas about merbinner trees on the heap -/
namespace Verif
open Seal

def MB.height {K V : Type} : MB K V → Nat
  | .inner _ l r => max l.height r.height + 1
  | _ => 0

namespace Merb
open Mmr (ne21 ne31 ne32 eval_cls_here Makes new_makes bind_ok lift_bind cons_get_zero)
variable {T : Table} {H : HashFns} {ini : List Nat} {m : Nat} {tag : Bytes} {τ : PrimTy} {kv : Kind} {k2p : PVal → Py (List Bool)} {kp : Key τ → List Bool}

@[simp] theorem emb_cls_empty : (emb m (.empty : MB (Key τ) TVal)).cls = m + 1 := rfl
@[simp] theorem emb_cls_leaf {k : Key τ} {v} : (emb m (.leaf k v)).cls = m + 2 := rfl
@[simp] theorem emb_cls_inner {p} {l r : MB (Key τ) TVal} : (emb m (.inner p l r)).cls = m + 3 := rfl

theorem depth_emb : ∀ t : MB (Key τ) TVal, t.height + 1 ≤ (emb m t).depth
  | .empty => by simp [MB.height, emb, PTree.depth]
  | .leaf k v => by simp [MB.height, emb, PTree.depth]
  | .inner p l r => by
    have h1 := depth_emb l
    have h2 := depth_emb r
    simp only [MB.height, emb, PTree.depth, PFields.depth]
    omega

theorem walk_key (k : Key τ) (v : TVal) : (TVal.sub (emb m (.leaf k v))).walk T ini [0] = .ok (.prim k.1) := rfl
theorem walk_value (k : Key τ) (v : TVal) : (TVal.sub (emb m (.leaf k v))).walk T ini [1] = .ok v :=
  walk1.mpr (by show (PFields.prim k.1 (PFields.cons v .nil)).get? 1 = _; rw [PFields.get?]; exact cons_get_zero v .nil)
theorem walk_pfx (p) (l r : MB (Key τ) TVal) : (TVal.sub (emb m (.inner p l r))).walk T ini [0] = .ok (.prim (.bits p)) := rfl
theorem walk_left (p) (l r : MB (Key τ) TVal) : (TVal.sub (emb m (.inner p l r))).walk T ini [1] = .ok (.sub (emb m l)) := rfl
theorem walk_right (p) (l r : MB (Key τ) TVal) : (TVal.sub (emb m (.inner p l r))).walk T ini [2] = .ok (.sub (emb m r)) := rfl

theorem walk_cons_left (p) (l r : MB (Key τ) TVal) (π) : (TVal.sub (emb m (.inner p l r))).walk T ini (1 :: π) = (TVal.sub (emb m l)).walk T ini π := rfl
theorem walk_cons_right (p) (l r : MB (Key τ) TVal) (π) : (TVal.sub (emb m (.inner p l r))).walk T ini (2 :: π) = (TVal.sub (emb m r)).walk T ini π := rfl

theorem eval_read_here {α} {π : List Nat} {f : Option PVal → Prog α} {t : PTree} {v : TVal} (h : (TVal.sub t).walk T ini π = .ok v) :
    (Prog.read π f).eval T H ini t = (f (match v with | .prim w => some w | .sub _ => none)).eval T H ini t := by
  simp only [Prog.eval, h, Except.bind_ok]
  cases v <;> rfl

theorem eval_cls_at {α} {π : List Nat} {f : Nat → Prog α} {t u : PTree} (h : (TVal.sub t).walk T ini π = .ok (.sub u)) :
    (Prog.cls π f).eval T H ini t = (f u.cls).eval T H ini t := by
  simp only [Prog.eval, h, Except.bind_ok, TVal.asProof]

theorem eval_pfx (hk : Prefixes τ k2p kp) (t : MB (Key τ) TVal) : (pfx m k2p).eval T H ini (emb m t) = .ok (.ok (t.pfx (cls T H τ kv kp))) := by
  cases t with
  | empty => simp [pfx, eval_cls_here, Prog.eval, MB.pfx]
  | leaf k v =>
    simp only [pfx, eval_cls_here, emb_cls_leaf, ne21, if_false, if_true, eval_read_here (walk_key k v), Prog.eval, hk.eq k, MB.pfx, cls]
  | inner p l r =>
    simp only [pfx, eval_cls_here, emb_cls_inner, ne31, ne32, if_false, if_true, eval_read_here (walk_pfx p l r), Prog.eval, MB.pfx]

theorem eval_len : ∀ (t : MB (Key τ) TVal) (n : Nat), t.height < n → (len m n).eval T H ini (emb m t) = .ok t.len
  | _, 0, h => by omega
  | .empty, n + 1, _ => by simp [len, eval_cls_here, Prog.eval, MB.len]
  | .leaf k v, n + 1, _ => by simp [len, eval_cls_here, Prog.eval, MB.len]
  | .inner p l r, n + 1, hd => by
    simp only [MB.height] at hd
    simp only [len, eval_cls_here, emb_cls_inner, ne31, ne32, if_false, if_true, eval_bind, Prog.eval_at (walk_left p l r), Prog.eval_at (walk_right p l r),
      eval_len l n (by omega), eval_len r n (by omega), Except.bind_ok, MB.len]
    cases l.len with
    | error e => rfl
    | ok a =>
      cases r.len with
      | error e => rfl
      | ok b => rfl

/-- Keys (`0`) or values (`1`) as values of trees. -/
def column (i : Nat) (t : MB (Key τ) TVal) : List TVal := if i = 0 then t.keys.map (fun k => .prim k.1) else t.values

theorem column_inner (i : Nat) (p) (l r : MB (Key τ) TVal) : column i (.inner p l r) = column i l ++ column i r := by
  unfold column
  split
  · simp [MB.keys]
  · rfl

theorem eval_places {i : Nat} (hi : i = 0 ∨ i = 1) : ∀ (t : MB (Key τ) TVal) (n : Nat), t.height < n → ∃ πs, (places m i n).eval T H ini (emb m t) = .ok (.ok πs) ∧
    List.Forall₂ (fun π v => ∀ ini, (TVal.sub (emb m t)).walk T ini π = .ok v) πs (column i t)
  | _, 0, h => by omega
  | .empty, n + 1, _ => ⟨[], by simp [places, eval_cls_here, Prog.eval], by rcases hi with rfl | rfl <;> exact .nil⟩
  | .leaf k v, n + 1, _ => by
    have hw : ∃ x, column i (.leaf k v) = [x] ∧ ∀ ini, (TVal.sub (emb m (.leaf k v))).walk T ini [i] = .ok x := by
      rcases hi with rfl | rfl
      · exact ⟨_, rfl, fun ini => walk_key k v⟩
      · exact ⟨_, rfl, fun ini => walk_value k v⟩
    obtain ⟨x, hx, hw⟩ := hw
    refine ⟨[[i]], ?_, by rw [hx]; exact .cons hw .nil⟩
    simp only [places, eval_cls_here, emb_cls_leaf, ne21, ne31, ne32, if_false, if_true]
    simp only [Prog.eval, hw, Except.bind_ok]
  | .inner p l r, n + 1, hd => by
    simp only [MB.height] at hd
    obtain ⟨πs, h1, h2⟩ := eval_places hi l n (by omega)
    obtain ⟨ρs, h3, h4⟩ := eval_places hi r n (by omega)
    refine ⟨πs.map (1 :: ·) ++ ρs.map (2 :: ·), ?_, ?_⟩
    · simp only [places, eval_cls_here, emb_cls_inner, ne21, ne31, ne32, if_false, if_true, eval_bind, Prog.eval_at (walk_left p l r), Prog.eval_at (walk_right p l r), h1, h3, Except.bind_ok]
      rfl
    · rw [column_inner]
      refine List.rel_append (List.forall₂_map_left_iff.mpr (h2.imp fun _ _ h ini => h ini)) (List.forall₂_map_left_iff.mpr (h4.imp fun _ _ h ini => h ini))

/-- `descend` on the proof is `descend` on the tree. -/
theorem eval_descend (q : List Bool) : ∀ (t : MB (Key τ) TVal) (n : Nat), t.height < n → ∃ x, (descend m q n).eval T H ini (emb m t) = .ok x ∧
    match t.descend q with
    | .ok (c, ss) => ∃ π πs, x = .ok (π, πs) ∧ (∀ ini, (TVal.sub (emb m t)).walk T ini π = .ok (.sub (emb m c))) ∧
        List.Forall₂ (fun π u => ∀ ini, (TVal.sub (emb m t)).walk T ini π = .ok (.sub (emb m u))) πs ss
    | .error e => x = .error e
  | _, 0, h => by omega
  | .empty, n + 1, _ => ⟨_, by simp [descend, eval_cls_here, Prog.eval], [], [], rfl, (fun _ => rfl), .nil⟩
  | .leaf k v, n + 1, _ => ⟨_, by simp [descend, eval_cls_here, Prog.eval], [], [], rfl, (fun _ => rfl), .nil⟩
  | .inner p l r, n + 1, hd => by
    simp only [MB.height] at hd
    simp only [descend, eval_cls_here, emb_cls_inner, ne31, ne32, or_self, if_false, if_true, eval_read_here (walk_pfx p l r), MB.descend]
    by_cases hq : p.length ≤ q.length ∧ p.isPrefixOf q = true
    · rw [if_pos hq, if_pos hq]
      cases q[p.length]? with
      | none => exact ⟨_, rfl, rfl⟩
      | some b =>
        cases b with
        | true =>
          simp only
          obtain ⟨x, hx, h⟩ := eval_descend q r n (by omega)
          rw [eval_bind, Prog.eval_at (walk_right p l r), hx]
          cases hde : r.descend q with
          | error e => rw [hde] at h; subst h; exact ⟨_, rfl, rfl⟩
          | ok cs =>
            obtain ⟨c, ss⟩ := cs
            rw [hde] at h
            obtain ⟨π, πs, rfl, h1, h2⟩ := h
            refine ⟨.ok (2 :: π, πs.map (2 :: ·) ++ [[1]]), ?_, _, _, rfl, (fun ini => by rw [walk_cons_right]; exact h1 ini), ?_⟩
            · rw [Except.bind_ok]; exact eval_cls_at (walk_left p l r)
            · exact List.rel_append (List.forall₂_map_left_iff.mpr (h2.imp fun _ _ h ini => h ini)) (.cons (fun ini => rfl) .nil)
        | false =>
          simp only
          obtain ⟨x, hx, h⟩ := eval_descend q l n (by omega)
          rw [eval_bind, Prog.eval_at (walk_left p l r), hx]
          cases hde : l.descend q with
          | error e => rw [hde] at h; subst h; exact ⟨_, rfl, rfl⟩
          | ok cs =>
            obtain ⟨c, ss⟩ := cs
            rw [hde] at h
            obtain ⟨π, πs, rfl, h1, h2⟩ := h
            refine ⟨.ok (1 :: π, πs.map (1 :: ·) ++ [[2]]), ?_, _, _, rfl, (fun ini => by rw [walk_cons_left]; exact h1 ini), ?_⟩
            · rw [Except.bind_ok]; exact eval_cls_at (walk_right p l r)
            · exact List.rel_append (List.forall₂_map_left_iff.mpr (h2.imp fun _ _ h ini => h ini)) (.cons (fun ini => rfl) .nil)
    · rw [if_neg hq, if_neg hq]
      exact ⟨_, rfl, [], [], rfl, (fun _ => rfl), .nil⟩

/-- `self[key]` on the proof is `self[key]` on the tree. -/
theorem eval_locate (hk : Prefixes τ k2p kp) (t : MB (Key τ) TVal) (n : Nat) (key : Key τ) (hn : t.height < n) :
    ∃ x, (locate m k2p n key.1).eval T H ini (emb m t) = .ok x ∧
    match t.getItem (cls T H τ kv kp) key with
    | .ok v => ∃ π, x = .ok π ∧ ∀ ini, (TVal.sub (emb m t)).walk T ini π = .ok v
    | .error e => x = .error e := by
  obtain ⟨x, hx, h⟩ := eval_descend (T := T) (H := H) (ini := ini) (m := m) (kp key) t n hn
  have e0 : (cls T H τ kv kp).key2prefix key = kp key := rfl
  unfold locate MB.getItem
  rw [eval_bind, e0]
  simp only [Prog.eval, hk.eq key, Except.bind_ok]
  rw [eval_bind, hx]
  cases hd : t.descend (kp key) with
  | error e => rw [hd] at h; subst h; exact ⟨_, rfl, rfl⟩
  | ok cs =>
    obtain ⟨c, ss⟩ := cs
    rw [hd] at h
    obtain ⟨π, πs, rfl, h1, h2⟩ := h
    simp only [Except.bind_ok]
    rw [eval_cls_at (h1 ini)]
    cases c with
    | empty => exact ⟨_, by rw [emb_cls_empty, if_neg (by omega)]; rfl, rfl⟩
    | inner p l r => exact ⟨_, by rw [emb_cls_inner, if_neg (by omega)]; rfl, rfl⟩
    | leaf k' v =>
      rw [emb_cls_leaf, if_pos rfl]
      have hw : (TVal.sub (emb m t)).walk T ini (π ++ [0]) = .ok (.prim k'.1) := by
        rw [walk_append, h1, Except.bind_ok]; rfl
      rw [eval_read_here hw]
      by_cases hkk : k' = key
      · subst hkk
        refine ⟨.ok (π ++ [1]), by simp only [if_true]; rfl, ?_⟩
        simp only [if_true]
        exact ⟨_, rfl, fun ini => by rw [walk_append, h1, Except.bind_ok]; exact walk_value k' v⟩
      · have hne : ¬ (some k'.1 = some key.1) := by
          intro h
          exact hkk (Subtype.ext (Option.some.inj h))
        refine ⟨.error .keyError, by simp only [if_neg hne]; rfl, ?_⟩
        simp only [if_neg hkk]

/-! ## Reading -/

theorem getItem_rep (hT : T.WF) (hk : Prefixes τ k2p kp) {s : PState} (hs : Reachable T H s) {r : Nat} {t : MB (Key τ) TVal} (hr : Represents s r (emb m t)) (key : Key τ) :
    match t.getItem (cls T H τ kv kp) key with
    | .ok tv => ∃ v s', getItem m k2p T H r key.1 s = (.ok v, s') ∧ Steps T H s s' ∧ v.Rep s' tv
    | .error e => (getItem m k2p T H r key.1 s).1 = .error e := by
  have h1 := depth_le_objs hT hs hr
  have h2 := depth_emb (m := m) t
  obtain ⟨x, hx, h⟩ := eval_locate (T := T) (H := H) (ini := s.inited) (m := m) (kv := kv) hk t (s.objs.length + 1) key (by omega)
  have hv := runM_val hT (locate m k2p (s.objs.length + 1) key.1) hs hr
  rw [hx, Except.bind_ok] at hv
  cases hg : t.getItem (cls T H τ kv kp) key with
  | error e =>
    rw [hg] at h
    subst h
    show (getItem m k2p T H r key.1 s).1 = _
    unfold getItem
    rw [HM.bind_apply]
    rcases he : (locate m k2p (s.objs.length + 1) key.1).runM T H r s with ⟨y, s'⟩
    rw [he] at hv
    cases hv
    rfl
  | ok tv =>
    rw [hg] at h
    obtain ⟨π, rfl, hw⟩ := h
    obtain ⟨s1, e1, st1⟩ := runM_ok (p := locate m k2p (s.objs.length + 1) key.1) hT hs hr hx
    have hs1 : Reachable T H s1 := Steps.trans hs st1
    obtain ⟨st2, _, h4⟩ := walk_rep hT hs1 (st1.represents hT hs hr) π
    obtain ⟨v, hv, hrep⟩ := h4 tv (hw _)
    refine ⟨v, _, ?_, Steps.trans st1 st2, hrep⟩
    unfold getItem
    rw [bind_ok e1]
    exact Prod.ext hv rfl

theorem toList_rep (hT : T.WF) {s : PState} (hs : Reachable T H s) {r i : Nat} (hi : i = 0 ∨ i = 1) {t : MB (Key τ) TVal} (hr : Represents s r (emb m t)) :
    ∃ vs s', toList m T H i r s = (.ok vs, s') ∧ Steps T H s s' ∧ Mmr.AllRep s' vs (column i t) := by
  have h1 := depth_le_objs hT hs hr
  have h2 := depth_emb (m := m) t
  obtain ⟨πs, hx, h⟩ := eval_places (T := T) (H := H) (ini := s.inited) (m := m) hi t (s.objs.length + 1) (by omega)
  obtain ⟨s1, e1, st1⟩ := runM_ok (p := places m i (s.objs.length + 1)) hT hs hr hx
  have hs1 : Reachable T H s1 := Steps.trans hs st1
  obtain ⟨vs, s2, e2, st2, hvs⟩ := Mmr.walks_rep hT hs1 (st1.represents hT hs hr) h
  exact ⟨vs, s2, by unfold toList; rw [bind_ok e1, e2], Steps.trans st1 st2, hvs⟩

theorem length_rep (hT : T.WF) {s : PState} (hs : Reachable T H s) {r : Nat} {t : MB (Key τ) TVal} (hr : Represents s r (emb m t)) {a : Nat} (h : t.len = .ok a) :
    ∃ s', length m T H r s = (.ok a, s') ∧ Steps T H s s' := by
  have h1 := depth_le_objs hT hs hr
  have h2 := depth_emb (m := m) t
  exact runM_ok (p := len m (s.objs.length + 1)) hT hs hr (by rw [eval_len t _ (by omega), h])

/-! ## Making nodes -/

/-- The action gives an object standing for the tree, or raises. -/
def Does (T : Table) (H : HashFns) (m : Nat) {τ : PrimTy} (s : PState) (x : HM Nat) : Py (MB (Key τ) TVal) → Prop
  | .ok t => Makes T H s x (emb m t)
  | .error e => (x s).1 = .error e

theorem fail_of {α β} {x : HM α} {f : α → HM β} {s : PState} {e : PyErr} (h : (x s).1 = .error e) : ((x >>= f) s).1 = .error e := by
  rw [HM.bind_apply]
  rcases he : x s with ⟨y, s'⟩
  rw [he] at h
  cases h
  rfl

theorem Does.bind {s : PState} {x : HM Nat} {y : Py (MB (Key τ) TVal)} {f : Nat → HM Nat} {g : MB (Key τ) TVal → Py (MB (Key τ) TVal)} (h : Does T H m s x y)
    (hf : ∀ r s' t, Steps T H s s' → Represents s' r (emb m t) → Does T H m s' (f r) (g t)) : Does T H m s (x >>= f) (y >>= g) := by
  cases y with
  | error e => exact fail_of h
  | ok t =>
    obtain ⟨r, s', e, st, hr⟩ := h
    have h2 := hf r s' t st hr
    rw [Except.bind_ok]
    cases hg : g t with
    | error e' =>
      rw [hg] at h2
      show ((x >>= f) s).1 = _
      rw [bind_ok e]
      exact h2
    | ok u =>
      rw [hg] at h2
      obtain ⟨r', s'', e', st', hr'⟩ := h2
      exact ⟨r', s'', by rw [bind_ok e, e'], Steps.trans st st', hr'⟩

theorem Does.after {s s' : PState} {x : HM Nat} {x' : HM Nat} {y : Py (MB (Key τ) TVal)} (st : Steps T H s s') (he : x s = x' s') (h : Does T H m s' x' y) : Does T H m s x y := by
  cases y with
  | error e => show (x s).1 = _; rw [he]; exact h
  | ok t =>
    obtain ⟨r, s'', e, st', hr⟩ := h
    exact ⟨r, s'', by rw [he, e], Steps.trans st st', hr⟩

theorem inst_variant (t : MB (Key τ) TVal) : [m + 1, m + 2, m + 3].any (T.isInst (emb m t).cls) = true := by
  cases t <;> simp [Table.isInst]

theorem mkEmpty_makes (hT : T.WF) (hD : Declares T H m tag τ kv) {s : PState} (hs : Reachable T H s) :
    Makes T H s (Prf.new T (m + 1) []) (emb m (.empty : MB (Key τ) TVal)) :=
  new_makes hT hs (m + 1) (vs := []) (fs := .nil) .nil (by rw [hD.empty]; trivial) (by rw [hD.empty]; rfl)

theorem mkLeaf_makes (hT : T.WF) (hD : Declares T H m tag τ kv) {s : PState} (hs : Reachable T H s) {key : Key τ} {v : HVal} {tv : TVal} (hv : v.Rep s tv)
    (h : Mmr.accepts T kv tv = .ok ()) : Makes T H s (mkLeaf m T key.1 v) (emb m (.leaf key tv)) := by
  have hck : (PFields.prim key.1 (PFields.cons tv .nil)).Checked T (T (m + 2)).attrs := by
    rw [hD.leaf, PFields.Checked]
    refine ⟨key.2, Mmr.accepts_checked h fun t ht => ?_⟩
    subst ht
    cases v with
    | prim v => exact hv.elim
    | ref r => exact hs.checked hT hv
  refine new_makes hT hs (m + 2) ?_ hck (by rw [hD.leaf]; rfl)
  cases v <;> cases tv <;> simp only [HVal.Rep] at hv
  · subst hv; exact .prim (.prim .nil)
  · exact .prim (.ref hv .nil)

theorem pfx_ok (hT : T.WF) (hk : Prefixes τ k2p kp) {s : PState} (hs : Reachable T H s) {r : Nat} {t : MB (Key τ) TVal} (hr : Represents s r (emb m t)) :
    ∃ s', (pfx m k2p).runM T H r s = (.ok (t.pfx (cls T H τ kv kp)), s') ∧ Steps T H s s' :=
  runM_ok hT hs hr (by rw [eval_pfx hk])

theorem newInner (hT : T.WF) (hD : Declares T H m tag τ kv) {s : PState} (hs : Reachable T H s) {l r : Nat} {a b : MB (Key τ) TVal} (p : List Bool)
    (hl : Represents s l (emb m a)) (hr : Represents s r (emb m b)) : Makes T H s (Prf.new T (m + 3) [.prim (.bits p), .ref l, .ref r]) (emb m (.inner p a b)) :=
  new_makes hT hs (m + 3) (RepVals.prim (.ref hl (.ref hr .nil)))
    (by
      rw [hD.inner]
      simp only [PFields.Checked, hD.base]
      refine ⟨rfl, ?_, hs.checked hT hl, ?_, hs.checked hT hr, trivial⟩
      · intro us hus; cases hus; exact inst_variant a
      · intro us hus; cases hus; exact inst_variant b) (by rw [hD.inner]; rfl)

theorem mkInner_does (hT : T.WF) (hD : Declares T H m tag τ kv) (hk : Prefixes τ k2p kp) {s : PState} (hs : Reachable T H s) {l r : Nat} {a b : MB (Key τ) TVal}
    (hl : Represents s l (emb m a)) (hr : Represents s r (emb m b)) : Does T H m s (mkInner m k2p T H l r) (MB.mkInner (cls T H τ kv kp) a b) := by
  obtain ⟨s1, e1, st1⟩ := pfx_ok (kv := kv) hT hk hs hl
  have hs1 : Reachable T H s1 := Steps.trans hs st1
  obtain ⟨s2, e2, st2⟩ := pfx_ok (kv := kv) hT hk hs1 (st1.represents hT hs hr)
  have hs2 : Reachable T H s2 := Steps.trans hs1 st2
  have st := Steps.trans st1 st2
  have hl2 := st.represents hT hs hl
  have hr2 := st.represents hT hs hr
  unfold mkInner MB.mkInner
  refine Does.after st (by rw [bind_ok e1, bind_ok e2]) ?_
  generalize a.pfx (cls T H τ kv kp) = pa
  generalize b.pfx (cls T H τ kv kp) = pb
  by_cases h1 : pa ≠ pb
  · have g1 : pyAssert (decide (pa ≠ pb)) = .ok () := by simp [pyAssert, h1]
    rw [g1]
    simp only [Except.bind_ok]
    refine Does.after .refl (lift_bind rfl) ?_
    by_cases h2 : (commonPrefix pa pb).length < pa.length ∧ (commonPrefix pa pb).length ≤ pb.length
    · have g2 : pyAssert (decide ((commonPrefix pa pb).length < pa.length ∧ (commonPrefix pa pb).length ≤ pb.length)) = .ok () := by simp only [pyAssert, h2]; rfl
      rw [g2]
      simp only [Except.bind_ok]
      refine Does.after .refl (lift_bind rfl) ?_
      cases pb[(commonPrefix pa pb).length]? with
      | none => rfl
      | some x =>
        cases x with
        | true => exact newInner hT hD hs2 _ hl2 hr2
        | false => exact newInner hT hD hs2 _ hr2 hl2
    · have g2 : pyAssert (decide ((commonPrefix pa pb).length < pa.length ∧ (commonPrefix pa pb).length ≤ pb.length)) = .error .assertion := by simp only [pyAssert, decide_eq_false h2]; rfl
      rw [g2]
      exact fail_of rfl
  · have g1 : pyAssert (decide (pa ≠ pb)) = .error .assertion := by simp only [pyAssert, decide_eq_false h1]; rfl
    rw [g1]
    exact fail_of rfl

/-- The objects stand for the trees. -/
def NodesRep (m : Nat) {τ : PrimTy} (s : PState) : List Nat → List (MB (Key τ) TVal) → Prop := List.Forall₂ (fun r t => Represents s r (emb m t))

theorem NodesRep.steps (hT : T.WF) {s s' : PState} (hs : Reachable T H s) (hst : Steps T H s s') {rs : List Nat} {ts : List (MB (Key τ) TVal)} (h : NodesRep m s rs ts) : NodesRep m s' rs ts :=
  List.Forall₂.imp (fun _ _ hr => hst.represents hT hs hr) h

theorem node_rep (hT : T.WF) {r : Nat} {t u : PTree} {π : List Nat} {s : PState} (hs : Reachable T H s) (hr : Represents s r t) (h : ∀ ini, (TVal.sub t).walk T ini π = .ok (.sub u)) :
    Makes T H s (Prog.walk T (.ref r) π >>= Prog.asProof) u := by
  obtain ⟨st1, _, h4⟩ := walk_rep hT hs hr π
  obtain ⟨v, hv, hrep⟩ := h4 (.sub u) (h _)
  cases v with
  | prim v => exact hrep.elim
  | ref c => exact ⟨c, _, by rw [bind_ok (Prod.ext hv rfl)]; rfl, st1, hrep⟩

theorem nodes_rep (hT : T.WF) {r : Nat} {t : PTree} : ∀ {πs : List (List Nat)} {us : List (MB (Key τ) TVal)} {s : PState}, Reachable T H s → Represents s r t →
    List.Forall₂ (fun π u => ∀ ini, (TVal.sub t).walk T ini π = .ok (.sub (emb m u))) πs us → ∃ cs s', nodes T r πs s = (.ok cs, s') ∧ Steps T H s s' ∧ NodesRep m s' cs us
  | _, _, s, _, _, .nil => ⟨[], s, rfl, .refl, .nil⟩
  | _, _, s, hs, hr, .cons (a := π) (b := u) h hh => by
    obtain ⟨c, s1, e1, st1, hc⟩ := node_rep hT hs hr h
    obtain ⟨v, s0, e0, e1⟩ := HM.bind_ok_inv e1
    have hs1 : Reachable T H s1 := Steps.trans hs st1
    obtain ⟨cs, s2, e2, st2, hcs⟩ := nodes_rep hT hs1 (st1.represents hT hs hr) hh
    refine ⟨c :: cs, s2, ?_, Steps.trans st1 st2, .cons (st2.represents hT hs1 hc) hcs⟩
    rw [nodes, bind_ok e0, bind_ok e1, bind_ok e2]
    rfl

theorem descendM_rep (hT : T.WF) {s : PState} (hs : Reachable T H s) {r : Nat} {t : MB (Key τ) TVal} (hr : Represents s r (emb m t)) (q : List Bool) :
    match t.descend q with
    | .ok (c, us) => ∃ x xs s', descendM m T H r q s = (.ok (x, xs), s') ∧ Steps T H s s' ∧ Represents s' x (emb m c) ∧ NodesRep m s' xs us
    | .error e => (descendM m T H r q s).1 = .error e := by
  have h1 := depth_le_objs hT hs hr
  have h2 := depth_emb (m := m) t
  obtain ⟨x, hx, h⟩ := eval_descend (T := T) (H := H) (ini := s.inited) (m := m) q t (s.objs.length + 1) (by omega)
  have hv := runM_val hT (descend m q (s.objs.length + 1)) hs hr
  rw [hx, Except.bind_ok] at hv
  cases hg : t.descend q with
  | error e =>
    rw [hg] at h
    subst h
    exact fail_of hv
  | ok cu =>
    obtain ⟨c, us⟩ := cu
    rw [hg] at h
    obtain ⟨π, πs, rfl, hw, hws⟩ := h
    obtain ⟨s1, e1, st1⟩ := runM_ok (p := descend m q (s.objs.length + 1)) hT hs hr hx
    have hs1 : Reachable T H s1 := Steps.trans hs st1
    obtain ⟨y, s2, e2, st2, hy⟩ := node_rep hT hs1 (st1.represents hT hs hr) hw
    have hs2 : Reachable T H s2 := Steps.trans hs1 st2
    obtain ⟨ys, s3, e3, st3, hys⟩ := nodes_rep hT hs2 ((Steps.trans st1 st2).represents hT hs hr) hws
    obtain ⟨v, s0, e0, e2⟩ := HM.bind_ok_inv e2
    refine ⟨y, ys, s3, ?_, Steps.trans st1 (Steps.trans st2 st3), st3.represents hT hs2 hy, hys⟩
    unfold descendM
    rw [bind_ok e1, bind_ok e0, bind_ok e2, bind_ok e3]
    rfl

theorem rebuild_does (hT : T.WF) (hD : Declares T H m tag τ kv) (hk : Prefixes τ k2p kp) : ∀ {cs : List Nat} {us : List (MB (Key τ) TVal)} {s : PState} {tip : Nat} {t : MB (Key τ) TVal},
    Reachable T H s → Represents s tip (emb m t) → NodesRep m s cs us → Does T H m s (rebuild m k2p T H tip cs) (MB.rebuild (cls T H τ kv kp) t us)
  | _, _, s, tip, t, hs, ht, .nil => ⟨tip, s, rfl, .refl, ht⟩
  | _, _, s, tip, t, hs, ht, .cons h hh => by
    rw [rebuild, MB.rebuild]
    exact Does.bind (mkInner_does hT hD hk hs ht h) fun r s' t st hr => rebuild_does hT hD hk (Steps.trans hs st) hr (NodesRep.steps hT hs st hh)

theorem obj_ok (hT : T.WF) {s : PState} (hs : Reachable T H s) {r : Nat} {t : PTree} (hr : Represents s r t) : ∃ o, HM.obj r s = (.ok o, s) ∧ o.cls = t.cls := by
  obtain ⟨o, ho, hoc⟩ := obj_rep hT hs hr
  exact ⟨o, by unfold HM.obj; rw [ho], hoc⟩

theorem rebuildNonempty_does (hT : T.WF) (hD : Declares T H m tag τ kv) (hk : Prefixes τ k2p kp) : ∀ {cs : List Nat} {us : List (MB (Key τ) TVal)} {s : PState} {tip : Nat} {t : MB (Key τ) TVal},
    Reachable T H s → Represents s tip (emb m t) → NodesRep m s cs us → Does T H m s (rebuildNonempty m k2p T H tip cs) (MB.rebuildNonempty (cls T H τ kv kp) t us)
  | _, _, s, tip, t, hs, ht, .nil => ⟨tip, s, rfl, .refl, ht⟩
  | _, _, s, tip, t, hs, ht, .cons (b := u) h hh => by
    rw [rebuildNonempty]
    unfold MB.rebuildNonempty
    obtain ⟨o, ho, hoc⟩ := obj_ok hT hs h
    refine Does.after .refl (bind_ok ho) ?_
    have go : Does T H m s (do let tip ← mkInner m k2p T H tip _; rebuildNonempty m k2p T H tip _) (do let tip ← MB.mkInner (cls T H τ kv kp) t u; MB.rebuildNonempty (cls T H τ kv kp) tip _) :=
      Does.bind (mkInner_does hT hD hk hs ht h) fun r s' t st hr => rebuildNonempty_does hT hD hk (Steps.trans hs st) hr (NodesRep.steps hT hs st hh)
    cases u with
    | empty =>
      have : pyAssert (decide (o.cls ≠ m + 1)) = .error .assertion := by rw [hoc]; simp [pyAssert]
      rw [this]
      exact fail_of rfl
    | leaf k v =>
      have : pyAssert (decide (o.cls ≠ m + 1)) = .ok () := by rw [hoc]; simp [pyAssert]
      exact Does.after .refl (lift_bind this) go
    | inner p l r =>
      have : pyAssert (decide (o.cls ≠ m + 1)) = .ok () := by rw [hoc]; simp [pyAssert]
      exact Does.after .refl (lift_bind this) go

/-- `put` on objects is `put` on trees. -/
theorem put_does (hT : T.WF) (hD : Declares T H m tag τ kv) (hk : Prefixes τ k2p kp) {s : PState} (hs : Reachable T H s) {r : Nat} {t : MB (Key τ) TVal}
    (hr : Represents s r (emb m t)) {key : Key τ} {v : HVal} {tv : TVal} (hv : v.Rep s tv) (hc : Mmr.accepts T kv tv = .ok ()) :
    Does T H m s (put m k2p T H r key.1 v) (t.put (cls T H τ kv kp) key tv) := by
  obtain ⟨lf, s1, e1, st1, hlf⟩ := mkLeaf_makes hT hD hs (key := key) hv hc
  have hs1 : Reachable T H s1 := Steps.trans hs st1
  obtain ⟨s2, e2, st2⟩ := pfx_ok (kv := kv) hT hk hs1 hlf
  have hs2 : Reachable T H s2 := Steps.trans hs1 st2
  have st := Steps.trans st1 st2
  have hde := descendM_rep hT hs2 (st.represents hT hs hr) ((MB.leaf key tv).pfx (cls T H τ kv kp))
  unfold put MB.put
  have hml : MB.mkLeaf (cls T H τ kv kp) key tv = .ok (.leaf key tv) := by
    unfold MB.mkLeaf
    show (do Except.ok (); Mmr.accepts T kv tv; return _ : Py _) = _
    rw [hc]; rfl
  rw [hml, Except.bind_ok]
  refine Does.after st (by rw [bind_ok e1, bind_ok e2]) ?_
  cases hd : t.descend ((MB.leaf key tv).pfx (cls T H τ kv kp)) with
  | error e => rw [hd] at hde; exact fail_of hde
  | ok cu =>
    obtain ⟨c, us⟩ := cu
    rw [hd] at hde
    obtain ⟨x, xs, s3, e3, st3, hx, hxs⟩ := hde
    have hs3 : Reachable T H s3 := Steps.trans hs2 st3
    obtain ⟨o, ho, hoc⟩ := obj_ok hT hs3 hx
    refine Does.after st3 (by rw [bind_ok e3, bind_ok ho]) ?_
    have hlf3 := (Steps.trans st2 st3).represents hT hs1 hlf
    have step : Does T H m s3 (do let tip ← mkInner m k2p T H lf x; rebuild m k2p T H tip xs) (do let tip ← MB.mkInner (cls T H τ kv kp) (.leaf key tv) c; MB.rebuild (cls T H τ kv kp) tip us) :=
      Does.bind (mkInner_does hT hD hk hs3 hlf3 hx) fun r s' t st hr => rebuild_does hT hD hk (Steps.trans hs3 st) hr (NodesRep.steps hT hs3 st hxs)
    cases c with
    | empty =>
      rw [if_pos (by rw [hoc]; rfl)]
      exact ⟨lf, s3, rfl, .refl, hlf3⟩
    | leaf k' v' => rw [if_neg (by rw [hoc]; simp)]; exact step
    | inner p l r => rw [if_neg (by rw [hoc]; simp)]; exact step

/-- `remove` on objects is `remove` on trees. -/
theorem remove_does (hT : T.WF) (hD : Declares T H m tag τ kv) (hk : Prefixes τ k2p kp) {s : PState} (hs : Reachable T H s) {r : Nat} {t : MB (Key τ) TVal}
    (hr : Represents s r (emb m t)) (key : Key τ) :
    Does T H m s (remove m k2p T H r key.1) (t.remove (cls T H τ kv kp) key) := by
  have hde := descendM_rep hT hs hr (kp key)
  unfold remove MB.remove
  refine Does.after .refl (lift_bind (hk.eq key)) ?_
  show Does T H m s _ (t.descend (kp key) >>= _)
  cases hd : t.descend (kp key) with
  | error e => rw [hd] at hde; exact fail_of hde
  | ok cu =>
    obtain ⟨c, us⟩ := cu
    rw [hd] at hde
    obtain ⟨x, xs, s3, e3, st3, hx, hxs⟩ := hde
    have hs3 : Reachable T H s3 := Steps.trans hs st3
    obtain ⟨o, ho, hoc⟩ := obj_ok hT hs3 hx
    refine Does.after st3 (by rw [bind_ok e3, bind_ok ho]) ?_
    rw [Except.bind_ok]
    cases c with
    | empty => rw [if_neg (by rw [hoc]; simp)]; rfl
    | inner p l r => rw [if_neg (by rw [hoc]; simp)]; rfl
    | leaf k' v' =>
      rw [if_pos (by rw [hoc]; simp)]
      obtain ⟨st4, h4, _⟩ := getAttr_rep hT hs3 hx 0
      obtain ⟨w, hw, hwr⟩ := h4 (.prim k'.1) rfl
      cases w with
      | ref w => exact hwr.elim
      | prim w =>
        simp only [HVal.Rep] at hwr
        subst hwr
        have hs4 : Reachable T H _ := Steps.trans hs3 st4
        refine Does.after st4 (bind_ok (Prod.ext hw rfl)) ?_
        by_cases hkk : k' = key
        · subst hkk
          simp only [if_true]
          cases hxs with
          | nil => exact mkEmpty_makes hT hD hs4
          | cons h hh => exact rebuildNonempty_does hT hD hk hs4 (st4.represents hT hs3 h) (NodesRep.steps hT hs3 st4 hh)
        · rw [if_neg (fun h => hkk (Subtype.ext (by simpa using h)))]
          simp only [if_neg hkk]
          rfl

/-- The keys and values stand for those of an association list. -/
def PairsRep (s : PState) {τ : PrimTy} (kvs : List (PVal × HVal)) (xs : List (Key τ × TVal)) : Prop :=
  List.Forall₂ (fun a b => a.1 = b.1.1 ∧ a.2.Rep s b.2) kvs xs

theorem putAll_does (hT : T.WF) (hD : Declares T H m tag τ kv) (hk : Prefixes τ k2p kp) : ∀ {kvs : List (PVal × HVal)} {xs : List (Key τ × TVal)} {s : PState} {r : Nat} {t : MB (Key τ) TVal},
    Reachable T H s → Represents s r (emb m t) → PairsRep s kvs xs → (∀ x ∈ xs, Mmr.accepts T kv x.2 = .ok ()) →
    Does T H m s (putAll m k2p T H r kvs) (MB.ofPairs (cls T H τ kv kp) t xs)
  | _, _, s, r, t, hs, ht, .nil, _ => ⟨r, s, rfl, .refl, ht⟩
  | (key, v) :: _, (x, tv) :: _, s, r, t, hs, ht, .cons h hh, hc => by
    obtain ⟨h1, h2⟩ := h
    simp only at h1 h2
    subst h1
    rw [putAll, MB.ofPairs]
    refine Does.bind (put_does hT hD hk hs ht h2 (hc (x, tv) (by simp))) fun r s' t st hr => putAll_does hT hD hk (Steps.trans hs st) hr ?_ fun y hy => hc y (List.mem_cons_of_mem _ hy)
    exact List.Forall₂.imp (fun _ _ hr => ⟨hr.1, hr.2.steps hT hs st⟩) hh

/-! ## Hashes -/

theorem emb_hash (hD : Declares T H m tag τ kv) {t : MB (Key τ) TVal} (hv : ∀ x ∈ t.pairs, (∃ b, τ.ser x.1.1 = .ok b) ∧ ∃ b, (PFields.cons x.2 .nil).hashBytes T H [kv] = .ok b) :
    (emb m t).hash T H = .ok (t.hash (cls T H τ kv kp) H tag) := by
  induction t with
  | empty => simp [emb, PTree.hash, hD.empty, PFields.hashBytes, Prf.tagHash, MB.hash, Except.bind_ok]
  | leaf k v =>
    obtain ⟨⟨a, ha⟩, b, hb⟩ := hv (k, v) (by simp [MB.pairs])
    simp [emb, PTree.hash, hD.leaf, hb, ha, Prf.tagHash, MB.hash, Except.bind_ok, cls, Mmr.valueSer, PFields.hashBytes]
  | inner p l r ih1 ih2 =>
    have h1 := ih1 fun v h => hv v (by rw [MB.pairs]; exact List.mem_append_left _ h)
    have h2 := ih2 fun v h => hv v (by rw [MB.pairs]; exact List.mem_append_right _ h)
    obtain ⟨b, hb⟩ : ∃ b, (Bits.ofIter p).serialize = .ok b := ⟨_, Bits.serialize_ofIter p⟩
    simp [emb, PTree.hash, hD.inner, PFields.hashBytes, h1, h2, Prf.tagHash, MB.hash, Except.bind_ok, PrimTy.ser, MB.prefixBytes, hb]
end Merb
end Verif
