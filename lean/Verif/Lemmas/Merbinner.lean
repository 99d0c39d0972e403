import Verif.Spec.Merbinner
import Verif.Lemmas.Bits2
import Verif.Lemmas.Codec
import Mathlib.Tactic.Tauto
/-! Merbinner trees: the invariant and what each operation does to it. -/
namespace Verif

theorem commonPrefix_diverge (c : List Bool) {x y : Bool} (h : x ≠ y) (a b : List Bool) :
    commonPrefix (c ++ x :: a) (c ++ y :: b) = c := by
  induction c with
  | nil => simp [commonPrefix, h]
  | cons z c ih => simp [commonPrefix, ih]

theorem commonPrefix_lcp (a b : List Bool) : IsLongestCommonPrefix (commonPrefix a b) a b := by
  induction a generalizing b with
  | nil =>
    cases b <;> exact ⟨by simp [commonPrefix], by simp [commonPrefix], fun q h _ => by simpa [commonPrefix] using h⟩
  | cons x a ih =>
    cases b with
    | nil => exact ⟨by simp [commonPrefix], by simp [commonPrefix], fun q _ h => by simpa [commonPrefix] using h⟩
    | cons y b =>
      obtain ⟨h1, h2, h3⟩ := ih b
      by_cases hxy : x = y
      · subst hxy
        simp only [commonPrefix, if_true]
        refine ⟨by simpa using h1, by simpa using h2, ?_⟩
        intro q hq1 hq2
        cases q with
        | nil => simp
        | cons z q =>
          rw [List.cons_prefix_cons] at hq1 hq2 ⊢
          exact ⟨hq1.1, h3 q hq1.2 hq2.2⟩
      · simp only [commonPrefix, if_neg hxy]
        refine ⟨by simp, by simp, ?_⟩
        intro q hq1 hq2
        cases q with
        | nil => simp
        | cons z q =>
          rw [List.cons_prefix_cons] at hq1 hq2
          exact absurd (hq1.1.symm.trans hq2.1) hxy

theorem diverge : ∀ {a b : List Bool}, ¬ a <+: b → ¬ b <+: a →
    ∃ c x a' b', a = c ++ x :: a' ∧ b = c ++ (!x) :: b'
  | [], b, h, _ => absurd (List.nil_prefix) h
  | _ :: _, [], _, h => absurd (List.nil_prefix) h
  | x :: a, y :: b, h1, h2 => by
    by_cases hxy : x = y
    · subst hxy
      obtain ⟨c, z, a', b', h3, h4⟩ := @diverge a b (fun h => h1 (by simpa using h)) (fun h => h2 (by simpa using h))
      exact ⟨x :: c, z, a', b', by rw [h3]; rfl, by rw [h4]; rfl⟩
    · refine ⟨[], x, a, b, rfl, ?_⟩
      cases x <;> cases y <;> simp_all

theorem prefix_snoc_cases {p q : List Bool} (h : p <+: q) (hne : p ≠ q) : ∃ b, p ++ [b] <+: q := by
  obtain ⟨s, rfl⟩ := h
  cases s with
  | nil => simp at hne
  | cons b s => exact ⟨b, ⟨s, by simp⟩⟩

theorem snoc_prefix_unique {p q : List Bool} {a b : Bool} (h : p ++ [a] <+: q) (h' : p ++ [b] <+: q) : a = b := by
  obtain ⟨s, rfl⟩ := h
  obtain ⟨s', h⟩ := h'
  simp at h
  exact h.1.symm

theorem prefix_of_snoc {p q : List Bool} {a : Bool} (h : p ++ [a] <+: q) : p <+: q := (List.prefix_append p [a]).trans h

theorem getElem?_of_snoc {p q : List Bool} {a : Bool} (h : p ++ [a] <+: q) : q[p.length]? = some a := by
  obtain ⟨s, rfl⟩ := h
  simp

namespace MB
set_option linter.unusedSectionVars false
variable {K V : Type} [DecidableEq K] {C : MBClass K V}

theorem keys_eq (t : MB K V) : t.keys = t.pairs.map (·.1) := by
  induction t with
  | empty => rfl
  | leaf => rfl
  | inner p l r ih1 ih2 => simp [keys, pairs, ih1, ih2]

theorem values_eq (t : MB K V) : t.values = t.pairs.map (·.2) := by
  induction t with
  | empty => rfl
  | leaf => rfl
  | inner p l r ih1 ih2 => simp [values, pairs, ih1, ih2]

theorem items_eq (t : MB K V) : t.items = t.pairs := by
  unfold items
  rw [keys_eq, values_eq, List.zip_map', List.map_id'']
  intro x; rfl

theorem WF.nonempty {t : MB K V} (h : WF C t) : ∃ kv, kv ∈ t.pairs := by
  induction h with
  | leaf k v => exact ⟨(k, v), by simp [pairs]⟩
  | inner _ _ _ _ ih _ => obtain ⟨kv, h⟩ := ih; exact ⟨kv, by simp [pairs, h]⟩

theorem WF.pfx_prefix {t : MB K V} (h : WF C t) : ∀ kv ∈ t.pairs, t.pfx C <+: C.key2prefix kv.1 := by
  cases h with
  | leaf k v => intro kv hkv; simp only [pairs, List.mem_singleton] at hkv; subst hkv; exact List.prefix_rfl
  | inner h1 h2 h3 h4 =>
    intro kv hkv
    rcases List.mem_append.mp hkv with h | h
    · exact prefix_of_snoc (h3 kv h)
    · exact prefix_of_snoc (h4 kv h)

theorem WF.pfx_longest {t : MB K V} (h : WF C t) {q : List Bool} (hq : ∀ kv ∈ t.pairs, q <+: C.key2prefix kv.1) :
    q <+: t.pfx C := by
  cases h with
  | leaf k v => exact hq (k, v) (by simp [pairs])
  | @inner p l r h1 h2 h3 h4 =>
    obtain ⟨kl, hl⟩ := h1.nonempty
    obtain ⟨kr, hr⟩ := h2.nonempty
    have a1 := h3 kl hl
    have a2 := h4 kr hr
    have b1 := hq kl (by simp [pairs, hl])
    have b2 := hq kr (by simp [pairs, hr])
    change q <+: p
    rcases List.prefix_or_prefix_of_prefix b1 a1 with h | h
    · rcases Nat.lt_or_ge p.length q.length with hlt | hge
      · have : q = p ++ [false] := h.eq_of_length (by have := h.length_le; simp at this ⊢; omega)
        subst this
        exact absurd (snoc_prefix_unique b2 a2) (by decide)
      · exact List.prefix_of_prefix_length_le h (List.prefix_append p [false]) hge
    · exact absurd (snoc_prefix_unique (h.trans b2) a2) (by decide)

theorem mkInner_diverge {a b : MB K V} {c : List Bool} {x : Bool} (ha : c ++ [x] <+: a.pfx C) (hb : c ++ [!x] <+: b.pfx C) :
    mkInner C a b = .ok (if x then .inner c b a else .inner c a b) := by
  obtain ⟨a', ha⟩ := ha
  obtain ⟨b', hb⟩ := hb
  rw [List.append_assoc, List.singleton_append] at ha hb
  unfold mkInner
  have hc : commonPrefix (a.pfx C) (b.pfx C) = c := by
    rw [← ha, ← hb]; exact commonPrefix_diverge c (by cases x <;> simp) _ _
  have hne : a.pfx C ≠ b.pfx C := by
    rw [← ha, ← hb]; cases x <;> simp
  have hi : (b.pfx C)[c.length]? = some (!x) := by rw [← hb]; simp
  have hl : c.length < (a.pfx C).length ∧ c.length ≤ (b.pfx C).length := by rw [← ha, ← hb]; simp
  simp only [hc, hi, hne, hl, pyAssert, ne_eq, not_false_eq_true, decide_true, if_true, and_self, Except.bind_ok]
  cases x <;> rfl

/-- Joining two well-formed trees whose keys part after `c`. -/
theorem join {a b : MB K V} (ha : WF C a) (hb : WF C b) {c : List Bool} {x : Bool}
    (h1 : ∀ kv ∈ a.pairs, c ++ [x] <+: C.key2prefix kv.1) (h2 : ∀ kv ∈ b.pairs, c ++ [!x] <+: C.key2prefix kv.1) :
    ∃ t, mkInner C a b = .ok t ∧ WF C t ∧ t.pairs.Perm (a.pairs ++ b.pairs) := by
  refine ⟨_, mkInner_diverge (ha.pfx_longest h1) (hb.pfx_longest h2), ?_, ?_⟩
  · cases x
    · exact .inner ha hb h1 h2
    · exact .inner hb ha h2 h1
  · cases x
    · exact List.Perm.refl _
    · exact List.perm_append_comm

/-- `k` shares no prefix relation with any key of `t`. -/
def Fresh (C : MBClass K V) (t : MB K V) (q : List Bool) : Prop :=
  ∀ kv ∈ t.pairs, ¬ q <+: C.key2prefix kv.1 ∧ ¬ C.key2prefix kv.1 <+: q

theorem rebuild_append (tip : MB K V) (s : List (MB K V)) (x : MB K V) :
    rebuild C tip (s ++ [x]) = (do let t ← rebuild C tip s; mkInner C t x) := by
  induction s generalizing tip with
  | nil =>
    simp only [List.nil_append, rebuild, Except.bind_ok]
    cases mkInner C tip x <;> rfl
  | cons y s ih =>
    simp only [List.cons_append, rebuild]
    cases h : mkInner C tip y with
    | error e => rfl
    | ok t => simp only [Except.bind_ok]; exact ih t

theorem rebuildNonempty_append (tip : MB K V) (s : List (MB K V)) (x : MB K V) (hx : x ≠ .empty) :
    rebuildNonempty C tip (s ++ [x]) = (do let t ← rebuildNonempty C tip s; mkInner C t x) := by
  induction s generalizing tip with
  | nil =>
    simp only [List.nil_append, rebuildNonempty, Except.bind_ok]
    cases x with
    | empty => exact absurd rfl hx
    | leaf k v => simp only [pyAssert, if_true, Except.bind_ok]; cases mkInner C tip (leaf k v) <;> rfl
    | inner p l r => simp only [pyAssert, if_true, Except.bind_ok]; cases mkInner C tip (inner p l r) <;> rfl
  | cons y s ih =>
    simp only [List.cons_append, rebuildNonempty]
    cases y with
    | empty => rfl
    | leaf k v =>
      simp only [pyAssert, if_true, Except.bind_ok]
      cases h : mkInner C tip (leaf k v) with
      | error e => rfl
      | ok t => simp only [Except.bind_ok]; exact ih t
    | inner p l r =>
      simp only [pyAssert, if_true, Except.bind_ok]
      cases h : mkInner C tip (inner p l r) with
      | error e => rfl
      | ok t => simp only [Except.bind_ok]; exact ih t

theorem descend_step {p q : List Bool} {l r : MB K V} {b : Bool} (h : p ++ [b] <+: q) :
    (inner p l r).descend q = (do
      let (c, s) ← (if b then r else l).descend q
      return (c, s ++ [if b then l else r])) := by
  have h1 := getElem?_of_snoc h
  have h2 := prefix_of_snoc h
  rw [descend, if_pos ⟨h2.length_le, by simpa using h2⟩, h1]
  cases b <;> rfl

theorem descend_stop {p q : List Bool} {l r : MB K V} (h : ¬ p <+: q) : (inner p l r).descend q = .ok (inner p l r, []) := by
  unfold descend
  rw [if_neg]
  rintro ⟨_, h2⟩
  exact h (by simpa using h2)

/-- Inserting below `t`. -/
theorem put_below {t : MB K V} (ht : WF C t) {k : K} {v : V} (hf : Fresh C t (C.key2prefix k)) :
    ∃ c s t', t.descend (C.key2prefix k) = .ok (c, s) ∧ WF C c ∧ (∀ kv ∈ c.pairs, kv ∈ t.pairs) ∧
      (do let tip ← mkInner C (leaf k v) c; rebuild C tip s) = .ok t' ∧ WF C t' ∧
      t'.pairs.Perm ((k, v) :: t.pairs) := by
  generalize hq : C.key2prefix k = q at hf
  induction ht with
  | leaf k' v' =>
    have := hf (k', v') (by simp [pairs])
    obtain ⟨c, x, a', b', h1, h2⟩ := diverge this.1 this.2
    obtain ⟨t', h3, h4, h5⟩ := join (WF.leaf k v) (WF.leaf (C := C) k' v') (c := c) (x := x)
      (by intro kv h; simp only [pairs, List.mem_singleton] at h; subst h; exact ⟨a', by rw [hq, h1]; simp⟩)
      (by intro kv h; simp only [pairs, List.mem_singleton] at h; subst h; exact ⟨b', by rw [h2]; simp⟩)
    exact ⟨_, _, t', rfl, WF.leaf _ _, fun _ h => h, by rw [h3]; rfl, h4, h5⟩
  | @inner p l r hl hr h3 h4 ih1 ih2 =>
    by_cases hp : p <+: q
    · have hne : p ≠ q := by
        rintro rfl
        obtain ⟨kv, hkv⟩ := hl.nonempty
        exact (hf kv (by simp [pairs, hkv])).1 (prefix_of_snoc (h3 kv hkv))
      obtain ⟨b, hb⟩ := prefix_snoc_cases hp hne
      cases b with
      | false =>
        obtain ⟨c, s, t', d1, d2, d3, d4, d5, d6⟩ := ih1 (fun kv h => hf kv (by simp [pairs, h]))
        have hd := descend_step (l := l) (r := r) hb
        simp only [Bool.false_eq_true, if_false, d1, Except.bind_ok] at hd
        obtain ⟨t'', j1, j2, j3⟩ := join (C := C) d5 hr (c := p) (x := false)
          (by intro kv h
              rcases List.mem_cons.mp (d6.mem_iff.mp h) with rfl | h
              · rw [hq]; exact hb
              · exact h3 kv h) h4
        refine ⟨c, _, t'', hd, d2, fun kv h => by simp [pairs, d3 kv h], ?_, j2, ?_⟩
        · cases hm : mkInner C (leaf k v) c with
          | error e => rw [hm] at d4; cases d4
          | ok tip =>
            rw [hm] at d4
            simp only [Except.bind_ok] at d4 ⊢
            rw [rebuild_append, d4]
            exact j1
        · exact j3.trans (d6.append_right _)
      | true =>
        obtain ⟨c, s, t', d1, d2, d3, d4, d5, d6⟩ := ih2 (fun kv h => hf kv (by simp [pairs, h]))
        have hd := descend_step (l := l) (r := r) hb
        simp only [if_true, d1, Except.bind_ok] at hd
        obtain ⟨t'', j1, j2, j3⟩ := join (C := C) d5 hl (c := p) (x := true)
          (by intro kv h
              rcases List.mem_cons.mp (d6.mem_iff.mp h) with rfl | h
              · rw [hq]; exact hb
              · exact h4 kv h) h3
        refine ⟨c, _, t'', hd, d2, fun kv h => by simp [pairs, d3 kv h], ?_, j2, ?_⟩
        · cases hm : mkInner C (leaf k v) c with
          | error e => rw [hm] at d4; cases d4
          | ok tip =>
            rw [hm] at d4
            simp only [Except.bind_ok] at d4 ⊢
            rw [rebuild_append, d4]
            exact j1
        · refine j3.trans ((d6.append_right _).trans ?_)
          rw [List.cons_append]
          exact List.Perm.cons _ List.perm_append_comm
    · have hp' : ¬ q <+: p := by
        intro h
        obtain ⟨kv, hkv⟩ := hl.nonempty
        exact (hf kv (by simp [pairs, hkv])).1 (h.trans (prefix_of_snoc (h3 kv hkv)))
      obtain ⟨c, x, a', b', e1, e2⟩ := diverge hp' hp
      have hw : WF C (.inner p l r) := .inner hl hr h3 h4
      obtain ⟨t', j1, j2, j3⟩ := join (WF.leaf k v) hw (c := c) (x := x)
        (by intro kv h; simp only [pairs, List.mem_singleton] at h; subst h; exact ⟨a', by rw [hq, e1]; simp⟩)
        (by intro kv h; exact (show c ++ [!x] <+: p from ⟨b', by rw [e2]; simp⟩).trans (hw.pfx_prefix kv h))
      exact ⟨_, _, t', descend_stop hp, hw, fun _ h => h, by rw [j1]; rfl, j2, j3⟩

/-- Looking for a key that is there. -/
theorem descend_mem {t : MB K V} (ht : WF C t) {k : K} {v : V} (hm : (k, v) ∈ t.pairs)
    (hpf : ∀ kv ∈ t.pairs, ∀ kv' ∈ t.pairs, C.key2prefix kv.1 <+: C.key2prefix kv'.1 → kv.1 = kv'.1) :
    ∃ v' s, t.descend (C.key2prefix k) = .ok (leaf k v', s) ∧ (k, v') ∈ t.pairs ∧ (∀ x ∈ s, WF C x) ∧
      ((s = [] ∧ t = leaf k v') ∨ ∃ tip ss t', s = tip :: ss ∧ rebuildNonempty C tip ss = .ok t' ∧ WF C t' ∧
        t.pairs.Perm ((k, v') :: t'.pairs)) := by
  induction ht with
  | leaf k' v' =>
    simp only [pairs, List.mem_singleton, Prod.mk.injEq] at hm
    obtain ⟨rfl, rfl⟩ := hm
    exact ⟨v, [], rfl, by simp [pairs], by simp, .inl ⟨rfl, rfl⟩⟩
  | @inner p l r hl hr h3 h4 ih1 ih2 =>
    rcases List.mem_append.mp hm with h | h
    · obtain ⟨v', s, d1, d2, d3, d4⟩ := ih1 h (fun a ha b hb => hpf a (by simp [pairs, ha]) b (by simp [pairs, hb]))
      have hd := descend_step (l := l) (r := r) (h3 _ h)
      simp only [Bool.false_eq_true, if_false, d1, Except.bind_ok] at hd
      refine ⟨v', _, hd, by simp [pairs, d2], ?_, .inr ?_⟩
      · intro x hx
        rcases List.mem_append.mp hx with hx | hx
        · exact d3 x hx
        · rw [List.mem_singleton.mp hx]; exact hr
      · rcases d4 with ⟨rfl, rfl⟩ | ⟨tip, ss, t', rfl, e1, e2, e3⟩
        · exact ⟨r, [], r, rfl, rfl, hr, by simp [pairs]⟩
        · obtain ⟨t'', j1, j2, j3⟩ := join (C := C) e2 hr (c := p) (x := false)
            (by intro kv hkv; exact h3 kv (e3.mem_iff.mpr (by simp [hkv]))) h4
          refine ⟨tip, ss ++ [r], t'', rfl, ?_, j2, ?_⟩
          · rw [rebuildNonempty_append _ _ _ (by rintro rfl; cases hr), e1]; exact j1
          · exact (e3.append_right _).trans (List.Perm.cons _ j3.symm)
    · obtain ⟨v', s, d1, d2, d3, d4⟩ := ih2 h (fun a ha b hb => hpf a (by simp [pairs, ha]) b (by simp [pairs, hb]))
      have hd := descend_step (l := l) (r := r) (h4 _ h)
      simp only [if_true, d1, Except.bind_ok] at hd
      refine ⟨v', _, hd, by simp [pairs, d2], ?_, .inr ?_⟩
      · intro x hx
        rcases List.mem_append.mp hx with hx | hx
        · exact d3 x hx
        · rw [List.mem_singleton.mp hx]; exact hl
      · rcases d4 with ⟨rfl, rfl⟩ | ⟨tip, ss, t', rfl, e1, e2, e3⟩
        · exact ⟨l, [], l, rfl, rfl, hl, by simp only [pairs]; exact List.perm_append_comm⟩
        · obtain ⟨t'', j1, j2, j3⟩ := join (C := C) e2 hl (c := p) (x := true)
            (by intro kv hkv; exact h4 kv (e3.mem_iff.mpr (by simp [hkv]))) h3
          refine ⟨tip, ss ++ [l], t'', rfl, ?_, j2, ?_⟩
          · rw [rebuildNonempty_append _ _ _ (by rintro rfl; cases hl), e1]; exact j1
          · have : (inner p l r).pairs.Perm (r.pairs ++ l.pairs) := List.perm_append_comm
            exact this.trans ((e3.append_right _).trans (List.Perm.cons _ j3.symm))

/-! ### The whole tree -/

theorem WF.sorted {t : MB K V} (h : WF C t) :
    t.pairs.Pairwise (fun a b => lexLt (C.key2prefix a.1) (C.key2prefix b.1) = true) := by
  induction h with
  | leaf => simp [pairs]
  | @inner p l r _ _ h3 h4 ih1 ih2 =>
    rw [pairs, List.pairwise_append]
    refine ⟨ih1, ih2, ?_⟩
    intro a ha b hb
    obtain ⟨s, hs⟩ := h3 a ha
    obtain ⟨s', hs'⟩ := h4 b hb
    rw [← hs, ← hs', List.append_assoc, List.append_assoc]
    clear hs hs' ih1 ih2 h3 h4 ha hb
    induction p with
    | nil => simp [lexLt]
    | cons x p ih => simpa [lexLt] using ih

theorem Tree.sorted {t : MB K V} (h : Tree C t) :
    t.pairs.Pairwise (fun a b => lexLt (C.key2prefix a.1) (C.key2prefix b.1) = true) := by
  rcases h with rfl | h
  · exact List.Pairwise.nil
  · exact h.sorted

theorem Tree.nodup {t : MB K V} (h : Tree C t) : (t.pairs.map (·.1)).Nodup := by
  unfold List.Nodup
  rw [List.pairwise_map]
  refine h.sorted.imp ?_
  intro a b hab he
  rw [he, Bits.lexLt_irrefl] at hab
  cases hab

theorem nodup_unique {l : List (K × V)} (h : (l.map (·.1)).Nodup) {k : K} {v v' : V} (h1 : (k, v) ∈ l) (h2 : (k, v') ∈ l) : v = v' := by
  induction l with
  | nil => cases h1
  | cons x l ih =>
    simp only [List.map_cons, List.nodup_cons, List.mem_map] at h
    rcases List.mem_cons.mp h1 with e1 | h1 <;> rcases List.mem_cons.mp h2 with e2 | h2
    · rw [← e1] at e2; cases e2; rfl
    · exact absurd ⟨_, h2, by rw [← e1]⟩ h.1
    · exact absurd ⟨_, h1, by rw [← e2]⟩ h.1
    · exact ih h.2 h1 h2

theorem Tree.getItem (hC : PrefixFreeKeys C) {t : MB K V} (h : Tree C t) (k : K) :
    (∀ v, (k, v) ∈ t.pairs → t.getItem C k = .ok v) ∧ ((∀ v, (k, v) ∉ t.pairs) → t.getItem C k = .error .keyError) := by
  constructor
  · intro v hv
    rcases h with rfl | h
    · cases hv
    · obtain ⟨v', s, h1, h2, _⟩ := descend_mem h hv (fun a _ b _ h => hC _ _ h)
      have : v' = v := nodup_unique (Tree.nodup (.inr h)) h2 hv
      subst this
      unfold MB.getItem
      rw [h1]
      simp only [Except.bind_ok, if_true]
      rfl
  · intro hn
    rcases h with rfl | h
    · rfl
    · have hf : Fresh C t (C.key2prefix k) := by
        intro kv hkv
        refine ⟨fun h => ?_, fun h => ?_⟩
        · have := hC _ _ h; subst this; exact hn _ hkv
        · have := hC _ _ h; subst this; exact hn _ hkv
      -- the node reached is part of the tree, so it is not a leaf with this key
      have key : ∀ {t : MB K V}, WF C t → Fresh C t (C.key2prefix k) →
          ∃ c s, t.descend (C.key2prefix k) = .ok (c, s) ∧ ∀ kv ∈ c.pairs, kv ∈ t.pairs := by
        intro t ht hf
        induction ht with
        | leaf k' v' => exact ⟨_, _, rfl, fun _ h => h⟩
        | @inner p l r hl hr h3 h4 ih1 ih2 =>
          by_cases hp : p <+: C.key2prefix k
          · have hne : p ≠ C.key2prefix k := by
              intro he
              obtain ⟨kv, hkv⟩ := hl.nonempty
              exact (hf kv (by simp [pairs, hkv])).1 (he ▸ prefix_of_snoc (h3 kv hkv))
            obtain ⟨b, hb⟩ := prefix_snoc_cases hp hne
            have hd := descend_step (l := l) (r := r) hb
            cases b with
            | false =>
              obtain ⟨c, s, d1, d2⟩ := ih1 (fun kv h => hf kv (by simp [pairs, h]))
              simp only [Bool.false_eq_true, if_false, d1, Except.bind_ok] at hd
              exact ⟨_, _, hd, fun kv h => by simp [pairs, d2 kv h]⟩
            | true =>
              obtain ⟨c, s, d1, d2⟩ := ih2 (fun kv h => hf kv (by simp [pairs, h]))
              simp only [if_true, d1, Except.bind_ok] at hd
              exact ⟨_, _, hd, fun kv h => by simp [pairs, d2 kv h]⟩
          · exact ⟨_, _, descend_stop hp, fun _ h => h⟩
      obtain ⟨c, s, h1, h2⟩ := key h hf
      unfold MB.getItem
      rw [h1]
      simp only [Except.bind_ok]
      cases c with
      | empty => rfl
      | inner => rfl
      | leaf k' v' =>
        simp only
        rw [if_neg]
        rintro rfl
        exact hn v' (h2 _ (by simp [pairs]))

theorem fresh_of (hC : PrefixFreeKeys C) {t : MB K V} {k : K} (hn : ∀ v, (k, v) ∉ t.pairs) : Fresh C t (C.key2prefix k) := by
  intro kv hkv
  refine ⟨fun h => ?_, fun h => ?_⟩
  · have := hC _ _ h; subst this; exact hn _ hkv
  · have := hC _ _ h; subst this; exact hn _ hkv

theorem Tree.put (hC : PrefixFreeKeys C) {t : MB K V} (h : Tree C t) {k : K} {v : V} (hk : C.checkKey k = .ok ())
    (hv : C.checkValue v = .ok ()) (hn : ∀ v, (k, v) ∉ t.pairs) :
    ∃ t', t.put C k v = .ok t' ∧ WF C t' ∧ t'.pairs.Perm ((k, v) :: t.pairs) := by
  have hleaf : mkLeaf C k v = .ok (leaf k v) := by unfold mkLeaf; rw [hk, hv]; rfl
  unfold MB.put
  rw [hleaf]
  simp only [Except.bind_ok]
  rcases h with rfl | h
  · exact ⟨leaf k v, rfl, .leaf k v, by simp [pairs]⟩
  · obtain ⟨c, s, t', d1, d2, _, d4, d5, d6⟩ := put_below h (v := v) (fresh_of hC hn)
    refine ⟨t', ?_, d5, d6⟩
    simp only [pfx, d1, Except.bind_ok]
    cases c with
    | empty => cases d2
    | leaf => exact d4
    | inner => exact d4

theorem Tree.put_present (hC : PrefixFreeKeys C) {t : MB K V} (h : Tree C t) {k : K} {v w : V} (hk : C.checkKey k = .ok ())
    (hv : C.checkValue v = .ok ()) (hm : (k, w) ∈ t.pairs) : t.put C k v = .error .assertion := by
  have hleaf : mkLeaf C k v = .ok (leaf k v) := by unfold mkLeaf; rw [hk, hv]; rfl
  unfold MB.put
  rw [hleaf]
  simp only [Except.bind_ok]
  rcases h with rfl | h
  · cases hm
  · obtain ⟨v', s, h1, _⟩ := descend_mem h hm (fun a _ b _ h => hC _ _ h)
    simp only [pfx, h1, Except.bind_ok]
    unfold mkInner
    simp only [pfx, pyAssert, ne_eq, not_true_eq_false, decide_false, Bool.false_eq_true, if_false]
    rfl

theorem Tree.remove (hC : PrefixFreeKeys C) {t : MB K V} (h : Tree C t) (k : K) :
    (∀ v, (k, v) ∈ t.pairs → ∃ t', t.remove C k = .ok t' ∧ Tree C t' ∧ t.pairs.Perm ((k, v) :: t'.pairs)) ∧
    ((∀ v, (k, v) ∉ t.pairs) → t.remove C k = .error .keyError) := by
  constructor
  · intro v hv
    rcases h with rfl | h
    · cases hv
    · obtain ⟨v', s, h1, h2, h3, h4⟩ := descend_mem h hv (fun a _ b _ h => hC _ _ h)
      have : v' = v := nodup_unique (Tree.nodup (.inr h)) h2 hv
      subst this
      unfold MB.remove
      rw [h1]
      simp only [Except.bind_ok, if_true]
      rcases h4 with ⟨rfl, rfl⟩ | ⟨tip, ss, t', rfl, e1, e2, e3⟩
      · exact ⟨.empty, rfl, .inl rfl, by simp [pairs]⟩
      · exact ⟨t', e1, .inr e2, e3⟩
  · intro hn
    have hg := (Tree.getItem hC h k).2 hn
    unfold MB.getItem at hg
    unfold MB.remove
    cases hd : t.descend (C.key2prefix k) with
    | error e => rw [hd] at hg; change Except.error e = _ at hg; change Except.error e = _; injection hg with hg; rw [hg]
    | ok cs =>
      obtain ⟨c, s⟩ := cs
      rw [hd] at hg
      simp only [Except.bind_ok] at hg ⊢
      cases c with
      | empty => rfl
      | inner => rfl
      | leaf k' v' =>
        simp only at hg ⊢
        by_cases hkk : k' = k
        · rw [if_pos hkk] at hg; cases hg
        · rw [if_neg hkk]

/-- Same contents, same tree. -/
theorem WF.unique {t u : MB K V} (ht : WF C t) (hu : WF C u) (h : ∀ kv, kv ∈ t.pairs ↔ kv ∈ u.pairs) : t = u := by
  induction ht generalizing u with
  | leaf k v =>
    cases hu with
    | leaf k' v' =>
      have := (h (k, v)).mp (by simp [pairs])
      simp only [pairs, List.mem_singleton, Prod.mk.injEq] at this
      rw [this.1, this.2]
    | @inner p l r hl hr h3 h4 =>
      obtain ⟨a, ha⟩ := hl.nonempty
      obtain ⟨b, hb⟩ := hr.nonempty
      have ea := (h a).mpr (by simp [pairs, ha])
      have eb := (h b).mpr (by simp [pairs, hb])
      simp only [pairs, List.mem_singleton] at ea eb
      have h1 := h3 a ha
      have h2 := h4 b hb
      rw [ea] at h1; rw [eb] at h2
      exact absurd (snoc_prefix_unique h1 h2) (by decide)
  | @inner p l r hl hr h3 h4 ih1 ih2 =>
    cases hu with
    | leaf k' v' =>
      obtain ⟨a, ha⟩ := hl.nonempty
      obtain ⟨b, hb⟩ := hr.nonempty
      have ea := (h a).mp (by simp [pairs, ha])
      have eb := (h b).mp (by simp [pairs, hb])
      simp only [pairs, List.mem_singleton] at ea eb
      have h1 := h3 a ha
      have h2 := h4 b hb
      rw [ea] at h1; rw [eb] at h2
      exact absurd (snoc_prefix_unique h1 h2) (by decide)
    | @inner p' l' r' hl' hr' h3' h4' =>
      have w1 : WF C (.inner p l r) := .inner hl hr h3 h4
      have w2 : WF C (.inner p' l' r') := .inner hl' hr' h3' h4'
      have hp : p = p' := by
        have a1 := w2.pfx_longest (q := p) (fun kv hkv => w1.pfx_prefix kv ((h kv).mpr hkv))
        have a2 := w1.pfx_longest (q := p') (fun kv hkv => w2.pfx_prefix kv ((h kv).mp hkv))
        exact a1.eq_of_length (Nat.le_antisymm a1.length_le a2.length_le)
      subst hp
      have e1 : l = l' := by
        apply ih1 hl'
        intro kv
        constructor
        · intro hkv
          rcases List.mem_append.mp ((h kv).mp (by simp [pairs, hkv])) with h5 | h5
          · exact h5
          · exact absurd (snoc_prefix_unique (h3 kv hkv) (h4' kv h5)) (by decide)
        · intro hkv
          rcases List.mem_append.mp ((h kv).mpr (by simp [pairs, hkv])) with h5 | h5
          · exact h5
          · exact absurd (snoc_prefix_unique (h3' kv hkv) (h4 kv h5)) (by decide)
      have e2 : r = r' := by
        apply ih2 hr'
        intro kv
        constructor
        · intro hkv
          rcases List.mem_append.mp ((h kv).mp (by simp [pairs, hkv])) with h5 | h5
          · exact absurd (snoc_prefix_unique (h4 kv hkv) (h3' kv h5)) (by decide)
          · exact h5
        · intro hkv
          rcases List.mem_append.mp ((h kv).mpr (by simp [pairs, hkv])) with h5 | h5
          · exact absurd (snoc_prefix_unique (h4' kv hkv) (h3 kv h5)) (by decide)
          · exact h5
      rw [e1, e2]

theorem Tree.unique {t u : MB K V} (ht : Tree C t) (hu : Tree C u) (h : ∀ kv, kv ∈ t.pairs ↔ kv ∈ u.pairs) : t = u := by
  rcases ht with rfl | ht <;> rcases hu with rfl | hu
  · rfl
  · obtain ⟨kv, hkv⟩ := hu.nonempty
    exact absurd ((h kv).mpr hkv) (by simp [pairs])
  · obtain ⟨kv, hkv⟩ := ht.nonempty
    exact absurd ((h kv).mp hkv) (by simp [pairs])
  · exact ht.unique hu h

theorem len_eq (t : MB K V) (h : t.pairs.length < 2 ^ 63) : t.len = .ok t.pairs.length := by
  induction t with
  | empty => rfl
  | leaf => rfl
  | inner p l r ih1 ih2 =>
    rw [pairs, List.length_append] at h ⊢
    unfold len
    rw [ih1 (by omega), ih2 (by omega)]
    simp only [Except.bind_ok, pyLen]
    rw [if_pos h]

end MB
end Verif
