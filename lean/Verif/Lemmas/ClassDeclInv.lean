import Verif.Lemmas.ClassDecl
/-! # What programs leave behind -/
namespace Verif.Decl

variable {S V : Type}

/-! ## Where class attributes come from -/

theorem unionOf_inv {w : World S} {c c' : Nat} {k' : Cls S} (h : (unionOf c w).2.classes[c']? = some k') :
    ∃ k, w.classes[c']? = some k ∧ k'.byName = k.byName ∧ k'.tag = k.tag ∧ (k'.union = k.union ∨ (c' = c ∧ k'.union = some w.lists.length ∧ look w (·.union) c = none)) := by
  unfold unionOf at h
  split at h
  · exact ⟨k', h, rfl, rfl, .inl rfl⟩
  · rename_i hn
    obtain ⟨k, hk, h⟩ := getElem?_modify_inv h
    refine ⟨k, hk, ?_⟩
    rcases h with ⟨rfl, rfl⟩ | ⟨_, rfl⟩
    · exact ⟨rfl, rfl, .inr ⟨rfl, rfl, hn⟩⟩
    · exact ⟨rfl, rfl, .inl rfl⟩

theorem unionOf_fst {w : World S} (wf : WF w) {c : Nat} (hc : c < w.classes.length) : look (unionOf c w).2 (·.union) c = some (unionOf c w).1 := by
  have wf' := unionOf_wf wf c
  revert wf'
  unfold unionOf
  split
  · rename_i h; intro _; exact h
  · intro wf'
    rw [look_eq wf' _ (getElem?_modify_of (List.getElem?_eq_getElem hc))]
    simp

theorem unionOf_lists (w : World S) (c : Nat) :
    (unionOf c w).2.lists = w.lists ∨ ((unionOf c w).2.lists = w.lists ++ [[]] ∧ look w (·.union) c = none) := by
  unfold unionOf
  split
  · exact .inl rfl
  · rename_i h; exact .inr ⟨rfl, h⟩

theorem unionOf_lists_length (w : World S) (c : Nat) (h : look w (·.union) c = none) : (unionOf c w).2.lists.length = w.lists.length + 1 := by
  unfold unionOf
  rw [h]
  simp

theorem unionOf_mem {w : World S} {c r : Nat} {l : List Nat} {u : Nat} (h : (unionOf c w).2.lists[r]? = some l) (hu : u ∈ l) : w.lists[r]? = some l := by
  rcases unionOf_lists w c with h' | ⟨h', _⟩
  · rw [← h']; exact h
  · rw [h', List.getElem?_append] at h
    split at h
    · exact h
    · rw [List.getElem?_singleton] at h
      split at h
      · cases h; cases hu
      · cases h

theorem declare_inv (H : HashFns) {w : World S} {c s c' : Nat} {k' : Cls S} (h : (declare H c s w).2.classes[c']? = some k') :
    ∃ k, w.classes[c']? = some k ∧ k'.byName = k.byName ∧
      (k'.union = k.union ∨ (c' = c ∧ k'.union = some w.lists.length ∧ (declare H c s w).2.lists.length = w.lists.length + 1)) ∧
      (c' ≠ s → k'.tag = k.tag) := by
  rcases declare_cases H c s w with ⟨e, hd⟩ | ⟨e, hd⟩ | ⟨t, u, _, _, _, _, _, _, hd⟩ <;> rw [hd] at h ⊢
  · exact ⟨k', h, rfl, .inl rfl, fun _ => rfl⟩
  · obtain ⟨k, hk, hb, ht, hu⟩ := unionOf_inv h
    refine ⟨k, hk, hb, hu.imp id (fun ⟨a, b, n⟩ => ⟨a, b, ?_⟩), fun _ => ht⟩
    exact unionOf_lists_length w c n
  · obtain ⟨k1, h1, h2⟩ := getElem?_modify_inv h
    obtain ⟨k, hk, hb, ht, hu⟩ := unionOf_inv h1
    refine ⟨k, hk, ?_, ?_, ?_⟩
    · rcases h2 with ⟨_, rfl⟩ | ⟨_, rfl⟩ <;> exact hb
    · have : k'.union = k1.union := by rcases h2 with ⟨_, rfl⟩ | ⟨_, rfl⟩ <;> rfl
      rw [this]
      refine hu.imp id (fun ⟨a, b, n⟩ => ⟨a, b, ?_⟩)
      dsimp only
      rw [List.length_modify]
      exact unionOf_lists_length w c n
    · intro hne
      rcases h2 with ⟨h3, _⟩ | ⟨_, rfl⟩
      · exact absurd h3.symm hne
      · exact ht

theorem declare_lists_length (H : HashFns) (w : World S) (c s : Nat) : w.lists.length ≤ (declare H c s w).2.lists.length := by
  have h0 : w.lists.length ≤ (unionOf c w).2.lists.length := by
    rcases unionOf_lists w c with h | ⟨h, _⟩ <;> rw [h] <;> simp
  rcases declare_cases H c s w with ⟨e, hd⟩ | ⟨e, hd⟩ | ⟨t, u, _, _, _, _, _, _, hd⟩ <;> rw [hd]
  · exact Nat.le_refl _
  · exact h0
  · dsimp only; rw [List.length_modify]; exact h0

theorem byNameOf_inv {w : World S} {c c' : Nat} {k' : Cls S} (h : (byNameOf c w).2.classes[c']? = some k') :
    ∃ k, w.classes[c']? = some k ∧ k'.union = k.union ∧ k'.tag = k.tag ∧ (k'.byName = k.byName ∨ (c' = c ∧ k'.byName = some (dictOf ((look w (·.attrs) c).getD [])))) := by
  unfold byNameOf at h
  split at h
  · exact ⟨k', h, rfl, rfl, .inl rfl⟩
  · obtain ⟨k, hk, h⟩ := getElem?_modify_inv h
    refine ⟨k, hk, ?_⟩
    rcases h with ⟨rfl, rfl⟩ | ⟨_, rfl⟩
    · exact ⟨rfl, rfl, .inr ⟨rfl, rfl⟩⟩
    · exact ⟨rfl, rfl, .inl rfl⟩

theorem byNameOf_lists (w : World S) (c : Nat) : (byNameOf c w).2.lists = w.lists := by
  unfold byNameOf
  split <;> rfl

theorem mkClass_inv {w : World S} {base : Nat} {b : Body S} {c : Nat} {k : Cls S} (h : (mkClass base b w).2.classes[c]? = some k) :
    w.classes[c]? = some k ∨ (c = w.classes.length ∧ k = { base := some base, attrs := b.attrs, tag := b.tag, subtag := b.subtag }) := by
  unfold mkClass at h
  split at h
  · rw [List.getElem?_append] at h
    split at h
    · exact .inl h
    · rw [List.getElem?_singleton] at h
      split at h
      · cases h; exact .inr ⟨by omega, rfl⟩
      · cases h
  · exact .inl h

theorem mkClass_lists (w : World S) (base : Nat) (b : Body S) : (mkClass base b w).2.lists = w.lists := by
  unfold mkClass
  split <;> rfl

/-- `SERIALIZED_ATTRS_BY_NAME` of a class, if it has one of its own, is made of what the class declares, and the class was instantiated. -/
theorem byName_inv (H : HashFns) (check : S → V → Py Unit) (ops : List (Op S V)) :
    ∀ (c : Nat) (k : Cls S) (d : List (String × S)), (run H check ops).classes[c]? = some k → k.byName = some d →
      d = dictOf ((look (run H check ops) (·.attrs) c).getD []) ∧ ∃ kw, Op.new c kw ∈ ops := by
  induction ops using List.reverseRecOn with
  | nil =>
    intro c k d hk hd
    match c, hk with
    | 0, hk => cases hk; cases hd
    | 1, hk => cases hk; cases hd
    | n + 2, hk => cases hk
  | append_singleton ops op ih =>
    intro c k d hk hd
    have ext := step_ext H check (run_wf H check ops) op
    have wf' := step_wf H check (run_wf H check ops) op
    rw [run_append] at hk ⊢
    have old : ∀ k0, (run H check ops).classes[c]? = some k0 → k0.byName = some d →
        d = dictOf ((look (step H check (run H check ops) op) (·.attrs) c).getD []) ∧ ∃ kw, Op.new c kw ∈ ops ++ [op] := by
      intro k0 h0 hd0
      obtain ⟨h1, kw, h2⟩ := ih c k0 d h0 hd0
      rw [ext.attrs (run_wf H check ops) wf' (List.getElem?_eq_some_iff.mp h0).1]
      exact ⟨h1, kw, List.mem_append_left _ h2⟩
    cases op with
    | mkClass base b =>
      rcases mkClass_inv hk with h | ⟨_, rfl⟩
      · exact old k h hd
      · cases hd
    | declare p s =>
      obtain ⟨k0, h0, hb, _⟩ := declare_inv H hk
      exact old k0 h0 (hb ▸ hd)
    | new p kw =>
      change (new check p kw (run H check ops)).2.classes[c]? = some k at hk
      rcases new_world check p kw (run H check ops) with h | ⟨hp, h⟩
      · rw [h] at hk; exact old k hk hd
      · rw [h] at hk
        obtain ⟨k0, h0, _, _, hb⟩ := byNameOf_inv hk
        rcases hb with hb | ⟨rfl, hb⟩
        · exact old k0 h0 (hb ▸ hd)
        · rw [hb] at hd
          cases hd
          rw [ext.attrs (run_wf H check ops) wf' hp]
          exact ⟨rfl, kw, by simp⟩

/-- A class has `UNION_CLASSES` of its own only if its `declare_variant` was called. -/
theorem union_inv (H : HashFns) (check : S → V → Py Unit) (ops : List (Op S V)) :
    ∀ (c : Nat) (k : Cls S) (r : Nat), (run H check ops).classes[c]? = some k → k.union = some r →
      r < (run H check ops).lists.length ∧ ∃ s, Op.declare c s ∈ ops := by
  induction ops using List.reverseRecOn with
  | nil =>
    intro c k d hk hd
    match c, hk with
    | 0, hk => cases hk; cases hd
    | 1, hk => cases hk; cases hd
    | n + 2, hk => cases hk
  | append_singleton ops op ih =>
    intro c k r hk hr
    rw [run_append] at hk ⊢
    cases op with
    | mkClass base b =>
      change (mkClass base b (run H check ops)).2.classes[c]? = some k at hk
      change r < (mkClass base b (run H check ops)).2.lists.length ∧ _
      rw [mkClass_lists]
      rcases mkClass_inv hk with h | ⟨_, rfl⟩
      · obtain ⟨h1, s, h2⟩ := ih c k r h hr
        exact ⟨h1, s, List.mem_append_left _ h2⟩
      · cases hr
    | declare p s =>
      change (declare H p s (run H check ops)).2.classes[c]? = some k at hk
      change r < (declare H p s (run H check ops)).2.lists.length ∧ _
      obtain ⟨k0, h0, _, hu, _⟩ := declare_inv H hk
      rcases hu with hu | ⟨rfl, hu, hl⟩
      · obtain ⟨h1, s', h2⟩ := ih c k0 r h0 (hu ▸ hr)
        have := declare_lists_length H (run H check ops) p s
        exact ⟨by omega, s', List.mem_append_left _ h2⟩
      · rw [hu] at hr
        cases hr
        exact ⟨by omega, s, by simp⟩
    | new p kw =>
      change (new check p kw (run H check ops)).2.classes[c]? = some k at hk
      change r < (new check p kw (run H check ops)).2.lists.length ∧ _
      have old : ∀ k0, (run H check ops).classes[c]? = some k0 → k0.union = some r →
          r < (run H check ops).lists.length ∧ ∃ s, Op.declare c s ∈ ops ++ [Op.new p kw] := by
        intro k0 h0 hr0
        obtain ⟨h1, s', h2⟩ := ih c k0 r h0 hr0
        exact ⟨h1, s', List.mem_append_left _ h2⟩
      rcases new_world check p kw (run H check ops) with h | ⟨hp, h⟩
      · rw [h] at hk ⊢
        exact old k hk hr
      · rw [h] at hk ⊢
        rw [byNameOf_lists]
        obtain ⟨k0, h0, hu, _, _⟩ := byNameOf_inv hk
        exact old k0 h0 (hu ▸ hr)

/-- What is in a list of variants was declared, with a class that has this list. -/
theorem entry_inv (H : HashFns) (check : S → V → Py Unit) (ops : List (Op S V)) :
    ∀ (r : Nat) (l : List Nat) (u : Nat), (run H check ops).lists[r]? = some l → u ∈ l →
      u < (run H check ops).classes.length ∧ ∃ q, Op.declare q u ∈ ops ∧ look (run H check ops) (·.union) q = some r := by
  induction ops using List.reverseRecOn with
  | nil => intro r l u hl; cases hl
  | append_singleton ops op ih =>
    intro r l u hl hu
    have ext := step_ext H check (run_wf H check ops) op
    have wf' := step_wf H check (run_wf H check ops) op
    rw [run_append] at hl ⊢
    have old : ∀ l0, (run H check ops).lists[r]? = some l0 → u ∈ l0 →
        u < (step H check (run H check ops) op).classes.length ∧
          ∃ q, Op.declare q u ∈ ops ++ [op] ∧ look (step H check (run H check ops) op) (·.union) q = some r := by
      intro l0 h0 hu0
      obtain ⟨h1, q, h2, h3⟩ := ih r l0 u h0 hu0
      exact ⟨Nat.lt_of_lt_of_le h1 ext.length, q, List.mem_append_left _ h2, ext.union (run_wf H check ops) wf' h3⟩
    cases op with
    | mkClass base b =>
      change (mkClass base b (run H check ops)).2.lists[r]? = some l at hl
      rw [mkClass_lists] at hl
      exact old l hl hu
    | declare p s =>
      change (declare H p s (run H check ops)).2.lists[r]? = some l at hl
      rcases declare_cases H p s (run H check ops) with ⟨e, hd⟩ | ⟨e, hd⟩ | ⟨t, v, hp, hs, _, _, _, _, hd⟩
      · rw [hd] at hl; exact old l hl hu
      · rw [hd] at hl; exact old l (unionOf_mem hl hu) hu
      · have hd2 : step H check (run H check ops) (.declare p s) = _ := congrArg Prod.snd hd
        rw [hd] at hl
        obtain ⟨l0, h0, h1⟩ := getElem?_modify_inv hl
        rcases h1 with ⟨h1, rfl⟩ | ⟨_, rfl⟩
        · rw [List.mem_append] at hu
          rcases hu with hu | hu
          · exact old l0 (unionOf_mem h0 hu) hu
          · rw [List.mem_singleton] at hu
            subst hu
            refine ⟨Nat.lt_of_lt_of_le hs ext.length, p, by simp, ?_⟩
            have hx := unionOf_fst (run_wf H check ops) hp
            rw [h1] at hx
            have e2 := tag_ext (unionOf p (run H check ops)).2 u (H.derive t v) ((unionOf p (run H check ops)).2.lists.modify (unionOf p (run H check ops)).1 (· ++ [u]))
            rw [hd2]
            rw [hd2] at wf'
            exact e2.union (unionOf_wf (run_wf H check ops) p) wf' hx
        · exact old l (unionOf_mem h0 hu) hu
    | new p kw =>
      change (new check p kw (run H check ops)).2.lists[r]? = some l at hl
      rcases new_world check p kw (run H check ops) with h | ⟨hp, h⟩
      · rw [h] at hl; exact old l hl hu
      · rw [h, byNameOf_lists] at hl; exact old l hl hu

/-! ## Dicts -/

theorem dictSet_keys (d : List (String × S)) (n : String) (s : S) (m : String) : (m ∈ (dictSet d n s).map (·.1)) ↔ m ∈ d.map (·.1) ∨ m = n := by
  unfold dictSet
  split
  · rename_i h
    rw [List.any_eq_true] at h
    obtain ⟨e, he, hn⟩ := h
    have hmap : (d.map (fun e => if e.1 = n then (n, s) else e)).map (·.1) = d.map (·.1) := by
      rw [List.map_map]
      apply List.map_congr_left
      intro e _
      simp only [Function.comp]
      split
      · rename_i h; exact h.symm
      · rfl
    rw [hmap]
    constructor
    · exact .inl
    · rintro (h | rfl)
      · exact h
      · exact List.mem_map.mpr ⟨e, he, by simpa using hn⟩
  · simp

theorem dictSet_nodup {d : List (String × S)} (hd : (d.map (·.1)).Nodup) (n : String) (s : S) : ((dictSet d n s).map (·.1)).Nodup := by
  unfold dictSet
  split
  · have hmap : (d.map (fun e => if e.1 = n then (n, s) else e)).map (·.1) = d.map (·.1) := by
      rw [List.map_map]
      apply List.map_congr_left
      intro e _
      simp only [Function.comp]
      split
      · rename_i h; exact h.symm
      · rfl
    rw [hmap]; exact hd
  · rename_i h
    rw [List.map_append, List.nodup_append]
    refine ⟨hd, by simp, ?_⟩
    intro a ha b hb hab
    subst hab
    simp only [List.map_cons, List.map_nil, List.mem_singleton] at hb
    subst hb
    obtain ⟨e, he, rfl⟩ := List.mem_map.mp ha
    exact h (List.any_eq_true.mpr ⟨e, he, by simp⟩)

theorem dictSet_mem {d : List (String × S)} {n : String} {s : S} {e : String × S} : e ∈ dictSet d n s ↔ (e = (n, s) ∨ (e ∈ d ∧ e.1 ≠ n)) := by
  unfold dictSet
  split
  · rename_i h
    rw [List.any_eq_true] at h
    obtain ⟨x, hx, hn⟩ := h
    rw [List.mem_map]
    constructor
    · rintro ⟨y, hy, rfl⟩
      split
      · exact .inl rfl
      · rename_i h; exact .inr ⟨hy, h⟩
    · rintro (rfl | ⟨h, hne⟩)
      · exact ⟨x, hx, by rw [if_pos (by simpa using hn)]⟩
      · exact ⟨e, h, by rw [if_neg hne]⟩
  · rename_i h
    rw [List.mem_append, List.mem_singleton]
    constructor
    · rintro (h' | h')
      · refine .inr ⟨h', fun hn => h (List.any_eq_true.mpr ⟨e, h', by simp [hn]⟩)⟩
      · exact .inl h'
    · rintro (h' | ⟨h', _⟩)
      · exact .inr h'
      · exact .inl h'

theorem dictOf_append (l : List (String × S)) (e : String × S) : dictOf (l ++ [e]) = dictSet (dictOf l) e.1 e.2 := by
  unfold dictOf
  rw [List.foldl_append]
  rfl

theorem dictOf_nodup (l : List (String × S)) : ((dictOf l).map (·.1)).Nodup := by
  induction l using List.reverseRecOn with
  | nil => simp [dictOf]
  | append_singleton l e ih => rw [dictOf_append]; exact dictSet_nodup ih _ _

/-- The dict has, for each name, the last serializer. -/
theorem dictOf_mem (l : List (String × S)) (n : String) (s : S) : (n, s) ∈ dictOf l ↔ Last l n s := by
  induction l using List.reverseRecOn with
  | nil =>
    constructor
    · intro h; cases h
    · rintro ⟨l1, l2, h, _⟩; cases l1 <;> cases h
  | append_singleton l e ih =>
    rw [dictOf_append, dictSet_mem, ih]
    constructor
    · rintro (h | ⟨⟨l1, l2, rfl, h2⟩, hne⟩)
      · refine ⟨l, [], ?_, by simp⟩
        rw [h]
      · refine ⟨l1, l2 ++ [e], by simp, ?_⟩
        intro x hx
        rw [List.mem_append, List.mem_singleton] at hx
        rcases hx with hx | rfl
        · exact h2 x hx
        · exact fun h => hne h.symm
    · rintro ⟨l1, l2, h, h2⟩
      rcases List.eq_nil_or_concat l2 with rfl | ⟨l3, x, rfl⟩
      · left
        obtain ⟨_, h⟩ := List.append_inj' h rfl
        cases h; rfl
      · right
        rw [List.concat_eq_append, ← List.cons_append, ← List.append_assoc] at h
        obtain ⟨h3, h4⟩ := List.append_inj' h rfl
        cases h4
        refine ⟨⟨l1, l3, h3, fun y hy => h2 y (by simp [hy])⟩, ?_⟩
        exact fun hn => h2 e (by simp) hn.symm

theorem dictOf_names (l : List (String × S)) (n : String) : n ∈ (dictOf l).map (·.1) ↔ n ∈ l.map (·.1) := by
  induction l using List.reverseRecOn with
  | nil => simp [dictOf]
  | append_singleton l e ih => rw [dictOf_append, dictSet_keys, ih]; simp

/-! ## The attributes of a new object -/

theorem fill_ok {check : S → V → Py Unit} {kw : List (String × V)} {d : List (String × S)}
    (h : ∀ n s, (n, s) ∈ d → ∃ v, kw.lookup n = some v ∧ check s v = .ok ()) :
    ∃ l, fill check kw d = .ok l := by
  induction d with
  | nil => exact ⟨[], rfl⟩
  | cons e d ih =>
    obtain ⟨n, s⟩ := e
    obtain ⟨l, hl⟩ := ih (fun n s hm => h n s (List.mem_cons_of_mem _ hm))
    obtain ⟨v, hv, hc⟩ := h n s List.mem_cons_self
    refine ⟨(n, v) :: l, ?_⟩
    rw [fill, hv]
    dsimp only
    rw [hc, hl]
    rfl

theorem fill_inv {check : S → V → Py Unit} {kw : List (String × V)} {d : List (String × S)} {l : List (String × V)} (h : fill check kw d = .ok l) :
    (∀ n s, (n, s) ∈ d → ∃ v, kw.lookup n = some v ∧ check s v = .ok ()) ∧ l.map (·.1) = d.map (·.1) ∧
      (∀ n, n ∈ d.map (·.1) → l.lookup n = kw.lookup n) := by
  induction d generalizing l with
  | nil => cases h; exact ⟨fun n s h => (by cases h), rfl, fun n h => (by cases h)⟩
  | cons e d ih =>
    obtain ⟨n, s⟩ := e
    rw [fill] at h
    cases hv : kw.lookup n with
    | none => rw [hv] at h; cases h
    | some v =>
      rw [hv] at h
      dsimp only at h
      obtain ⟨⟨⟩, hc, h⟩ := Except.bind_eq_ok h
      obtain ⟨l', hl, h⟩ := Except.bind_eq_ok h
      cases h
      obtain ⟨h1, h2, h3⟩ := ih hl
      refine ⟨?_, ?_, ?_⟩
      · intro m t hm
        rcases List.mem_cons.mp hm with hm | hm
        · cases hm; exact ⟨v, hv, hc⟩
        · exact h1 m t hm
      · simp [h2]
      · intro m hm
        rw [List.lookup_cons]
        by_cases hmn : m = n
        · subst hmn; simp [hv]
        · have : (m == n) = false := by simpa using hmn
          rw [this]
          dsimp only
          refine h3 m ?_
          simpa [hmn] using hm

theorem lookup_none {l : List (String × V)} {n : String} (h : n ∉ l.map (·.1)) : l.lookup n = none := by
  rw [List.lookup_eq_none_iff]
  intro e he
  rw [bne_iff_ne]
  rintro rfl
  exact h (List.mem_map.mpr ⟨e, he, rfl⟩)

end Verif.Decl
