import Verif.Spec.ClassDecl
import Verif.Lemmas.Codec
import Mathlib.Data.List.Induction
/-! # Class tables made by programs -/
namespace Verif.Decl

variable {S V : Type}

/-- Bases are older. -/
def WF (w : World S) : Prop := ∀ (c : Nat) (k : Cls S) (b : Nat), w.classes[c]? = some k → k.base = some b → b < c

theorem mroF_fuel {cs : List (Cls S)} (wf : ∀ (c : Nat) (k : Cls S) (b : Nat), cs[c]? = some k → k.base = some b → b < c) :
    ∀ m n c, c < m → c < n → mroF cs m c = mroF cs n c := by
  intro m
  induction m with
  | zero => intro n c h; omega
  | succ m ih =>
    intro n c hm hn
    cases n with
    | zero => omega
    | succ n =>
      unfold mroF
      cases hk : cs[c]? with
      | none => rfl
      | some k =>
        dsimp only
        cases hb : k.base with
        | none => rfl
        | some b =>
          have := wf c k b hk hb
          dsimp only
          rw [ih n b (by omega) (by omega)]

theorem mro_eq {w : World S} (wf : WF w) {c : Nat} {k : Cls S} (hk : w.classes[c]? = some k) :
    mro w c = c :: (match k.base with | none => [] | some b => mro w b) := by
  unfold mro
  rw [mroF, hk]
  dsimp only
  cases hb : k.base with
  | none => rfl
  | some b =>
    have := wf c k b hk hb
    dsimp only
    rw [mroF_fuel wf c (b + 1) b (by omega) (by omega)]

theorem mro_none {w : World S} {c : Nat} (hk : w.classes[c]? = none) : mro w c = [] := by
  unfold mro
  rw [mroF, hk]

theorem sub_iff {w : World S} (wf : WF w) (c u : Nat) : isSub w c u = true ↔ Sub w c u := by
  unfold isSub
  rw [List.contains_iff_mem]
  induction c using Nat.strongRecOn with
  | _ c ih =>
    cases hk : w.classes[c]? with
    | none =>
      rw [mro_none hk]
      constructor
      · intro h; cases h
      · intro h; cases h with
        | refl h => rw [hk] at h; cases h
        | up h => rw [hk] at h; cases h
    | some k =>
      rw [mro_eq wf hk]
      cases hb : k.base with
      | none =>
        rw [List.mem_cons]
        constructor
        · rintro (rfl | h)
          · exact .refl hk
          · cases h
        · intro h
          cases h with
          | refl => exact .inl rfl
          | up h hb' => rw [hk] at h; cases h; rw [hb] at hb'; cases hb'
      | some b =>
        dsimp only
        rw [List.mem_cons, ih b (wf c k b hk hb)]
        constructor
        · rintro (rfl | h)
          · exact .refl hk
          · exact .up hk hb h
        · intro h
          cases h with
          | refl => exact .inl rfl
          | up h hb' h' => rw [hk] at h; cases h; rw [hb] at hb'; cases hb'; exact .inr h'

theorem Sub.le {w : World S} (wf : WF w) {c u : Nat} (h : Sub w c u) : u ≤ c := by
  induction h with
  | refl => exact Nat.le_refl _
  | up hk hb _ ih => have := wf _ _ _ hk hb; omega

theorem look_eq {α : Type} {w : World S} (wf : WF w) (f : Cls S → Option α) {c : Nat} {k : Cls S} (hk : w.classes[c]? = some k) :
    look w f c = match f k with | some a => some a | none => (match k.base with | none => none | some b => look w f b) := by
  unfold look
  rw [mro_eq wf hk, List.findSome?_cons, hk]
  dsimp only [Option.bind_some]
  cases f k with
  | some a => rfl
  | none =>
    cases k.base with
    | none => rfl
    | some b => rfl

theorem look_none {α : Type} {w : World S} (f : Cls S → Option α) {c : Nat} (hk : w.classes[c]? = none) : look w f c = none := by
  unfold look
  rw [mro_none hk]
  rfl

theorem look_iff {α : Type} {w : World S} (wf : WF w) (f : Cls S → Option α) (c : Nat) (a : α) : look w f c = some a ↔ ∃ u, Nearest w f c u a := by
  induction c using Nat.strongRecOn with
  | _ c ih =>
    cases hk : w.classes[c]? with
    | none =>
      rw [look_none f hk]
      constructor
      · intro h; cases h
      · rintro ⟨u, h⟩; cases h with
        | own h => rw [hk] at h; cases h
        | up h => rw [hk] at h; cases h
    | some k =>
      rw [look_eq wf f hk]
      cases hf : f k with
      | some b =>
        dsimp only
        constructor
        · intro h; cases h; exact ⟨c, .own hk hf⟩
        · rintro ⟨u, h⟩; cases h with
          | own h h' => rw [hk] at h; cases h; rw [hf] at h'; exact h'
          | up h h' => rw [hk] at h; cases h; rw [hf] at h'; cases h'
      | none =>
        dsimp only
        cases hb : k.base with
        | none =>
          dsimp only
          constructor
          · intro h; cases h
          · rintro ⟨u, h⟩; cases h with
            | own h h' => rw [hk] at h; cases h; rw [hf] at h'; cases h'
            | up h _ h' => rw [hk] at h; cases h; rw [hb] at h'; cases h'
        | some b =>
          dsimp only
          rw [ih b (wf c k b hk hb)]
          constructor
          · rintro ⟨u, h⟩; exact ⟨u, .up hk hf hb h⟩
          · rintro ⟨u, h⟩; cases h with
            | own h h' => rw [hk] at h; cases h; rw [hf] at h'; cases h'
            | up h _ h' h'' => rw [hk] at h; cases h; rw [hb] at h'; cases h'; exact ⟨u, h''⟩

theorem unset_iff {α : Type} {w : World S} (wf : WF w) (f : Cls S → Option α) (c : Nat) : look w f c = none ↔ Unset w f c := by
  constructor
  · intro h u a hn
    have := (look_iff wf f c a).mpr ⟨u, hn⟩
    rw [h] at this; cases this
  · intro h
    cases hl : look w f c with
    | none => rfl
    | some a =>
      obtain ⟨u, hu⟩ := (look_iff wf f c a).mp hl
      exact absurd hu (h u a)

theorem Nearest.sub {α : Type} {w : World S} {f : Cls S → Option α} {c u : Nat} {a : α} (h : Nearest w f c u a) : Sub w c u := by
  induction h with
  | own h => exact .refl h
  | up h _ hb _ ih => exact .up h hb ih

theorem Nearest.set {α : Type} {w : World S} {f : Cls S → Option α} {c u : Nat} {a : α} (h : Nearest w f c u a) :
    ∃ k, w.classes[u]? = some k ∧ f k = some a := by
  induction h with
  | own h h' => exact ⟨_, h, h'⟩
  | up _ _ _ _ ih => exact ih

/-! ## Going on with a program -/

/-- The classes are still there, with their bases, their `SERIALIZED_ATTRS` and their `SUB_HASHTAG`. -/
def Ext (w w' : World S) : Prop :=
  ∀ (c : Nat) (k : Cls S), w.classes[c]? = some k → ∃ k', w'.classes[c]? = some k' ∧ k'.base = k.base ∧ k'.attrs = k.attrs ∧ k'.subtag = k.subtag ∧
    (k'.byName = k.byName ∨ look w (·.byName) c = none) ∧ (k'.union = k.union ∨ look w (·.union) c = none)

theorem look_mono {α : Type} {w w' : World S} (wf : WF w) (wf' : WF w') (f : Cls S → Option α)
    (h : ∀ (c : Nat) (k : Cls S), w.classes[c]? = some k → ∃ k', w'.classes[c]? = some k' ∧ k'.base = k.base ∧ (f k' = f k ∨ look w f c = none)) :
    ∀ c a, look w f c = some a → look w' f c = some a := by
  intro c
  induction c using Nat.strongRecOn with
  | _ c ih =>
    intro a hl
    cases hk : w.classes[c]? with
    | none => rw [look_none f hk] at hl; cases hl
    | some k =>
      obtain ⟨k', hk', hb, hf⟩ := h c k hk
      have hf : f k' = f k := hf.resolve_right (by rw [hl]; simp)
      rw [look_eq wf f hk] at hl
      rw [look_eq wf' f hk', hf, hb]
      cases hfk : f k with
      | some b => rw [hfk] at hl; exact hl
      | none =>
        rw [hfk] at hl
        cases hkb : k.base with
        | none => rw [hkb] at hl; cases hl
        | some b => rw [hkb] at hl; exact ih b (wf c k b hk hkb) a hl

theorem look_same {α : Type} {w w' : World S} (wf : WF w) (wf' : WF w') (f : Cls S → Option α)
    (h : ∀ (c : Nat) (k : Cls S), w.classes[c]? = some k → ∃ k', w'.classes[c]? = some k' ∧ k'.base = k.base ∧ f k' = f k) :
    ∀ c, c < w.classes.length → look w' f c = look w f c := by
  intro c
  induction c using Nat.strongRecOn with
  | _ c ih =>
    intro hc
    have hk := List.getElem?_eq_getElem hc
    obtain ⟨k', hk', hb, hf⟩ := h c _ hk
    rw [look_eq wf f hk, look_eq wf' f hk', hf, hb]
    cases hfk : f w.classes[c] with
    | some b => rfl
    | none =>
      cases hkb : (w.classes[c]).base with
      | none => rfl
      | some b =>
        have := wf c _ b hk hkb
        exact ih b this (by omega)

theorem mro_same {w w' : World S} (wf : WF w) (wf' : WF w')
    (h : ∀ (c : Nat) (k : Cls S), w.classes[c]? = some k → ∃ k', w'.classes[c]? = some k' ∧ k'.base = k.base) :
    ∀ c, c < w.classes.length → mro w' c = mro w c := by
  intro c
  induction c using Nat.strongRecOn with
  | _ c ih =>
    intro hc
    have hk := List.getElem?_eq_getElem hc
    obtain ⟨k', hk', hb⟩ := h c _ hk
    rw [mro_eq wf hk, mro_eq wf' hk', hb]
    cases hkb : (w.classes[c]).base with
    | none => rfl
    | some b =>
      have := wf c _ b hk hkb
      dsimp only
      rw [ih b this (by omega)]

theorem Ext.refl (w : World S) : Ext w w := fun _ k hk => ⟨k, hk, rfl, rfl, rfl, .inl rfl, .inl rfl⟩

theorem Ext.length {w w' : World S} (h : Ext w w') : w.classes.length ≤ w'.classes.length := by
  apply Decidable.byContradiction; intro hc
  obtain ⟨k', hk', _⟩ := h w'.classes.length _ (List.getElem?_eq_getElem (by omega))
  rw [List.getElem?_eq_none (Nat.le_refl _)] at hk'
  cases hk'

theorem Ext.byName {w w' : World S} (wf : WF w) (wf' : WF w') (h : Ext w w') {c d} (hl : look w (·.byName) c = some d) : look w' (·.byName) c = some d :=
  look_mono wf wf' _ (fun c k hk => by obtain ⟨k', a, b, _, _, e, _⟩ := h c k hk; exact ⟨k', a, b, e⟩) c d hl

theorem Ext.union {w w' : World S} (wf : WF w) (wf' : WF w') (h : Ext w w') {c d} (hl : look w (·.union) c = some d) : look w' (·.union) c = some d :=
  look_mono wf wf' _ (fun c k hk => by obtain ⟨k', a, b, _, _, _, e⟩ := h c k hk; exact ⟨k', a, b, e⟩) c d hl

theorem Ext.attrs {w w' : World S} (wf : WF w) (wf' : WF w') (h : Ext w w') {c} (hc : c < w.classes.length) : look w' (·.attrs) c = look w (·.attrs) c :=
  look_same wf wf' _ (fun c k hk => by obtain ⟨k', a, b, e, _⟩ := h c k hk; exact ⟨k', a, b, e⟩) c hc

theorem Ext.subtag {w w' : World S} (wf : WF w) (wf' : WF w') (h : Ext w w') {c} (hc : c < w.classes.length) : look w' (·.subtag) c = look w (·.subtag) c :=
  look_same wf wf' _ (fun c k hk => by obtain ⟨k', a, b, _, e, _⟩ := h c k hk; exact ⟨k', a, b, e⟩) c hc

theorem Ext.mro {w w' : World S} (wf : WF w) (wf' : WF w') (h : Ext w w') {c} (hc : c < w.classes.length) : mro w' c = mro w c :=
  mro_same wf wf' (fun c k hk => by obtain ⟨k', a, b, _⟩ := h c k hk; exact ⟨k', a, b⟩) c hc

/-! ## The statements of a program -/

theorem getElem?_modify_inv {α : Type} {l : List α} {i j : Nat} {g : α → α} {k' : α} (h : (l.modify i g)[j]? = some k') :
    ∃ k, l[j]? = some k ∧ ((i = j ∧ k' = g k) ∨ (i ≠ j ∧ k' = k)) := by
  rw [List.getElem?_modify] at h
  cases hl : l[j]? with
  | none => rw [hl] at h; cases h
  | some k =>
    rw [hl] at h
    simp only [Option.map_eq_map, Option.map_some, Option.some.injEq] at h
    refine ⟨k, rfl, ?_⟩
    by_cases hij : i = j
    · left; rw [if_pos hij] at h; exact ⟨hij, h.symm⟩
    · right; rw [if_neg hij] at h; exact ⟨hij, h.symm⟩

theorem getElem?_modify_of {α : Type} {l : List α} {i j : Nat} {g : α → α} {k : α} (h : l[j]? = some k) :
    (l.modify i g)[j]? = some (if i = j then g k else k) := by
  rw [List.getElem?_modify, h]
  rfl

theorem wf_modify {w : World S} (wf : WF w) (i : Nat) (g : Cls S → Cls S) (hg : ∀ k, (g k).base = k.base) (ls : List (List Nat)) :
    WF { classes := w.classes.modify i g, lists := ls } := by
  intro c k b hk hb
  obtain ⟨k0, h0, h⟩ := getElem?_modify_inv hk
  refine wf c k0 b h0 ?_
  rcases h with ⟨_, rfl⟩ | ⟨_, rfl⟩
  · rw [← hg]; exact hb
  · exact hb

theorem wf_start : WF (start S) := by
  intro c k b hk hb
  match c, hk with
  | 0, hk => cases hk; cases hb
  | 1, hk => cases hk; cases hb; omega
  | n + 2, hk => cases hk

theorem unionOf_wf {w : World S} (wf : WF w) (c : Nat) : WF (unionOf c w).2 := by
  unfold unionOf
  split
  · exact wf
  · exact wf_modify wf c _ (fun k => by rfl) _

theorem unionOf_ext (w : World S) (c : Nat) : Ext w (unionOf c w).2 := by
  unfold unionOf
  split
  · exact Ext.refl w
  · rename_i hn
    intro c' k hk
    refine ⟨_, getElem?_modify_of hk, ?_⟩
    by_cases h : c = c'
    · subst h
      rw [if_pos rfl]
      exact ⟨rfl, rfl, rfl, .inl rfl, .inr hn⟩
    · rw [if_neg h]
      exact ⟨rfl, rfl, rfl, .inl rfl, .inl rfl⟩

theorem tag_ext (w : World S) (s : Nat) (t : Bytes) (ls : List (List Nat)) :
    Ext w { classes := w.classes.modify s (fun k => { k with tag := some t }), lists := ls } := by
  intro c k hk
  refine ⟨_, getElem?_modify_of hk, ?_⟩
  split <;> exact ⟨rfl, rfl, rfl, .inl rfl, .inl rfl⟩

theorem Ext.trans {w w' w'' : World S} (wf : WF w) (wf' : WF w') (h : Ext w w') (h' : Ext w' w'') : Ext w w'' := by
  intro c k hk
  obtain ⟨k', a, b, e, f, g, i⟩ := h c k hk
  obtain ⟨k'', a', b', e', f', g', i'⟩ := h' c k' a
  refine ⟨k'', a', b'.trans b, e'.trans e, f'.trans f, ?_, ?_⟩
  · cases hl : look w (·.byName) c with
    | none => exact .inr rfl
    | some d =>
      left
      rw [hl] at g
      have := h.byName wf wf' hl
      rw [this] at g'
      exact (g'.resolve_right (by simp)).trans (g.resolve_right (by simp))
  · cases hl : look w (·.union) c with
    | none => exact .inr rfl
    | some d =>
      left
      rw [hl] at i
      have := h.union wf wf' hl
      rw [this] at i'
      exact (i'.resolve_right (by simp)).trans (i.resolve_right (by simp))

theorem declare_cases (H : HashFns) (c s : Nat) (w : World S) :
    (∃ e, declare H c s w = (.error e, w)) ∨ (∃ e, declare H c s w = (.error e, (unionOf c w).2)) ∨
    ∃ t u, c < w.classes.length ∧ s < w.classes.length ∧ isSub w c 1 = true ∧ isSub w s 1 = true ∧
      look (unionOf c w).2 (·.subtag) s = some t ∧ look (unionOf c w).2 (·.tag) c = some u ∧
      declare H c s w = (.ok (), { classes := (unionOf c w).2.classes.modify s (fun k => { k with tag := some (H.derive t u) }),
                                   lists := (unionOf c w).2.lists.modify (unionOf c w).1 (· ++ [s]) }) := by
  unfold declare
  split
  · rename_i h
    split
    · rename_i h'
      dsimp only
      split
      · exact .inr (.inl ⟨_, rfl⟩)
      · exact .inr (.inl ⟨_, rfl⟩)
      · rename_i t u h1 h2
        exact .inr (.inr ⟨t, u, h.1, h.2.1, h.2.2, h', h1, h2, rfl⟩)
    · exact .inl ⟨_, rfl⟩
  · exact .inl ⟨_, rfl⟩

theorem declare_wf (H : HashFns) (c s : Nat) {w : World S} (wf : WF w) : WF (declare H c s w).2 := by
  rcases declare_cases H c s w with ⟨e, h⟩ | ⟨e, h⟩ | ⟨t, u, _, _, _, _, _, _, h⟩ <;> rw [h]
  · exact wf
  · exact unionOf_wf wf c
  · exact wf_modify (unionOf_wf wf c) s _ (fun k => by rfl) _

theorem declare_ext (H : HashFns) (c s : Nat) {w : World S} (wf : WF w) : Ext w (declare H c s w).2 := by
  rcases declare_cases H c s w with ⟨e, h⟩ | ⟨e, h⟩ | ⟨t, u, _, _, _, _, _, _, h⟩ <;> rw [h]
  · exact Ext.refl w
  · exact unionOf_ext w c
  · exact Ext.trans wf (unionOf_wf wf c) (unionOf_ext w c) (tag_ext _ s _ _)

theorem byNameOf_wf {w : World S} (wf : WF w) (c : Nat) : WF (byNameOf c w).2 := by
  unfold byNameOf
  split
  · exact wf
  · exact wf_modify wf c _ (fun k => by rfl) _

theorem byNameOf_ext (w : World S) (c : Nat) : Ext w (byNameOf c w).2 := by
  unfold byNameOf
  split
  · exact Ext.refl w
  · rename_i hn
    intro c' k hk
    refine ⟨_, getElem?_modify_of hk, ?_⟩
    by_cases h : c = c'
    · subst h
      rw [if_pos rfl]
      exact ⟨rfl, rfl, rfl, .inr hn, .inl rfl⟩
    · rw [if_neg h]
      exact ⟨rfl, rfl, rfl, .inl rfl, .inl rfl⟩

theorem new_world (check : S → V → Py Unit) (c : Nat) (kw : List (String × V)) (w : World S) :
    (new check c kw w).2 = w ∨ (c < w.classes.length ∧ (new check c kw w).2 = (byNameOf c w).2) := by
  unfold new
  split
  · rename_i h; exact .inr ⟨h, rfl⟩
  · exact .inl rfl

theorem step_wf (H : HashFns) (check : S → V → Py Unit) {w : World S} (wf : WF w) (op : Op S V) : WF (step H check w op) := by
  cases op with
  | mkClass base b =>
    change WF (mkClass base b w).2
    unfold mkClass
    split
    · rename_i h
      intro c k b' hk hb
      dsimp only at hk
      rw [List.getElem?_append] at hk
      split at hk
      · exact wf c k b' hk hb
      · rw [List.getElem?_singleton] at hk
        split at hk
        · cases hk; cases hb; omega
        · cases hk
    · exact wf
  | declare c s => exact declare_wf H c s wf
  | new c kw =>
    change WF (new check c kw w).2
    rcases new_world check c kw w with h | ⟨_, h⟩ <;> rw [h]
    · exact wf
    · exact byNameOf_wf wf c

theorem step_ext (H : HashFns) (check : S → V → Py Unit) {w : World S} (wf : WF w) (op : Op S V) : Ext w (step H check w op) := by
  cases op with
  | mkClass base b =>
    change Ext w (mkClass base b w).2
    unfold mkClass
    split
    · intro c k hk
      refine ⟨k, ?_, rfl, rfl, rfl, .inl rfl, .inl rfl⟩
      rw [List.getElem?_append_left (List.getElem?_eq_some_iff.mp hk).1]
      exact hk
    · exact Ext.refl w
  | declare c s => exact declare_ext H c s wf
  | new c kw =>
    change Ext w (new check c kw w).2
    rcases new_world check c kw w with h | ⟨_, h⟩ <;> rw [h]
    · exact Ext.refl w
    · exact byNameOf_ext w c

theorem run_append (H : HashFns) (check : S → V → Py Unit) (ops : List (Op S V)) (op : Op S V) :
    run H check (ops ++ [op]) = step H check (run H check ops) op := by
  unfold run
  rw [List.foldl_append]
  rfl

theorem run_wf (H : HashFns) (check : S → V → Py Unit) (ops : List (Op S V)) : WF (run H check ops) := by
  induction ops using List.reverseRecOn with
  | nil => exact wf_start
  | append_singleton ops op ih => rw [run_append]; exact step_wf H check ih op

theorem run_ext (H : HashFns) (check : S → V → Py Unit) (ops more : List (Op S V)) : Ext (run H check ops) (run H check (ops ++ more)) := by
  induction more using List.reverseRecOn with
  | nil => rw [List.append_nil]; exact Ext.refl _
  | append_singleton more op ih =>
    rw [← List.append_assoc, run_append]
    exact Ext.trans (run_wf _ _ _) (run_wf _ _ _) ih (step_ext H check (run_wf _ _ _) op)

end Verif.Decl
