import Verif.Lemmas.MbProof
import Verif.Lemmas.MmrShip
/-! # What is read of a merbinner tree, and what is lost of it when it is sent -/
namespace Verif
open Seal
namespace Merb
open Mmr (ne21 ne31 ne32 eval_cls_here readsOn_head run_bind HM.bind_assoc)
variable {T : Table} {H : HashFns} {m : Nat} {tag : Bytes} {τ : PrimTy} {kv : Kind} {k2p : PVal → Py (List Bool)} {kp : Key τ → List Bool}

theorem base_base (hD : Declares T H m tag τ kv) : T.Base m := by
  refine ⟨_, by rw [hD.base], ?_⟩
  simp [Table.isInst, hD.base]

/-- All paths read, and found, go down one side. -/
def OneSide (i : Nat) (x : List Nat) : Prop := x = [] ∨ ∃ y, x = i :: y

theorem OneSide.ne {i j : Nat} {x : List Nat} (h : OneSide i x) (hij : i ≠ j) : x ≠ [j] := by
  rcases h with rfl | ⟨y, rfl⟩
  · simp
  · intro h
    injection h with h1 _
    exact hij h1

theorem reads_at_side {α} {t q : PTree} {i : Nat} (hq : (TVal.sub t).walk T [] [i] = .ok (.sub q)) (p : Prog α) {x : List Nat} (hx : x ∈ (p.at [i]).reads T H t) : OneSide i x := by
  rcases reads_at hq p x hx with h | ⟨y, _, rfl⟩
  · exact readsOn_head h
  · exact .inr ⟨y, rfl⟩

theorem readsOn_one {t : PTree} {i : Nat} {x : List Nat} (h : x ∈ (TVal.sub t).readsOn [i]) : x = [] := by
  simp only [TVal.readsOn] at h
  split at h
  · cases h
  · next w hw => cases w <;> simpa [TVal.readsOn] using h

/-- Descending reads the root and at most one side. -/
theorem reads_descend {q p : List Bool} {l r : MB (Key τ) TVal} {n : Nat} : [] ∈ (descend m q (n + 1)).reads T H (emb m (.inner p l r)) ∧
    ∃ i, (i = 1 ∨ i = 2) ∧ (∀ x ∈ (descend m q (n + 1)).reads T H (emb m (.inner p l r)), OneSide i x) ∧
      ∀ y, (descend m q (n + 1)).eval T H [] (emb m (.inner p l r)) = .ok (.ok y) → y.1 = [] ∨ ∃ π, y.1 = i :: π := by
  have hread : ∀ x, x ∈ (descend m q (n + 1)).reads T H (emb m (.inner p l r)) ↔ x ∈ (TVal.sub (emb m (.inner p l r))).readsOn [0] ∨
      x ∈ (if p.length ≤ q.length ∧ p.isPrefixOf q then
          match q[p.length]? with
          | none => .ret (.error .indexError)
          | some true => do
            let x ← (descend m q n).at [2]
            .cls [1] fun _ => .ret (.ok (2 :: x.1, x.2.map (2 :: ·) ++ [[1]]))
          | some false => do
            let x ← (descend m q n).at [1]
            .cls [2] fun _ => .ret (.ok (1 :: x.1, x.2.map (1 :: ·) ++ [[2]]))
        else .ret (.ok ([], [])) : Prog (List Nat × List (List Nat))).reads T H (emb m (.inner p l r)) := by
    intro x
    rw [descend]
    simp only [Prog.reads, TVal.walk, TVal.readsOn, List.nil_append, emb_cls_inner, ne31, ne32, or_self, if_false, if_true, List.mem_append]
    rfl
  have hval : (descend m q (n + 1)).eval T H [] (emb m (.inner p l r)) = (if p.length ≤ q.length ∧ p.isPrefixOf q then
          match q[p.length]? with
          | none => .ret (.error .indexError)
          | some true => do
            let x ← (descend m q n).at [2]
            .cls [1] fun _ => .ret (.ok (2 :: x.1, x.2.map (2 :: ·) ++ [[1]]))
          | some false => do
            let x ← (descend m q n).at [1]
            .cls [2] fun _ => .ret (.ok (1 :: x.1, x.2.map (1 :: ·) ++ [[2]]))
        else .ret (.ok ([], [])) : Prog (List Nat × List (List Nat))).eval T H [] (emb m (.inner p l r)) := by
    simp only [descend, eval_cls_here, emb_cls_inner, ne31, ne32, or_self, if_false, if_true, eval_read_here (walk_pfx p l r)]
    rfl
  have hroot : ∀ x, x ∈ (TVal.sub (emb m (.inner p l r))).readsOn [0] ↔ x = [] := by
    intro x
    simp [TVal.readsOn, emb, PTree.get?, PFields.get?]
  refine ⟨(hread _).mpr (.inl ((hroot _).mpr rfl)), ?_⟩
  simp only [hread, hval, hroot]
  by_cases hq : p.length ≤ q.length ∧ p.isPrefixOf q = true
  · simp only [if_pos hq]
    cases q[p.length]? with
    | none =>
      refine ⟨1, .inl rfl, ?_, fun y hy => by cases hy⟩
      rintro x (rfl | hx)
      · exact .inl rfl
      · cases hx
    | some b =>
      have side : ∀ (i j : Nat) (u v : PTree), (TVal.sub (emb m (.inner p l r))).walk T [] [i] = .ok (.sub u) → (TVal.sub (emb m (.inner p l r))).walk T [] [j] = .ok (.sub v) →
          ∀ x, x ∈ ((do let x ← (descend m q n).at [i]; .cls [j] fun _ => .ret (.ok (i :: x.1, x.2.map (i :: ·) ++ [[j]])) : Prog (List Nat × List (List Nat)))).reads T H (emb m (.inner p l r)) → OneSide i x := by
        intro i j u v hu hv x hx
        rw [reads_bind, List.mem_append] at hx
        rcases hx with hx | hx
        · exact reads_at_side hu _ hx
        · unfold thenReads at hx
          split at hx
          · simp only [Prog.reads, hv, List.append_nil] at hx
            exact .inl (readsOn_one hx)
          · cases hx
      have found : ∀ (i j : Nat) y, ((do let x ← (descend m q n).at [i]; .cls [j] fun _ => .ret (.ok (i :: x.1, x.2.map (i :: ·) ++ [[j]])) : Prog (List Nat × List (List Nat)))).eval T H [] (emb m (.inner p l r)) = .ok (.ok y) →
          y.1 = [] ∨ ∃ π, y.1 = i :: π := by
        intro i j y hy
        simp only [eval_bind_ok, eval_cls_ok] at hy
        obtain ⟨x, _, _, _, hy⟩ := hy
        cases hy
        exact .inr ⟨_, rfl⟩
      cases b with
      | true =>
        refine ⟨2, .inr rfl, ?_, found 2 1⟩
        rintro x (rfl | hx)
        · exact .inl rfl
        · exact side 2 1 _ _ (walk_right p l r) (walk_left p l r) x hx
      | false =>
        refine ⟨1, .inl rfl, ?_, found 1 2⟩
        rintro x (rfl | hx)
        · exact .inl rfl
        · exact side 1 2 _ _ (walk_left p l r) (walk_right p l r) x hx
  · simp only [if_neg hq]
    refine ⟨1, .inl rfl, ?_, fun y hy => by cases hy; exact .inl rfl⟩
    rintro x (rfl | hx)
    · exact .inl rfl
    · cases hx

/-- `self[key]` as one computation: what it does to the heap. -/
def item (m : Nat) (k2p : PVal → Py (List Bool)) (n : Nat) (key : PVal) : Prog Unit := do
  let π ← locate m k2p n key
  .read π fun _ => .ret (.ok ())

theorem getItem_state (r : Nat) (key : PVal) (s : PState) : (getItem m k2p T H r key s).2 = ((item m k2p (s.objs.length + 1) key).run T H r s).2 := by
  unfold getItem item
  unfold Prog.runM
  rw [run_bind, HM.bind_assoc, HM.bind_apply, HM.bind_apply]
  rcases (locate m k2p (s.objs.length + 1) key).run T H r s with ⟨e | e | π, s'⟩
  · rfl
  · rfl
  · simp only [HM.lift_apply, Prog.run, HM.bind_apply]
    rcases Prog.walk T (.ref r) π s' with ⟨e | v, s''⟩ <;> rfl

theorem varPath_left (hD : Declares T H m tag τ kv) {p} {l r : MB (Key τ) TVal} : VarPath T (emb m (.inner p l r)) [1] (emb m l) :=
  .step (i := 1) (b := m) rfl (by rw [hD.inner]; rfl) (base_base hD) .here

theorem varPath_right (hD : Declares T H m tag τ kv) {p} {l r : MB (Key τ) TVal} : VarPath T (emb m (.inner p l r)) [2] (emb m r) :=
  .step (i := 2) (b := m) rfl (by rw [hD.inner]; rfl) (base_base hD) .here

theorem readsOn_side {t : PTree} {i : Nat} {π x : List Nat} (hπ : π = [] ∨ ∃ y, π = i :: y) (h : x ∈ (TVal.sub t).readsOn π) : OneSide i x := by
  rcases hπ with rfl | ⟨y, rfl⟩
  · simp [TVal.readsOn] at h
  · exact readsOn_head h

/-- Some node is not read when a key is looked up. -/
theorem item_unread (hD : Declares T H m tag τ kv) {p} {l r : MB (Key τ) TVal} {n : Nat} {key : PVal} {b : List Bool} (hk : k2p key = .ok b) :
    [] ∈ (item m k2p (n + 1) key).reads T H (emb m (.inner p l r)) ∧
    ∃ π u, VarPath T (emb m (.inner p l r)) π u ∧ π ∉ (item m k2p (n + 1) key).reads T H (emb m (.inner p l r)) := by
  obtain ⟨h0, i, hi, h1, h2⟩ := reads_descend (T := T) (H := H) (m := m) (q := b) (p := p) (l := l) (r := r) (n := n)
  have hmem : ∀ x, x ∈ (item m k2p (n + 1) key).reads T H (emb m (.inner p l r)) → OneSide i x := by
    intro x hx
    unfold item locate at hx
    rw [reads_bind, reads_bind] at hx
    simp only [Prog.reads, Prog.eval, hk, thenReads_ok, List.nil_append] at hx
    rw [reads_bind, eval_bind] at hx
    simp only [Prog.eval, hk, Except.bind_ok] at hx
    rw [eval_bind] at hx
    rcases hd : (descend m b (n + 1)).eval T H [] (emb m (.inner p l r)) with e | e | y
    · simp only [hd, thenReads, Except.bind_error, List.append_nil] at hx
      exact h1 x hx
    · simp only [hd, thenReads, Except.bind_ok, List.append_nil] at hx
      exact h1 x hx
    · have hy := h2 y hd
      rw [hd] at hx
      simp only [Except.bind_ok, thenReads_ok, List.mem_append] at hx
      rcases hx with (hx | hx) | hx
      · exact h1 x hx
      · simp only [Prog.reads, List.mem_append] at hx
        rcases hx with hx | hx
        · exact readsOn_side hy hx
        · rcases hw : (TVal.sub (emb m (.inner p l r))).walk T [] y.1 with e | v | u <;> rw [hw] at hx
          · cases hx
          · cases hx
          · simp only at hx
            split at hx
            · simp only [Prog.reads, List.mem_append] at hx
              rcases hx with hx | hx
              · rcases hy with hy | ⟨π, hy⟩
                · rw [hy] at hx; exact .inl (readsOn_one hx)
                · rw [hy] at hx; exact readsOn_head hx
              · split at hx
                · split at hx
                  · split at hx <;> cases hx
                  · split at hx <;> cases hx
                · cases hx
            · cases hx
      · unfold thenReads at hx
        split at hx
        · next π hev =>
          rw [eval_cls_ok] at hev
          obtain ⟨u, hu, hev⟩ := hev
          have hπ : π = y.1 ++ [1] ∧ y.1 ≠ [] := by
            split at hev
            · next hc =>
              rw [eval_read_ok] at hev
              obtain ⟨v, _, hev⟩ := hev
              split at hev
              · split at hev
                · cases hev
                  refine ⟨rfl, fun he => ?_⟩
                  rw [he] at hu
                  cases hu
                  simp at hc
                · cases hev
              · split at hev
                · rename_i h; cases h
                · cases hev
            · cases hev
          obtain ⟨rfl, hne⟩ := hπ
          rcases hy with hy | ⟨π', hy⟩
          · exact absurd hy hne
          · simp only [Prog.reads, List.mem_append] at hx
            rcases hx with hx | hx
            · rw [hy] at hx; exact readsOn_head hx
            · split at hx <;> cases hx
        · cases hx
  constructor
  · unfold item locate
    rw [reads_bind, reads_bind]
    simp only [Prog.reads, Prog.eval, hk, thenReads_ok, List.nil_append]
    rw [reads_bind]
    exact List.mem_append_left _ (List.mem_append_left _ h0)
  · rcases hi with rfl | rfl
    · exact ⟨[2], _, varPath_right hD, fun h => (hmem _ h).ne (by decide) rfl⟩
    · exact ⟨[1], _, varPath_left hD, fun h => (hmem _ h).ne (by decide) rfl⟩

/-- The tree is what its class declares, except that prefixes may not be readable. -/
theorem emb_sendable (hD : Declares T H m tag τ kv) : ∀ {t : MB (Key τ) TVal},
    (∀ x ∈ t.pairs, (PFields.prim x.1.1 (PFields.cons x.2 .nil)).WellTyped T [.prim τ, kv]) → (emb m t).Sendable T True m
  | .empty, _ => by
    rw [emb, PTree.Sendable, hD.base, hD.empty]
    exact ⟨⟨0, rfl, rfl, by simp [Table.isInst], fun j hj => by omega⟩, trivial⟩
  | .leaf k v, hv => by
    rw [emb, PTree.Sendable, hD.base, hD.leaf]
    refine ⟨⟨1, rfl, rfl, by simp [Table.isInst], fun j hj => ?_⟩, (hv (k, v) (by simp [MB.pairs])).sendable⟩
    obtain rfl : j = 0 := by omega
    simp [Table.isInst, hD.leaf]
  | .inner p l r, hv => by
    have hl := emb_sendable hD (t := l) fun v h => hv v (by rw [MB.pairs]; exact List.mem_append_left _ h)
    have hr := emb_sendable hD (t := r) fun v h => hv v (by rw [MB.pairs]; exact List.mem_append_right _ h)
    rw [emb, PTree.Sendable, hD.base, hD.inner]
    refine ⟨⟨2, rfl, rfl, by simp [Table.isInst], fun j hj => ?_⟩, ?_⟩
    · obtain rfl | rfl : j = 0 ∨ j = 1 := by omega
      · simp [Table.isInst, hD.inner]
      · simp [Table.isInst, hD.inner]
    · simp only [PFields.Sendable]
      exact ⟨⟨rfl, .inr ⟨trivial, trivial⟩, _, Bits.serialize_ofIter p⟩, hl, hr, trivial⟩

/-- The prefixes of inner nodes. -/
def prefixes : MB (Key τ) TVal → List (List Bool)
  | .empty => []
  | .leaf _ _ => []
  | .inner p l r => p :: (prefixes l ++ prefixes r)

/-- The tree is what its class declares, if its prefixes can be read back. -/
theorem emb_typed (hD : Declares T H m tag τ kv) : ∀ {t : MB (Key τ) TVal},
    (∀ x ∈ t.pairs, (PFields.prim x.1.1 (PFields.cons x.2 .nil)).WellTyped T [.prim τ, kv]) → (∀ p ∈ prefixes t, (PVal.bits p).Reads) → (emb m t).WellTyped T m
  | .empty, _, _ => by
    rw [emb, PTree.WellTyped, hD.base, hD.empty]
    exact ⟨⟨0, rfl, rfl, by simp [Table.isInst], fun j hj => by omega⟩, trivial⟩
  | .leaf k v, hv, _ => by
    rw [emb, PTree.WellTyped, hD.base, hD.leaf]
    refine ⟨⟨1, rfl, rfl, by simp [Table.isInst], fun j hj => ?_⟩, hv (k, v) (by simp [MB.pairs])⟩
    obtain rfl : j = 0 := by omega
    simp [Table.isInst, hD.leaf]
  | .inner p l r, hv, hp => by
    have hl := emb_typed hD (t := l) (fun v h => hv v (by rw [MB.pairs]; exact List.mem_append_left _ h)) fun q hq => hp q (by simp [prefixes, hq])
    have hr := emb_typed hD (t := r) (fun v h => hv v (by rw [MB.pairs]; exact List.mem_append_right _ h)) fun q hq => hp q (by simp [prefixes, hq])
    rw [emb, PTree.WellTyped, hD.base, hD.inner]
    refine ⟨⟨2, rfl, rfl, by simp [Table.isInst], fun j hj => ?_⟩, ?_⟩
    · obtain rfl | rfl : j = 0 ∨ j = 1 := by omega
      · simp [Table.isInst, hD.inner]
      · simp [Table.isInst, hD.inner]
    · simp only [PFields.WellTyped]
      refine ⟨⟨rfl, hp p (by simp [prefixes]), _, Bits.serialize_ofIter p⟩, ⟨hl, ?_⟩, ⟨hr, ?_⟩, trivial⟩
      · intro us hus; rw [hD.base] at hus; cases hus; exact inst_variant l
      · intro us hus; rw [hD.base] at hus; cases hus; exact inst_variant r

theorem plain_prefixes : ∀ {t : MB (Key τ) TVal}, (emb m t).Plain → ∀ p ∈ prefixes t, (PVal.bits p).Reads
  | .empty, _, p, hp => by simp [prefixes] at hp
  | .leaf _ _, _, p, hp => by simp [prefixes] at hp
  | .inner q l r, h, p, hp => by
    simp only [emb, PTree.Plain, PFields.Plain] at h
    simp only [prefixes, List.mem_cons, List.mem_append] at hp
    rcases hp with rfl | hp | hp
    · exact h.1
    · exact plain_prefixes h.2.1 p hp
    · exact plain_prefixes h.2.2.1 p hp
end Merb
end Verif
