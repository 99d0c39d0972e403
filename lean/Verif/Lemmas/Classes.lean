import Verif.Lemmas.ProofBind
import Verif.Model.Classes
/-! The classes of the repository meet the conditions under which hashes identify proofs. -/
namespace Verif
set_option linter.unusedSectionVars false
variable {T : Table} {H : HashFns}

/-- Tags given as a list. -/
theorem tags_of_list {n : Nat} {tags : List (Option Bytes)} (h1 : (List.range n).map (fun c => (T c).hashtag) = tags)
    (h2 : ∀ c, n ≤ c → (T c).hashtag = none) (h3 : ∀ i ∈ List.range n, ∀ j ∈ List.range n, tags[i]? = tags[j]? → tags[i]? = some none ∨ i = j)
    (c c' : Nat) (tag : Bytes) (h : (T c).hashtag = some tag) (h' : (T c').hashtag = some tag) : c = c' := by
  have hc : c < n := by
    rcases Nat.lt_or_ge c n with hc | hc
    · exact hc
    · rw [h2 c hc] at h; cases h
  have hc' : c' < n := by
    rcases Nat.lt_or_ge c' n with hc | hc
    · exact hc
    · rw [h2 c' hc] at h'; cases h'
  have e1 : tags[c]? = some (some tag) := by rw [← h1, ← h]; simp [hc]
  have e2 : tags[c']? = some (some tag) := by rw [← h1, ← h']; simp [hc']
  rcases h3 c (List.mem_range.2 hc) c' (List.mem_range.2 hc') (e1.trans e2.symm) with h | h
  · rw [e1] at h; cases h
  · exact h

theorem classes_isTx {g : GuMapDecl} {c : Nat} (h : (classes H g c).isTx = true) : c = 0 := by
  unfold classes at h
  split at h <;> first | rfl | cases h

theorem classes_wf {g : GuMapDecl} : (classes H g).WF := by
  intro c h
  rw [classes_isTx h]; rfl

theorem classes_ge {g : GuMapDecl} {c : Nat} (h : 14 ≤ c) : classes H g c = { hashtag := none, attrs := [] } := by
  unfold classes
  split <;> first | rfl | omega

/-- A kind that allows `TxProof` allows nothing else. -/
def Kind.TxOnly (k : Kind) (T : Table) : Prop := ∀ c1 c2, k.Allows T c1 → k.Allows T c2 → (T c1).isTx = true → c1 = c2

theorem classes_root {g : GuMapDecl} (c : Nat) : (Kind.proof c).TxOnly (classes H g) := by
  intro c1 c2 h1 h2 hx
  have := classes_isTx hx
  subst this
  have hc : c = 0 := by
    rcases h1 with h | ⟨us, h, hm⟩
    · exact h.symm
    · unfold classes at h
      split at h <;> cases h <;> simp [Cls.unusedPrefix, Cls.leafPrefix, Cls.innerPrefix] at hm
  subst hc
  rcases h2 with h | ⟨us, h, hm⟩
  · exact h.symm
  · cases h

theorem classes_binds {g : GuMapDecl} (htags : ∀ (c c' : Nat) (tag : Bytes), (classes H g c).hashtag = some tag → (classes H g c').hashtag = some tag → c = c')
    (hk : g.key.TxOnly (classes H g)) (hv : g.value.TxOnly (classes H g)) : (classes H g).Binds where
  tags := htags
  root c := classes_root c
  txTag c h := by rw [classes_isTx h]; rfl
  tx c k hm := by
    have key : k = g.key ∨ k = g.value ∨ (∃ c, k = .proof c) ∨ (∃ τ, k = .prim τ) ∨ k = .union [Cls.fakeSeal, Cls.btcSeal] ∨ k = .union [Cls.fakeWitness, Cls.btcWitness] := by
      unfold classes at hm
      split at hm <;> simp at hm <;> grind
    rcases key with rfl | rfl | ⟨c, rfl⟩ | ⟨τ, rfl⟩ | rfl | rfl
    · exact hk
    · exact hv
    · exact classes_root c
    · intro c1 c2 h; exact h.elim
    · intro c1 c2 h1 _ hx
      have := classes_isTx hx
      subst this
      exact absurd h1 (by simp [Kind.Allows, Table.isInst, classes, Cls.fakeSeal, Cls.btcSeal])
    · intro c1 c2 h1 _ hx
      have := classes_isTx hx
      subst this
      exact absurd h1 (by simp [Kind.Allows, Table.isInst, classes, Cls.fakeWitness, Cls.btcWitness])

/-- In particular for `IntGuMap`. -/
theorem classes_int_binds : (classes realHash intGuMap).Binds := by
  refine classes_binds (tags_of_list (n := 14) (tags := [none,
    some (hex "557eb53363be497db1637d1875de9681"), some (hex "65d34d83329148139119bd7e29b9dea3"), some (hex "ed6246637a204dd689809870003dfbe7"), none, none,
    some (hex "e5690d7316e34f8fbd4f148c32d37baf"), some (hex "a5092f563a31476aac811b00211140eb"), some (hex "b59093bf527f4d2a9a513c2e3d2f0c25"),
    some (hex "2ca464a01b8c4aa58e725d3aaa804cbd"), some (hex "7377738488f040cca836443cc6db3589"), some (hex "7ba7cc0a6aa369b2b30c0b11de6d317f"),
    some (hex "533e43735ddf4bb4872c8c261ec8c640"), some (hex "394e5f08289bbf2cc227ad3e20437dd3")]) ?_ ?_ ?_)
    (fun c1 c2 h => h.elim) (fun c1 c2 h => h.elim)
  · decide +kernel
  · intro c h; rw [classes_ge h]
  · decide +kernel

theorem testClasses_binds : (testClasses realHash).Binds where
  tags := by
    refine tags_of_list (n := 8) (tags := [some (hex "19e5278a76cc479c8713e7648636979c"), some (hex "4c3cce550a90404ebaf3a6720205e8ab"),
      some (hex "0790a99e0a124677b4c657054039b9cf"), some (hex "4ea08e18a74e7c77e609b42c480c806a"), some (hex "d086ebe8eaaa3a8d13aa015e833d2f63"),
      some (hex "15e1e618f2ce29acf2c5cbf2205e4cc6"), some (hex "00000000000000000000000000000006"), some (hex "498430c54ed18dd53f0997e0725c3407")]) ?_ ?_ ?_
    · decide +kernel
    · intro c h
      unfold testClasses
      split <;> first | rfl | omega
    · decide +kernel
  tx := by
    intro c k hm c1 c2 _ _ h
    unfold testClasses at h
    split at h <;> cases h
  root := by
    intro c c1 c2 _ _ h
    unfold testClasses at h
    split at h <;> cases h
  txTag := by
    intro c h
    unfold testClasses at h
    split at h <;> cases h

end Verif
