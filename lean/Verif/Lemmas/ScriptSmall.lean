import Verif.Lemmas.ScriptSig
/-! # Sizes of values on the stack -/
namespace Verif.Btc
open Verif

theorem num_length (L : Lang) {n : Int} (h : n.natAbs < 2 ^ 63) : (L.num n).length ≤ 8 := by
  have hs := L.num_spec n h
  by_cases h0 : n = 0
  · subst h0
    rw [← hs.2 [] numOf_nil (by simp)]; simp
  · rw [(shortestNum_iff h0).mp hs, signed_length]
    rw [show (63 : Nat) = 8 * 8 - 1 from rfl, size_iff h0] at h
    exact h

/-- All values have at most `M` bytes. -/
def AllLe (M : Nat) (s : List Bytes) : Prop := ∀ x ∈ s, x.length ≤ M

theorem AllLe.cons {M : Nat} {x : Bytes} {s : List Bytes} : AllLe M (x :: s) ↔ x.length ≤ M ∧ AllLe M s := by simp [AllLe]

theorem un_small {L : Lang} {M : Nat} (hM : 32 ≤ M) {f : Int → Int} (hf : ∀ x, x.natAbs < 2 ^ 31 → (f x).natAbs < 2 ^ 63) {s s' : List Bytes} (hs : AllLe M s)
    (h : L.un f s = some s') : AllLe M s' := by
  rcases s with _ | ⟨a, s⟩
  · cases h
  · rw [Lang.un] at h
    rcases ha : arg a with _ | x
    · rw [ha] at h; cases h
    · rw [ha] at h
      simp only [Option.bind_eq_bind, Option.bind_some, Option.some.injEq] at h
      subst h
      have := num_length L (hf x (arg_bound ha))
      exact AllLe.cons.mpr ⟨by omega, (AllLe.cons.mp hs).2⟩

theorem bin_small {L : Lang} {M : Nat} (hM : 32 ≤ M) {f : Int → Int → Int} (hf : ∀ x y, x.natAbs < 2 ^ 31 → y.natAbs < 2 ^ 31 → (f x y).natAbs < 2 ^ 63) {s s' : List Bytes}
    (hs : AllLe M s) (h : L.bin f s = some s') : AllLe M s' := by
  rcases s with _ | ⟨b, _ | ⟨a, s⟩⟩
  · cases h
  · cases h
  · rw [Lang.bin] at h
    rcases hb : arg b with _ | y
    · rw [hb] at h; cases h
    · rcases ha : arg a with _ | x
      · rw [ha, hb] at h; cases h
      · rw [ha, hb] at h
        simp only [Option.bind_eq_bind, Option.bind_some, Option.some.injEq] at h
        subst h
        have := num_length L (hf x y (arg_bound ha) (arg_bound hb))
        exact AllLe.cons.mpr ⟨by omega, (AllLe.cons.mp (AllLe.cons.mp hs).2).2⟩

theorem bool_small {L : Lang} (hff : L.ff.length ≤ 1) {M : Nat} (hM : 32 ≤ M) (c : Prop) [Decidable c] : (L.bool c).length ≤ M := by
  unfold Lang.bool
  split
  · simp; omega
  · omega

theorem bit_small (c : Prop) [Decidable c] : (Lang.bit c).natAbs < 2 ^ 63 := by
  unfold Lang.bit
  split <;> decide

theorem effect_small {L : Lang} (hff : L.ff.length ≤ 1) {M : Nat} (hM : 32 ≤ M) (hM2 : M < 2 ^ 32) {o : Nat} {s s' : List Bytes} (hl : s.length < 2 ^ 62) (hs : AllLe M s)
    (h : L.effect o s = some s') : AllLe M s' := by
  have hn : ∀ n : Int, n.natAbs < 2 ^ 63 → (L.num n).length ≤ M := fun n hn => Nat.le_trans (num_length L hn) (by omega)
  have hh := fun a => L.C.H.sha256_len a
  have hr := fun a => L.C.H.ripemd160_len a
  have h1 := fun a => L.C.sha1_len a
  unfold Lang.effect at h
  split at h
  -- small numbers
  iterate 17
    cases h
    exact AllLe.cons.mpr ⟨hn _ (by decide), hs⟩
  · cases h; exact hs
  · split at h
    · split at h
      · cases h; exact (AllLe.cons.mp hs).2
      · cases h
    · cases h
  -- 2DROP to 2SWAP
  iterate 6
    split at h
    · cases h; simp only [AllLe.cons] at hs ⊢; simp only [hs, and_self]
    · cases h
  -- IFDUP
  · split at h
    · cases h
      split
      · simp only [AllLe.cons] at hs ⊢; simp only [hs, and_self]
      · exact hs
    · cases h
  · cases h; exact AllLe.cons.mpr ⟨hn _ (by omega), hs⟩
  iterate 4
    split at h
    · cases h; simp only [AllLe.cons] at hs ⊢; simp only [hs, and_self]
    · cases h
  -- PICK
  · split at h
    · next a s =>
      rcases ha : arg a with _ | n
      · rw [ha] at h; cases h
      · rw [ha] at h
        simp only [Option.bind_eq_bind, Option.bind_some] at h
        split at h
        · cases h
        · obtain ⟨x, hx, h⟩ := Option.map_eq_some_iff.mp h
          subst h
          exact AllLe.cons.mpr ⟨hs x (List.mem_cons_of_mem _ (List.mem_of_getElem? hx)), (AllLe.cons.mp hs).2⟩
    · cases h
  -- ROLL
  · split at h
    · next a s =>
      rcases ha : arg a with _ | n
      · rw [ha] at h; cases h
      · rw [ha] at h
        simp only [Option.bind_eq_bind, Option.bind_some] at h
        split at h
        · cases h
        · obtain ⟨x, hx, h⟩ := Option.map_eq_some_iff.mp h
          subst h
          refine AllLe.cons.mpr ⟨hs x (List.mem_cons_of_mem _ (List.mem_of_getElem? hx)), fun y hy => ?_⟩
          rcases List.mem_append.mp hy with hy | hy
          · exact hs y (List.mem_cons_of_mem _ (List.mem_of_mem_take hy))
          · exact hs y (List.mem_cons_of_mem _ (List.mem_of_mem_drop hy))
    · cases h
  iterate 3
    split at h
    · cases h; simp only [AllLe.cons] at hs ⊢; simp only [hs, and_self]
    · cases h
  -- SIZE
  · split at h
    · cases h
      have := (AllLe.cons.mp hs).1
      exact AllLe.cons.mpr ⟨hn _ (by omega), hs⟩
    · cases h
  · split at h
    · cases h
      exact AllLe.cons.mpr ⟨bool_small hff hM _, (AllLe.cons.mp (AllLe.cons.mp hs).2).2⟩
    · cases h
  · split at h
    · split at h
      · cases h; exact (AllLe.cons.mp (AllLe.cons.mp hs).2).2
      · cases h
    · cases h
  · exact un_small hM (fun x hx => by omega) hs h
  · exact un_small hM (fun x hx => by omega) hs h
  · exact un_small hM (fun x hx => by omega) hs h
  · exact un_small hM (fun x hx => by omega) hs h
  · exact un_small hM (fun x hx => bit_small _) hs h
  · exact un_small hM (fun x hx => bit_small _) hs h
  · exact bin_small hM (fun x y hx hy => by omega) hs h
  · exact bin_small hM (fun x y hx hy => by omega) hs h
  · exact bin_small hM (fun x y hx hy => bit_small _) hs h
  · exact bin_small hM (fun x y hx hy => bit_small _) hs h
  · exact bin_small hM (fun x y hx hy => bit_small _) hs h
  · split at h
    · next b a s =>
      rcases hb : arg b with _ | y
      · rw [hb] at h; cases h
      · rcases ha : arg a with _ | x
        · rw [ha, hb] at h; cases h
        · rw [ha, hb] at h
          simp only [Option.bind_eq_bind, Option.bind_some] at h
          split at h
          · cases h; exact (AllLe.cons.mp (AllLe.cons.mp hs).2).2
          · cases h
    · cases h
  iterate 5
    exact bin_small hM (fun x y hx hy => bit_small _) hs h
  · exact bin_small hM (fun x y hx hy => by omega) hs h
  · exact bin_small hM (fun x y hx hy => by omega) hs h
  · split at h
    · next c b a s =>
      rcases hc : arg c with _ | z
      · rw [hc] at h; cases h
      · rcases hb : arg b with _ | y
        · rw [hb, hc] at h; cases h
        · rcases ha : arg a with _ | x
          · rw [ha, hb, hc] at h; cases h
          · rw [ha, hb, hc] at h
            simp only [Option.bind_eq_bind, Option.bind_some, Option.some.injEq] at h
            subst h
            exact AllLe.cons.mpr ⟨bool_small hff hM _, (AllLe.cons.mp (AllLe.cons.mp (AllLe.cons.mp hs).2).2).2⟩
    · cases h
  iterate 5
    split at h
    · cases h; exact AllLe.cons.mpr ⟨by first | rw [hh]; omega | rw [hr]; omega | rw [h1]; omega, (AllLe.cons.mp hs).2⟩
    · cases h
  · split at h
    · cases h; exact hs
    · cases h

end Verif.Btc
