import Verif.Model.SusTool
import Verif.Lemmas.Bits
/-! # Hexadecimal and decimal text -/
namespace Verif.Sus
open Verif Btc

theorem hexVal_hexChar : ∀ d : Fin 16, hexVal (hexChar d) = some d.val := by decide

theorem hexChar_ok (d : Fin 16) : hexChar d ≠ ':' ∧ hexChar d ≠ '_' ∧ hexChar d ≠ '-' ∧ hexChar d ≠ '+' ∧ isSpace (hexChar d) = false := by
  revert d; decide

theorem digitVal_hexChar : ∀ d : Fin 10, digitVal (hexChar d) = some d.val := by decide

theorem unhex_b2x : ∀ b : Bytes, unhex (b2x b) = .ok b
  | [] => rfl
  | x :: b => by
    have hx : x.toNat < 256 := x.isLt
    have h1 := hexVal_hexChar ⟨x.toNat / 16, by omega⟩
    have h2 := hexVal_hexChar ⟨x.toNat % 16, by omega⟩
    simp only at h1 h2
    have ih := unhex_b2x b
    unfold b2x at ih ⊢
    rw [List.flatMap_cons]
    simp only [List.cons_append, List.nil_append]
    rw [unhex, h1, h2]
    simp only [ih, Except.bind_ok, pure, Except.pure, Except.ok.injEq, List.cons.injEq, and_true]
    apply BitVec.eq_of_toNat_eq
    rw [BitVec.toNat_ofNat]
    omega

theorem lx_b2lx (b : Bytes) : lx (b2lx b) = .ok b := by
  unfold lx b2lx
  rw [unhex_b2x, Except.bind_ok, List.reverse_reverse]
  rfl

theorem mem_b2x {b : Bytes} {c : Char} (h : c ∈ b2x b) : ∃ d : Fin 16, c = hexChar d := by
  unfold b2x at h
  obtain ⟨x, _, h⟩ := List.mem_flatMap.mp h
  have hx : x.toNat < 256 := x.isLt
  simp only [List.mem_cons, List.not_mem_nil, or_false] at h
  rcases h with h | h
  · exact ⟨⟨x.toNat / 16, by omega⟩, h⟩
  · exact ⟨⟨x.toNat % 16, by omega⟩, h⟩

theorem mem_decNat : ∀ (n : Nat) {c : Char}, c ∈ decNat n → ∃ d : Fin 10, c = hexChar d := by
  intro n
  induction n using Nat.strongRecOn with
  | _ n ih =>
    intro c h
    unfold decNat at h
    split at h
    · rename_i hn
      simp only [List.mem_cons, List.not_mem_nil, or_false] at h
      exact ⟨⟨n, hn⟩, h⟩
    · rename_i hn
      rw [List.mem_append] at h
      rcases h with h | h
      · exact ih (n / 10) (by omega) h
      · simp only [List.mem_cons, List.not_mem_nil, or_false] at h
        exact ⟨⟨n % 10, by omega⟩, h⟩

theorem decNat_ne (n : Nat) : decNat n ≠ [] := by
  unfold decNat
  split <;> simp

theorem digits_decNat : ∀ (n v : Nat) (u : Bool) (rest : Str), ∃ k, digits v u (decNat n ++ rest) = digits (k * v + n) false rest := by
  intro n
  induction n using Nat.strongRecOn with
  | _ n ih =>
    intro v u rest
    unfold decNat
    have step : ∀ (d : Nat) (v : Nat) (u : Bool), d < 10 → digits v u (hexChar d :: rest) = digits (10 * v + d) false rest := by
      intro d v u hd
      have h1 := digitVal_hexChar ⟨d, hd⟩
      have h2 := (hexChar_ok ⟨d, by omega⟩).2.1
      simp only at h1 h2
      rw [digits, if_neg h2, h1]
    split
    · rename_i hn
      exact ⟨10, step n v u hn⟩
    · rename_i hn
      rw [List.append_assoc]
      obtain ⟨k, hk⟩ := ih (n / 10) (by omega) v u ([hexChar (n % 10)] ++ rest)
      refine ⟨10 * k, ?_⟩
      rw [hk, List.cons_append, List.nil_append, step _ _ _ (by omega)]
      congr 1
      rw [Nat.mul_add, Nat.mul_assoc]
      omega

theorem dropWhile_none {p : Char → Bool} : ∀ {s : Str}, (∀ c ∈ s, p c = false) → s.dropWhile p = s
  | [], _ => rfl
  | c :: s, h => by rw [List.dropWhile_cons, h c (by simp)]; rfl

/-- `int('%d' % n) == n`. -/
theorem pyInt_dec {i : Int} (hi : 0 ≤ i) : pyInt (dec i) = .ok i := by
  unfold dec
  rw [if_neg (by omega)]
  have hnat : ((i.natAbs : Nat) : Int) = i := by omega
  have hsp : ∀ c ∈ decNat i.natAbs, isSpace c = false := fun c hc => by
    obtain ⟨d, rfl⟩ := mem_decNat _ hc
    exact (hexChar_ok ⟨d, by omega⟩).2.2.2.2
  unfold pyInt
  rw [dropWhile_none hsp, dropWhile_none (fun c hc => hsp c (List.mem_reverse.mp hc)), List.reverse_reverse]
  cases hd : decNat i.natAbs with
  | nil => exact absurd hd (decNat_ne _)
  | cons c cs =>
    obtain ⟨d, hc⟩ := mem_decNat i.natAbs (c := c) (by rw [hd]; simp)
    have h1 := hexChar_ok ⟨d, by omega⟩
    have e1 : c ≠ '-' := by rw [hc]; exact h1.2.2.1
    have e2 : c ≠ '+' := by rw [hc]; exact h1.2.2.2.1
    have hm : ∀ (f : Bool × Str → Py Int), f (match c :: cs with
        | '-' :: s => (true, s)
        | '+' :: s => (false, s)
        | s => (false, s)) = f (false, c :: cs) := by
      intro f
      congr 1
      split
      · rename_i h; cases h; exact absurd rfl e1
      · rename_i h; cases h; exact absurd rfl e2
      · rfl
    obtain ⟨k, hk⟩ := digits_decNat i.natAbs 0 true []
    rw [List.append_nil, hd] at hk
    have hk' : digits 0 true (c :: cs) = some i.natAbs := by
      rw [hk, Nat.mul_zero, Nat.zero_add, digits]; rfl
    refine Eq.trans (hm fun p => match digits 0 true p.2 with
      | some n => .ok (if p.1 then -(n : Int) else n)
      | none => .error .valueError) ?_
    simp only [hk', Bool.false_eq_true, if_false, hnat]

theorem takeWhile_append {p : Char → Bool} {s t : Str} {c : Char} (h : ∀ c ∈ s, p c = true) (hc : p c = false) :
    (s ++ c :: t).takeWhile p = s ∧ (s ++ c :: t).dropWhile p = c :: t := by
  induction s with
  | nil => simp [hc]
  | cons a s ih =>
    have ha := h a (by simp)
    obtain ⟨h1, h2⟩ := ih fun c hc => h c (by simp [hc])
    simp [ha, h1, h2]

/-- Text `hex:decimal` parses to the outpoint with the bytes of the text reversed. -/
theorem strToCOutPoint_text {o : COutPoint} {h : Bytes} (hv : h.length = 32 ∧ 0 ≤ o.n ∧ o.n ≤ 0xffffffff) :
    strToCOutPoint (b2x h ++ ':' :: dec o.n) = .ok ⟨h.reverse, o.n⟩ := by
  have h1 : ∀ c ∈ b2x h, c ≠ ':' := fun c hc => by
    obtain ⟨d, rfl⟩ := mem_b2x hc
    exact (hexChar_ok d).1
  have h2 : ∀ c ∈ dec o.n, c ≠ ':' := fun c hc => by
    unfold dec at hc
    rw [if_neg (by omega)] at hc
    obtain ⟨d, rfl⟩ := mem_decNat _ hc
    exact (hexChar_ok ⟨d, by omega⟩).1
  obtain ⟨h3, h4⟩ := takeWhile_append (p := fun c => decide (c ≠ ':')) (s := b2x h) (t := dec o.n) (c := ':')
    (fun c hc => by simpa using h1 c hc) (by simp)
  have h5 : (b2x h ++ ':' :: dec o.n).count ':' = 1 := by
    rw [List.count_append, List.count_cons, List.count_eq_zero_of_not_mem (fun hc => h1 _ hc rfl),
      List.count_eq_zero_of_not_mem (fun hc => h2 _ hc rfl)]
    rfl
  unfold strToCOutPoint lx
  rw [h5, h3, h4, unhex_b2x]
  simp only [ne_eq, not_true_eq_false, if_false, Except.bind_ok, pure, Except.pure, List.drop_succ_cons, List.drop_zero]
  rw [pyInt_dec hv.2.1]
  simp only [Except.bind_ok]
  rw [COutPoint.new, if_neg (by rw [List.length_reverse]; omega), if_neg (by omega)]
  rfl

end Verif.Sus
