import Verif.Lemmas.Repr3
import Verif.Props.Bits
/-!
# Lemmas on the text forms of tags and bits
-/
namespace Verif.Rp
open Verif Verif.Sus

theorem cutGo_id {p : Str} {a : Char} (ha : a ∈ p) : ∀ {s : Str}, a ∉ s → cutGo p 0 s = s
  | [], _ => rfl
  | c :: s, h => by
    rw [cutGo, if_neg, cutGo_id ha (fun x => h (List.mem_cons_of_mem _ x))]
    intro hp
    exact h ((List.isPrefixOf_iff_prefix.1 hp).subset ha)

theorem cut_dash : ∀ s : Str, cut "-".toList s = s.filter (· ≠ '-')
  | [] => rfl
  | c :: s => by
    have ih := cut_dash s
    unfold cut at ih ⊢
    have e : "-".toList = ['-'] := rfl
    rw [e] at ih ⊢
    by_cases hc : c = '-'
    · subst hc
      rw [cutGo, if_pos (by simp [List.isPrefixOf])]
      simp only [List.length_singleton, Nat.sub_self]
      rw [ih]; simp
    · rw [cutGo, if_neg (by simp [List.isPrefixOf, Ne.symm hc]), ih]
      simp [hc]

theorem dropWhile_none {p : Char → Bool} : ∀ {s : Str}, (∀ c ∈ s, p c = false) → s.dropWhile p = s
  | [], _ => rfl
  | c :: s, h => by rw [List.dropWhile_cons_of_neg]; rw [h c (by simp)]; simp

theorem stripBraces_id {s : Str} (h : ∀ c ∈ s, c ≠ '{' ∧ c ≠ '}') : stripBraces s = s := by
  unfold stripBraces
  have h' : ∀ c ∈ s, decide (c = '{' ∨ c = '}') = false := fun c hc => by simp [h c hc]
  simp only
  rw [dropWhile_none h', dropWhile_none (fun c hc => h' c (List.mem_reverse.1 hc)), List.reverse_reverse]

/-- What a hexadecimal digit is not. -/
theorem hexVal_not {c : Char} {d : Nat} (h : hexVal c = some d) :
    d < 16 ∧ c ≠ '-' ∧ c ≠ ':' ∧ c ≠ '{' ∧ c ≠ '}' ∧ c ≠ '+' ∧ c ≠ '_' ∧ c ≠ 'x' ∧ c ≠ 'X' ∧ isSpace c = false := by
  refine ⟨?_, ?_⟩
  · unfold hexVal at h
    simp only at h
    split at h
    · cases h; omega
    · split at h
      · cases h; omega
      · split at h
        · cases h; omega
        · cases h
  · refine ⟨?_, ?_, ?_, ?_, ?_, ?_, ?_, ?_, ?_⟩
    iterate 8 (rintro rfl; revert h; decide +revert)
    unfold hexVal at h
    simp only at h
    have hsp : c ≠ ' ' := by rintro rfl; revert h; decide +revert
    have hlt : ¬ c.toNat ≤ 13 := by
      intro hle
      rw [if_neg (by omega), if_neg (by omega), if_neg (by omega)] at h
      cases h
    simp [isSpace, hsp, hlt]

/-- The number with these digits, after a number. -/
def hexFold (n : Nat) (ds : List Nat) : Nat := ds.foldl (fun n d => 16 * n + d) n

theorem digits16_plain : ∀ {s : Str} {ds : List Nat} (v : Nat) (u : Bool), s.mapM hexVal = some ds → (u = true → s ≠ []) →
    digits16 v u s = some (hexFold v ds)
  | [], ds, v, u, h, hu => by
    cases u with
    | true => exact absurd rfl (hu rfl)
    | false => simp at h; subst h; rfl
  | c :: s, ds, v, u, h, _ => by
    rw [List.mapM_cons] at h
    cases hc : hexVal c with
    | none => simp [hc] at h
    | some d =>
      cases hs : s.mapM hexVal with
      | none => simp [hc, hs] at h
      | some es =>
        simp [hc, hs] at h
        subst h
        have := hexVal_not hc
        rw [digits16, if_neg this.2.2.2.2.2.2.1]
        simp only [hc]
        rw [digits16_plain _ _ hs (by simp)]
        rfl

theorem mapM_mem {s : Str} {ds : List Nat} (h : s.mapM hexVal = some ds) : ∀ c ∈ s, ∃ d, hexVal c = some d := by
  induction s generalizing ds with
  | nil => simp
  | cons a s ih =>
    rw [List.mapM_cons] at h
    cases hc : hexVal a with
    | none => simp [hc] at h
    | some d =>
      cases hs : s.mapM hexVal with
      | none => simp [hc, hs] at h
      | some es =>
        intro c hm
        rcases List.mem_cons.1 hm with rfl | hm
        · exact ⟨d, hc⟩
        · exact ih hs c hm

theorem skip0x_plain {s : Str} (h : ∀ c ∈ s, c ≠ 'x' ∧ c ≠ 'X') : skip0x s = s := by
  unfold skip0x
  split
  · exact absurd rfl (h 'x' (by simp)).1
  · exact absurd rfl (h 'X' (by simp)).2
  · exact absurd rfl (h 'x' (by simp)).1
  · exact absurd rfl (h 'X' (by simp)).2
  · rfl

theorem pyInt16_plain {s : Str} {ds : List Nat} (h : s.mapM hexVal = some ds) (hne : s ≠ []) : pyInt16 s = .ok (hexFold 0 ds) := by
  have hm := mapM_mem h
  have hsp : ∀ c ∈ s, isSpace c = false := fun c hc => by obtain ⟨d, hd⟩ := hm c hc; exact (hexVal_not hd).2.2.2.2.2.2.2.2.2
  have hx : ∀ c ∈ s, c ≠ 'x' ∧ c ≠ 'X' := fun c hc => by obtain ⟨d, hd⟩ := hm c hc; have := hexVal_not hd; exact ⟨this.2.2.2.2.2.2.2.1, this.2.2.2.2.2.2.2.2.1⟩
  unfold pyInt16
  simp only
  rw [dropWhile_none hsp, dropWhile_none (fun c hc => hsp c (List.mem_reverse.1 hc)), List.reverse_reverse]
  cases s with
  | nil => exact absurd rfl hne
  | cons a s =>
    obtain ⟨d, hd⟩ := hm a (by simp)
    have hn := hexVal_not hd
    have h1 : a ≠ '-' := hn.2.1
    have h2 : a ≠ '+' := hn.2.2.2.2.2.1
    have hs : signed (a :: s) = (false, a :: s) := by
      unfold signed
      split
      · rename_i e; cases e; exact absurd rfl h1
      · rename_i e; cases e; exact absurd rfl h2
      · rfl
    rw [hs]
    simp only
    rw [skip0x_plain hx, digits16_plain 0 true h (by simp)]
    simp

/-- The number with these bytes, after a number. -/
def byteFold (n : Nat) (b : Bytes) : Nat := b.foldl (fun n x => 256 * n + x.toNat) n

theorem bigEndian_fold (b : Bytes) : bigEndian b.length (byteFold 0 b) = b := by
  induction b using List.reverseRecOn with
  | nil => rfl
  | append_singleton b x ih =>
    have hf : byteFold 0 (b ++ [x]) = 256 * byteFold 0 b + x.toNat := by simp [byteFold, List.foldl_append]
    have hx := x.isLt
    rw [List.length_append, List.length_singleton, bigEndian, hf, show (256 * byteFold 0 b + x.toNat) / 256 = byteFold 0 b by omega, ih]
    congr 2
    apply BitVec.eq_of_toNat_eq
    rw [BitVec.toNat_ofNat]
    omega

theorem byteFold_lt : ∀ (b : Bytes) (n : Nat), byteFold n b < (n + 1) * 256 ^ b.length
  | [], n => by simp [byteFold]
  | x :: b, n => by
    have hx := x.isLt
    have := byteFold_lt b (256 * n + x.toNat)
    have e : byteFold n (x :: b) = byteFold (256 * n + x.toNat) b := rfl
    rw [e, List.length_cons, Nat.pow_succ]
    refine lt_of_lt_of_le this ?_
    have : 256 * n + x.toNat + 1 ≤ (n + 1) * 256 := by omega
    calc (256 * n + x.toNat + 1) * 256 ^ b.length ≤ ((n + 1) * 256) * 256 ^ b.length := Nat.mul_le_mul_right _ this
      _ = (n + 1) * (256 ^ b.length * 256) := by ring

/-- Digits, two for every byte. -/
theorem unhex_plain : ∀ (k : Nat) {s : Str} {ds : List Nat}, s.length = 2 * k → s.mapM hexVal = some ds →
    ∃ b, unhex s = .ok b ∧ b.length = k ∧ ∀ n, byteFold n b = hexFold n ds
  | 0, s, ds, hl, h => by
    have : s = [] := List.length_eq_zero_iff.1 hl
    subst this
    simp at h; subst h
    exact ⟨[], rfl, rfl, fun n => rfl⟩
  | k + 1, [], ds, hl, h => by simp at hl
  | k + 1, [a], ds, hl, h => by simp at hl; omega
  | k + 1, a :: c :: s, ds, hl, h => by
    rw [List.mapM_cons, List.mapM_cons] at h
    cases ha : hexVal a with
    | none => simp [ha] at h
    | some d =>
      cases hc : hexVal c with
      | none => simp [ha, hc] at h
      | some e =>
        cases hs : s.mapM hexVal with
        | none => simp [ha, hc, hs] at h
        | some es =>
          simp [ha, hc, hs] at h
          subst h
          obtain ⟨b, h1, h2, h3⟩ := unhex_plain k (s := s) (by simp at hl; omega) hs
          refine ⟨BitVec.ofNat 8 (16 * d + e) :: b, by simp [unhex, ha, hc, h1, Except.bind_ok], by simp [h2], fun n => ?_⟩
          have hd := (hexVal_not ha).1
          have he := (hexVal_not hc).1
          have : byteFold n (BitVec.ofNat 8 (16 * d + e) :: b) = byteFold (256 * n + (16 * d + e)) b := by
            simp only [byteFold, List.foldl_cons, BitVec.toNat_ofNat]
            rw [Nat.mod_eq_of_lt (by omega)]
          rw [this, h3]
          simp only [hexFold, List.foldl_cons]
          congr 1
          ring

theorem uuidRange_nat {n : Nat} (h : n < 2 ^ 128) : uuidRange (n : Int) = true := by
  simp only [uuidRange, Int.toNat_natCast, h, Int.natCast_nonneg, decide_true, Bool.and_self]

theorem pow16 {n : Nat} (h : n < (0 + 1) * 256 ^ 16) : n < 2 ^ 128 := by
  rw [show (2 : Nat) ^ 128 = 256 ^ 16 by norm_num]; simpa using h

theorem uuid_end {N : Nat} {b : Bytes} (hI : uuidRange (N : Int) = true) (hbe : bigEndian 16 N = b) :
    ((do
      let n ← (.ok (N : Int) : Py Int)
      if uuidRange n = false then throw .valueError
      return bigEndian 16 n.toNat : Py Bytes)) = .ok b := by
  generalize uuidRange = R at *
  generalize bigEndian 16 = B at *
  rw [Except.bind_ok, if_neg (by rw [hI]; simp), Int.toNat_natCast, hbe]
  rfl

theorem uuidBytes_plain {h : Str} {ds : List Nat} (hds : h.mapM hexVal = some ds) :
    uuidBytes h = if h.length = 32 then unhex h else .error .valueError := by
  unfold uuidBytes
  by_cases hl : h.length = 32
  · rw [if_pos hl, if_neg (not_not.2 hl)]
    obtain ⟨b, h1, h2, h3⟩ := unhex_plain 16 (by rw [hl]) hds
    have hlt := byteFold_lt b 0
    rw [h2] at hlt
    have hI := uuidRange_nat (pow16 hlt)
    have hbe := bigEndian_fold b
    rw [h2] at hbe
    rw [h1, pyInt16_plain hds (by intro e; rw [e] at hl; simp at hl), ← h3 0]
    clear hlt
    generalize byteFold 0 b = N at *
    exact uuid_end hI hbe
  · rw [if_neg hl, if_pos hl]
    rfl

theorem newTag_plain {s : Str} (h : ∀ c ∈ s, c = '-' ∨ (hexVal c).isSome) :
    newTag s = if (s.filter (· ≠ '-')).length = 32 then unhex (s.filter (· ≠ '-')) else .error .valueError := by
  have hc : ':' ∉ s := by
    intro hm
    rcases h _ hm with e | e
    · cases e
    · revert e; decide
  have hb : ∀ c ∈ s, c ≠ '{' ∧ c ≠ '}' := by
    intro c hm
    rcases h _ hm with rfl | e
    · decide
    · obtain ⟨d, hd⟩ := Option.isSome_iff_exists.1 e
      have := hexVal_not hd
      exact ⟨this.2.2.2.1, this.2.2.2.2.1⟩
  unfold newTag
  rw [show cut "urn:".toList s = s from cutGo_id (a := ':') (by simp) hc, show cut "uuid:".toList s = s from cutGo_id (a := ':') (by simp) hc,
    stripBraces_id hb, cut_dash]
  have hm : ∃ ds, (s.filter (· ≠ '-')).mapM hexVal = some ds := by
    clear hc hb
    induction s with
    | nil => exact ⟨[], rfl⟩
    | cons c s ih =>
      obtain ⟨ds, hds⟩ := ih (fun c hc => h c (List.mem_cons_of_mem _ hc))
      rcases h c (by simp) with rfl | e
      · exact ⟨ds, by simpa using hds⟩
      · obtain ⟨d, hd⟩ := Option.isSome_iff_exists.1 e
        refine ⟨d :: ds, ?_⟩
        rw [List.filter_cons_of_pos (by simpa using (hexVal_not hd).2.1), List.mapM_cons, hds, hd]
        rfl
  obtain ⟨ds, hds⟩ := hm
  exact uuidBytes_plain hds

theorem b2x_hex (t : Bytes) : ∀ c ∈ b2x t, (hexVal c).isSome := by
  intro c hc
  simp only [b2x, List.mem_flatMap, List.mem_cons, List.not_mem_nil, or_false] at hc
  obtain ⟨x, -, rfl | rfl⟩ := hc
  · have := hexVal_hexChar ⟨x.toNat / 16, by have := x.isLt; omega⟩
    simp only at this
    rw [this]; rfl
  · have := hexVal_hexChar ⟨x.toNat % 16, by omega⟩
    simp only at this
    rw [this]; rfl

theorem strTag_filter (t : Bytes) : (strTag t).filter (· ≠ '-') = b2x t := by
  have hx := b2x_hex t
  have hid : ∀ s : Str, (∀ c ∈ s, c ∈ b2x t) → s.filter (· ≠ '-') = s := by
    intro s hs
    rw [List.filter_eq_self]
    intro c hc
    obtain ⟨d, hd⟩ := Option.isSome_iff_exists.1 (hx c (hs c hc))
    simpa using (hexVal_not hd).2.1
  unfold strTag
  simp only [List.filter_append, List.filter_cons, ne_eq, not_true, decide_false, Bool.false_eq_true, if_false]
  have hd : ∀ {n c}, c ∈ (b2x t).drop n → c ∈ b2x t := fun h => List.mem_of_mem_drop h
  have e1 := hid ((b2x t).take 8) (fun c hc => List.mem_of_mem_take hc)
  have e2 := hid (((b2x t).drop 8).take 4) (fun c hc => hd (List.mem_of_mem_take hc))
  have e3 := hid (((b2x t).drop 12).take 4) (fun c hc => hd (List.mem_of_mem_take hc))
  have e4 := hid (((b2x t).drop 16).take 4) (fun c hc => hd (List.mem_of_mem_take hc))
  have e5 := hid ((b2x t).drop 20) (fun c hc => hd hc)
  simp only [ne_eq] at e1 e2 e3 e4 e5
  rw [e1, e2, e3, e4, e5]
  have step : ∀ n, ((b2x t).drop n).take 4 ++ (b2x t).drop (n + 4) = (b2x t).drop n := by
    intro n
    rw [← List.drop_drop, List.take_append_drop]
  rw [step 16, step 12, step 8, List.take_append_drop]

theorem strTag_mem (t : Bytes) : ∀ c ∈ strTag t, c = '-' ∨ (hexVal c).isSome := by
  intro c hc
  by_cases h : c = '-'
  · exact Or.inl h
  · right
    apply b2x_hex t
    rw [← strTag_filter t, List.mem_filter]
    exact ⟨hc, by simpa using h⟩

theorem newTag_strTag {t : Bytes} (h : t.length = 16) : newTag (strTag t) = .ok t := by
  rw [newTag_plain (strTag_mem t), strTag_filter, if_pos, unhex_b2x]
  have : ∀ t : Bytes, (b2x t).length = 2 * t.length := by
    intro t
    induction t with
    | nil => rfl
    | cons x t ih => rw [b2x, List.flatMap_cons, List.length_append]; unfold b2x at ih; rw [ih]; simp; omega
  rw [this, h]

theorem strTag_plain (t : Bytes) : ∀ c ∈ strTag t, c ≠ '\'' ∧ c ≠ '\\' ∧ c ≠ '\n' := by
  intro c hc
  rcases strTag_mem t c hc with rfl | h
  · decide
  · refine ⟨?_, ?_, ?_⟩ <;> (rintro rfl; revert h; decide)

theorem callTag (s : Str) : callLib "HashTag" [.str s] = result (newTag s) .tag := rfl
theorem tagName : String.ofList ('H' :: "ashTag".toList) = "HashTag" := by decide

theorem tag_text (T : Str) (hT : ∀ c ∈ T, c ≠ '\'' ∧ c ≠ '\\' ∧ c ≠ '\n') :
    ExprAt ("HashTag('".toList ++ (T ++ "')".toList)) (.call ('H' :: "ashTag".toList) [.str T]) := by
  have ha := args_one (close := ')') (Or.inl rfl) (str_at hT).expr
  have := call_at (c := 'H') (f := "ashTag".toList) (by decide) (by decide) ha
  have e : "HashTag('".toList ++ (T ++ "')".toList) = 'H' :: "ashTag".toList ++ '(' :: ('\'' :: (T ++ ['\'']) ++ [')']) := by
    simp
  rw [e]
  exact this.expr

theorem tag_eval {T : Str} {t : Bytes} (h : newTag T = .ok t) : eval (.call ('H' :: "ashTag".toList) [.str T]) = some (.tag t) := by
  have : ∀ f : Str, eval (.call f [.str T]) = callLib (String.ofList f) [.str T] := fun f => by
    simp only [eval, evals, Option.bind_eq_bind, Option.bind_some, pure]
  rw [this, tagName, callTag, h]
  rfl

theorem tag_shown {t : Bytes} (h : t.length = 16) : ∃ e, ExprAt (reprTag t) e ∧ eval e = some (.tag t) :=
  ⟨_, tag_text (strTag t) (strTag_plain t), tag_eval (newTag_strTag h)⟩

/-! ## Bits -/

/-- A comma without a space. -/
theorem args_cons_tight {close : Char} (hc : Closing close) {s t : Str} {e : Expr} {es : List Expr} {comma : Bool} (h : ExprAt s e)
    (ht : ArgsAt t close es comma) (hsp : ∀ r, t ≠ ' ' :: r) : ArgsAt (s ++ ',' :: t) close (e :: es) comma := by
  intro n hn rest
  obtain ⟨m, rfl⟩ : ∃ m, n = m + 1 := ⟨n - 1, by omega⟩
  obtain ⟨c, u, hs, h1, h2, h3⟩ := h.head
  have hne : c ≠ close := by rcases hc with rfl | rfl <;> assumption
  simp only [List.length_append, List.length_cons] at hn
  have hp := h m (by omega) (',' :: (t ++ close :: rest)) .comma
  have e1 : (s ++ ',' :: t) ++ close :: rest = s ++ ',' :: (t ++ close :: rest) := by simp
  have hdrop : (t ++ close :: rest).dropWhile (· = ' ') = t ++ close :: rest := by
    cases t with
    | nil =>
      have hcs : close ≠ ' ' := by rcases hc with rfl | rfl <;> decide
      simp [hcs]
    | cons a t =>
      have ha : a ≠ ' ' := by rintro rfl; exact hsp t rfl
      simp [ha]
  rw [e1]
  rw [hs, List.cons_append] at hp ⊢
  simp only [pArgs, hne, if_false]
  rw [hp]
  simp only [bind, Option.bind]
  rw [hdrop, ht m (by omega) rest]
  rfl

theorem args_tight {close : Char} (hc : Closing close) {ss : List Str} {es : List Expr} (h : List.Forall₂ ExprAt ss es) :
    ArgsAt (joinTight ss) close es ss.isEmpty ∧ ∀ r, joinTight ss ≠ ' ' :: r := by
  induction h with
  | nil => exact ⟨args_nil, by intro r h; cases h⟩
  | @cons s e ss es h hs ih =>
    obtain ⟨c, t, e1, h1, -⟩ := h.head
    cases hs with
    | nil => exact ⟨args_one hc h, by intro r hr; simp only [joinTight] at hr; rw [e1] at hr; cases hr; exact h1 rfl⟩
    | @cons s' e' ss es h' hs =>
      refine ⟨args_cons_tight hc h ih.1 ih.2, ?_⟩
      intro r hr
      simp only [joinTight] at hr
      rw [e1] at hr
      cases hr
      exact h1 rfl

theorem bits_shown {b : Bits} (h : b.WF) : ∃ text e xs, reprBits b = .ok text ∧ ExprAt text e ∧ b.iter = .ok xs ∧
    eval e = some (.bits (Bits.ofIter xs)) := by
  obtain ⟨h1, -⟩ := C09_iter h
  generalize firstBits b.buf b.length = xs at h1
  refine ⟨_, .call "Bits".toList [.list (xs.map fun x => .num (if x then ['1'] else ['0']))], xs, by rw [reprBits, h1]; rfl, ?_, h1, ?_⟩
  · have hall : List.Forall₂ ExprAt (xs.map fun bit => if bit then ['1'] else ['0']) (xs.map fun x => Expr.num (if x then ['1'] else ['0'])) := by
      clear h1
      induction xs with
      | nil => exact .nil
      | cons x xs ih =>
        refine .cons ?_ ih
        cases x
        · exact (num_at (c := '0') (s := []) (by decide) (by decide)).expr
        · exact (num_at (c := '1') (s := []) (by decide) (by decide)).expr
    have := call_at (c := 'B') (f := "its".toList) (by decide) (by decide) (args_one (Or.inl rfl) (list_at (args_tight (Or.inr rfl) hall).1).expr)
    have e : ∀ J : Str, "Bits([".toList ++ (J ++ "])".toList) = 'B' :: "its".toList ++ '(' :: ('[' :: (J ++ [']']) ++ [')']) := by
      intro J; simp
    rw [e]
    exact this.expr
  · have hev : evals (xs.map fun x => Expr.num (if x then ['1'] else ['0'])) = some (xs.map fun x => .int (if x then 1 else 0)) := by
      clear h1
      induction xs with
      | nil => rfl
      | cons x xs ih =>
        rw [List.map_cons, evals, ih]
        cases x <;> rfl
    have htr : (xs.map fun x => Val.int (if x then 1 else 0)).mapM Val.truth = some xs := by
      clear h1 hev
      induction xs with
      | nil => rfl
      | cons x xs ih =>
        rw [List.map_cons, List.mapM_cons, ih]
        cases x <;> rfl
    simp only [eval, evals, hev, Option.bind_eq_bind, Option.bind_some, pure]
    have : callLib "Bits" [Val.list (xs.map fun x => Val.int (if x then 1 else 0))] =
      ((xs.map fun x => Val.int (if x then 1 else 0)).mapM Val.truth).bind fun bs => some (.bits (Bits.ofIter bs)) := rfl
    rw [String.ofList_toList, this, htr]
    rfl

end Verif.Rp
