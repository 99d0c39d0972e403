import Verif.Spec.Repr
import Verif.Lemmas.SusText
import Verif.Lemmas.Float
/-! # Reading the texts back -/
namespace Verif.Rp
open Verif Verif.Btc Verif.Sus Verif.Rpc

/-! ## Parsing -/

/-- Nothing that goes on with a word, or makes it a call. -/
def Stop (rest : Str) : Prop := ∀ c r, rest = c :: r → wordChar c = false ∧ c ≠ '('

/-- Nothing that goes on with an expression. -/
def Stop2 (rest : Str) : Prop := Stop rest ∧ ∀ r, rest ≠ '*' :: r

def AtomAt (s : Str) (e : Expr) : Prop := ∀ n, 2 * s.length ≤ n → ∀ rest, Stop rest → pAtom n (s ++ rest) = some (e, rest)
def ExprAt (s : Str) (e : Expr) : Prop := ∀ n, 2 * s.length + 1 ≤ n → ∀ rest, Stop2 rest → pExpr n (s ++ rest) = some (e, rest)
def ArgsAt (s : Str) (close : Char) (es : List Expr) (comma : Bool) : Prop :=
  ∀ n, 2 * s.length + 3 ≤ n → ∀ rest, pArgs n close (s ++ close :: rest) = some (es, comma, rest)

/-- One of the brackets that close. -/
def Closing (c : Char) : Prop := c = ')' ∨ c = ']'

theorem Stop.nil : Stop [] := by intro c r h; cases h
theorem Stop2.nil : Stop2 [] := ⟨Stop.nil, by intro r h; cases h⟩
theorem Stop.cons {c : Char} {r : Str} (h : wordChar c = false) (h' : c ≠ '(') : Stop (c :: r) := by
  intro a b e; cases e; exact ⟨h, h'⟩
theorem Stop2.comma {r : Str} : Stop2 (',' :: r) := ⟨.cons (by decide) (by decide), by intro r h; cases h⟩
theorem Stop2.close {c : Char} (hc : Closing c) {r : Str} : Stop2 (c :: r) := by
  rcases hc with rfl | rfl
  · exact ⟨.cons (by decide) (by decide), by intro r h; cases h⟩
  · exact ⟨.cons (by decide) (by decide), by intro r h; cases h⟩

theorem takeWhile_stop {p : Char → Bool} {s rest : Str} (h : ∀ c ∈ s, p c = true) (hr : ∀ c r, rest = c :: r → p c = false) :
    (s ++ rest).takeWhile p = s ∧ (s ++ rest).dropWhile p = rest := by
  induction s with
  | nil =>
    cases rest with
    | nil => exact ⟨rfl, rfl⟩
    | cons c r => simp [hr c r rfl]
  | cons c s ih =>
    have := ih (fun x hx => h x (List.mem_cons_of_mem _ hx))
    simp [h c (by simp), this.1, this.2]

/-- The special characters are not those of words. -/
theorem word_ne {c : Char} (h : wordChar c = true) : c ≠ '(' ∧ c ≠ '[' ∧ c ≠ '\'' ∧ c ≠ '-' ∧ c ≠ ' ' ∧ c ≠ ')' ∧ c ≠ ']' := by
  refine ⟨?_, ?_, ?_, ?_, ?_, ?_, ?_⟩ <;> (rintro rfl; revert h; decide)

theorem num_at {c : Char} {s : Str} (hc : decChar c = true) (h : ∀ x ∈ c :: s, wordChar x = true) : AtomAt (c :: s) (.num (c :: s)) := by
  intro n hn rest hr
  obtain ⟨m, rfl⟩ : ∃ m, n = m + 1 := ⟨n - 1, by simp at hn; omega⟩
  obtain ⟨h1, h2, h3, h4, _⟩ := word_ne (h c (by simp))
  have ht := takeWhile_stop (rest := rest) h (fun c r e => (hr c r e).1)
  rw [List.cons_append] at ht ⊢
  simp only [pAtom, h1, h2, h3, h4, if_false, h c (by simp), if_true, hc, ht.1, ht.2]
  rfl

theorem name_at {c : Char} {s : Str} (hc : decChar c = false) (h : ∀ x ∈ c :: s, wordChar x = true) : AtomAt (c :: s) (.name (c :: s)) := by
  intro n hn rest hr
  obtain ⟨m, rfl⟩ : ∃ m, n = m + 1 := ⟨n - 1, by simp at hn; omega⟩
  obtain ⟨h1, h2, h3, h4, _⟩ := word_ne (h c (by simp))
  have ht := takeWhile_stop (rest := rest) h (fun c r e => (hr c r e).1)
  rw [List.cons_append] at ht ⊢
  simp only [pAtom, h1, h2, h3, h4, if_false, h c (by simp), if_true, hc, ht.1, ht.2]
  cases rest with
  | nil => rfl
  | cons d r =>
    have := (hr d r rfl).2
    simp only [Bool.false_eq_true, if_false]
    split
    · rename_i heq
      simp only [List.cons.injEq] at heq
      exact absurd heq.1 this
    · rfl

theorem call_run {c : Char} {f s : Str} {es : List Expr} {comma : Bool} (hc : decChar c = false) (h : ∀ x ∈ c :: f, wordChar x = true)
    (ha : ArgsAt s ')' es comma) (n : Nat) (hn : 2 * (c :: f ++ '(' :: (s ++ [')'])).length ≤ n) (rest : Str) :
    pAtom n ((c :: f ++ '(' :: (s ++ [')'])) ++ rest) = some (.call (c :: f) es, rest) := by
  obtain ⟨m, rfl⟩ : ∃ m, n = m + 1 := ⟨n - 1, by simp at hn; omega⟩
  obtain ⟨h1, h2, h3, h4, _⟩ := word_ne (h c (by simp))
  have ht := takeWhile_stop (rest := '(' :: (s ++ ')' :: rest)) h (fun c r e => by cases e; decide)
  have e : (c :: f ++ '(' :: (s ++ [')'])) ++ rest = c :: f ++ '(' :: (s ++ ')' :: rest) := by simp
  rw [e]
  rw [List.cons_append] at ht ⊢
  simp only [pAtom, h1, h2, h3, h4, if_false, h c (by simp), if_true, hc, ht.1, ht.2]
  rw [ha m (by simp at hn; omega) rest]
  rfl

theorem call_at {c : Char} {f s : Str} {es : List Expr} {comma : Bool} (hc : decChar c = false) (h : ∀ x ∈ c :: f, wordChar x = true)
    (ha : ArgsAt s ')' es comma) : AtomAt (c :: f ++ '(' :: (s ++ [')'])) (.call (c :: f) es) :=
  fun n hn rest _ => call_run hc h ha n hn rest

theorem str_at {s : Str} (h : ∀ c ∈ s, c ≠ '\'' ∧ c ≠ '\\' ∧ c ≠ '\n') : AtomAt ('\'' :: (s ++ ['\''])) (.str s) := by
  intro n hn rest hr
  obtain ⟨m, rfl⟩ : ∃ m, n = m + 1 := ⟨n - 1, by simp at hn; omega⟩
  have ht := takeWhile_stop (p := fun c => decide (c ≠ '\'')) (s := s) (rest := '\'' :: rest) (fun c hc => by simp [(h c hc).1]) (fun c r e => by cases e; decide)
  have e : '\'' :: (s ++ ['\'']) ++ rest = '\'' :: (s ++ '\'' :: rest) := by simp
  rw [e]
  have hn : ¬ ('\\' ∈ s ∨ '\n' ∈ s) := by
    rintro (hm | hm)
    · exact (h _ hm).2.1 rfl
    · exact (h _ hm).2.2 rfl
  simp only [pAtom, show ('\'' : Char) ≠ '(' by decide, show ('\'' : Char) ≠ '[' by decide, if_false, if_true, ht.1, ht.2, hn]
  rfl

theorem list_at {s : Str} {es : List Expr} {comma : Bool} (ha : ArgsAt s ']' es comma) : AtomAt ('[' :: (s ++ [']'])) (.list es) := by
  intro n hn rest hr
  obtain ⟨m, rfl⟩ : ∃ m, n = m + 1 := ⟨n - 1, by simp at hn; omega⟩
  have e : '[' :: (s ++ [']']) ++ rest = '[' :: (s ++ ']' :: rest) := by simp
  rw [e]
  simp only [pAtom, show ('[' : Char) ≠ '(' by decide, if_false, if_true]
  rw [ha m (by simp at hn; omega) rest]
  rfl

theorem tuple_at {s : Str} {es : List Expr} {comma : Bool} (ha : ArgsAt s ')' es comma) (hc : comma = false → es.length ≠ 1) :
    AtomAt ('(' :: (s ++ [')'])) (.tuple es) := by
  intro n hn rest hr
  obtain ⟨m, rfl⟩ : ∃ m, n = m + 1 := ⟨n - 1, by simp at hn; omega⟩
  have e : '(' :: (s ++ [')']) ++ rest = '(' :: (s ++ ')' :: rest) := by simp
  rw [e]
  simp only [pAtom, if_true]
  rw [ha m (by simp at hn; omega) rest]
  simp only [Option.bind_eq_bind, Option.bind_some]
  split
  · exact absurd rfl (hc rfl)
  · rfl

theorem neg_at {s : Str} {e : Expr} (h : AtomAt s e) : AtomAt ('-' :: s) (.neg e) := by
  intro n hn rest hr
  obtain ⟨m, rfl⟩ : ∃ m, n = m + 1 := ⟨n - 1, by simp at hn; omega⟩
  rw [List.cons_append]
  simp only [pAtom, show ('-' : Char) ≠ '(' by decide, show ('-' : Char) ≠ '[' by decide, show ('-' : Char) ≠ '\'' by decide, if_false, if_true]
  rw [h m (by simp at hn; omega) rest hr]
  rfl

theorem AtomAt.expr {s : Str} {e : Expr} (h : AtomAt s e) : ExprAt s e := by
  intro n hn rest hr
  obtain ⟨m, rfl⟩ : ∃ m, n = m + 1 := ⟨n - 1, by omega⟩
  simp only [pExpr]
  rw [h m (by omega) rest hr.1]
  simp only [Option.bind_eq_bind, Option.bind_some]
  split
  · rename_i r heq
    exact absurd rfl (hr.2 _)
  · rfl

theorem times_at {s t : Str} {a b : Expr} (ha : AtomAt s a) (hb : AtomAt t b) : ExprAt (s ++ '*' :: t) (.times a b) := by
  intro n hn rest hr
  obtain ⟨m, rfl⟩ : ∃ m, n = m + 1 := ⟨n - 1, by omega⟩
  have e : (s ++ '*' :: t) ++ rest = s ++ '*' :: (t ++ rest) := by simp
  simp only [pExpr]
  rw [e, ha m (by simp at hn; omega) _ (.cons (by decide) (by decide))]
  simp only [Option.bind_eq_bind, Option.bind_some]
  rw [hb m (by simp at hn; omega) rest hr.1]
  rfl

theorem ExprAt.head {s : Str} {e : Expr} (h : ExprAt s e) : ∃ c t, s = c :: t ∧ c ≠ ' ' ∧ c ≠ ')' ∧ c ≠ ']' := by
  have h := h (2 * s.length + 2) (by omega) [] Stop2.nil
  rw [List.append_nil] at h
  cases s with
  | nil => simp [pExpr, pAtom] at h
  | cons c t =>
    refine ⟨c, t, rfl, ?_, ?_, ?_⟩
    · rintro rfl; simp [pExpr, pAtom, show wordChar ' ' = false by decide] at h
    · rintro rfl; simp [pExpr, pAtom, show wordChar ')' = false by decide] at h
    · rintro rfl; simp [pExpr, pAtom, show wordChar ']' = false by decide] at h

theorem args_nil {close : Char} : ArgsAt [] close [] true := by
  intro n hn rest
  obtain ⟨m, rfl⟩ : ∃ m, n = m + 1 := ⟨n - 1, by omega⟩
  simp [pArgs]

theorem args_one {close : Char} (hc : Closing close) {s : Str} {e : Expr} (h : ExprAt s e) : ArgsAt s close [e] false := by
  intro n hn rest
  obtain ⟨m, rfl⟩ : ∃ m, n = m + 1 := ⟨n - 1, by omega⟩
  obtain ⟨c, t, hs, h1, h2, h3⟩ := h.head
  have hne : c ≠ close := by rcases hc with rfl | rfl <;> assumption
  have hp := h m (by omega) (close :: rest) (.close hc)
  rw [hs, List.cons_append] at hp ⊢
  simp only [pArgs, hne, if_false]
  rw [hp]
  simp only [Option.bind_eq_bind, Option.bind_some]
  rcases hc with rfl | rfl <;> simp

theorem args_cons {close : Char} (hc : Closing close) {s t : Str} {e : Expr} {es : List Expr} {comma : Bool} (h : ExprAt s e)
    (ht : ArgsAt t close es comma) (hsp : ∀ r, t ≠ ' ' :: r) : ArgsAt (s ++ (", ".toList ++ t)) close (e :: es) comma := by
  intro n hn rest
  obtain ⟨m, rfl⟩ : ∃ m, n = m + 1 := ⟨n - 1, by omega⟩
  obtain ⟨c, u, hs, h1, h2, h3⟩ := h.head
  have hne : c ≠ close := by rcases hc with rfl | rfl <;> assumption
  have e1 : ", ".toList = [',', ' '] := rfl
  rw [e1] at hn ⊢
  simp only [List.length_append, List.length_cons, List.length_nil] at hn
  have hp := h m (by omega) (',' :: ' ' :: (t ++ close :: rest)) .comma
  have e : (s ++ ([',', ' '] ++ t)) ++ close :: rest = s ++ ',' :: ' ' :: (t ++ close :: rest) := by simp
  rw [e]
  rw [hs, List.cons_append] at hp ⊢
  simp only [pArgs, hne, if_false]
  rw [hp]
  simp only [Option.bind_eq_bind, Option.bind_some]
  have hd : (' ' :: (t ++ close :: rest)).dropWhile (fun x => decide (x = ' ')) = t ++ close :: rest := by
    have := (takeWhile_stop (p := fun x => decide (x = ' ')) (s := [' ']) (rest := t ++ close :: rest) (by simp) (by
      intro d r e
      cases t with
      | nil => simp at e; rcases hc with rfl | rfl <;> simp [← e.1]
      | cons x t =>
        simp at e
        have := hsp t
        simp only [← e.1, decide_eq_false_iff_not]
        rintro rfl
        exact this rfl)).2
    simpa using this
  rw [hd, ht m (by omega) rest]
  rfl

theorem join_cons {a : Str} {as : List Str} (h : as ≠ []) : join (a :: as) = a ++ (", ".toList ++ join as) := by
  cases as with
  | nil => exact absurd rfl h
  | cons b bs => rfl

theorem args_join {close : Char} (hc : Closing close) {ss : List Str} {es : List Expr} (h : List.Forall₂ ExprAt ss es) :
    ArgsAt (join ss) close es ss.isEmpty ∧ ∀ r, join ss ≠ ' ' :: r := by
  induction h with
  | nil => exact ⟨args_nil, by intro r h; cases h⟩
  | @cons s e ss es h hs ih =>
    have hsp : ∀ (t r : Str), s ++ t ≠ ' ' :: r := by
      obtain ⟨c, u, rfl, h1, _⟩ := h.head
      intro t r e
      simp at e
      exact h1 e.1
    cases hs with
    | nil => exact ⟨args_one hc h, fun r => by simpa [join] using hsp [] r⟩
    | cons h2 hs2 =>
      rw [join_cons (by simp)]
      exact ⟨args_cons hc h ih.1 ih.2, fun r => hsp _ r⟩

/-- A text that is an expression is parsed as such. -/
theorem ExprAt.parse {s : Str} {e : Expr} (h : ExprAt s e) : parse s = some e := by
  have := h (2 * s.length + 2) (by omega) [] Stop2.nil
  rw [List.append_nil] at this
  simp [Rp.parse, this]

/-! ## Texts that are not expressions -/

/-- Whatever follows, there is no expression here, or one that is not followed by a comma or bracket. -/
def BadAt (s : Str) : Prop := ∀ n, 2 * s.length + 1 ≤ n → ∀ rest, (∃ c t, s ++ rest = c :: t ∧ c ≠ ')' ∧ c ≠ ']' ∧ c ≠ ' ') ∧
  (pExpr n (s ++ rest) = none ∨ ∃ e d r, pExpr n (s ++ rest) = some (e, d :: r) ∧ d ≠ ',' ∧ d ≠ ')' ∧ d ≠ ']')

def NoArgs (s : Str) (close : Char) : Prop := ∀ n, 2 * s.length + 3 ≤ n → ∀ rest, pArgs n close (s ++ rest) = none

theorem BadAt.args {close : Char} (hc : Closing close) {s t : Str} (h : BadAt s) : NoArgs (s ++ t) close := by
  intro n hn rest
  obtain ⟨m, rfl⟩ : ∃ m, n = m + 1 := ⟨n - 1, by omega⟩
  simp only [List.length_append] at hn
  obtain ⟨⟨c, u, e, h1, h2, -⟩, hp⟩ := h m (by omega) (t ++ rest)
  rw [List.append_assoc]
  have hne : c ≠ close := by rcases hc with rfl | rfl <;> assumption
  rw [e] at hp ⊢
  simp only [pArgs, hne, if_false]
  rcases hp with hp | ⟨x, d, r, hp, g1, g2, g3⟩
  · rw [hp]; rfl
  · rw [hp]
    simp only [Option.bind_eq_bind, Option.bind_some]
    have hd : d ≠ close := by rcases hc with rfl | rfl <;> assumption
    simp only [hd, if_false]

theorem NoArgs.cons {close : Char} (hc : Closing close) {s t : Str} {e : Expr} (h : ExprAt s e) (ht : NoArgs t close) (hsp : ∃ c r, t = c :: r ∧ c ≠ ' ') :
    NoArgs (s ++ (", ".toList ++ t)) close := by
  intro n hn rest
  obtain ⟨m, rfl⟩ : ∃ m, n = m + 1 := ⟨n - 1, by omega⟩
  obtain ⟨c, u, hs, h1, h2, h3⟩ := h.head
  have hne : c ≠ close := by rcases hc with rfl | rfl <;> assumption
  have e1 : ", ".toList = [',', ' '] := rfl
  rw [e1] at hn ⊢
  simp only [List.length_append, List.length_cons, List.length_nil] at hn
  have hp := h m (by omega) (',' :: ' ' :: (t ++ rest)) .comma
  have e : (s ++ ([',', ' '] ++ t)) ++ rest = s ++ ',' :: ' ' :: (t ++ rest) := by simp
  rw [e]
  rw [hs, List.cons_append] at hp ⊢
  simp only [pArgs, hne, if_false]
  rw [hp]
  simp only [Option.bind_eq_bind, Option.bind_some]
  obtain ⟨d, r, rfl, hd⟩ := hsp
  have hdw : (' ' :: (d :: r ++ rest)).dropWhile (fun x => decide (x = ' ')) = d :: r ++ rest := by simp [hd]
  rw [hdw, ht m (by omega) rest]
  rfl

/-- One bad expression among others. -/
theorem no_args {close : Char} (hc : Closing close) {ss : List Str} {es : List Expr} (h : List.Forall₂ ExprAt ss es) {bad : Str} (hb : BadAt bad)
    (hne : bad ≠ []) (ts : List Str) : NoArgs (join (ss ++ bad :: ts)) close ∧ ∃ c r, join (ss ++ bad :: ts) = c :: r ∧ c ≠ ' ' := by
  induction h with
  | nil =>
    have hj : ∃ t, join (bad :: ts) = bad ++ t := by
      cases ts with
      | nil => exact ⟨[], by simp [join]⟩
      | cons t ts => exact ⟨_, rfl⟩
    obtain ⟨t, e⟩ := hj
    rw [List.nil_append, e]
    refine ⟨hb.args hc, ?_⟩
    cases bad with
    | nil => exact absurd rfl hne
    | cons c r =>
      obtain ⟨⟨d, u, e, h1, h2, h3⟩, -⟩ := hb _ (le_refl _) []
      simp at e
      exact ⟨c, r ++ t, rfl, by rw [e.1]; exact h3⟩
  | @cons s e ss es h hs ih =>
    rw [List.cons_append, join_cons (by simp)]
    refine ⟨ih.1.cons hc h ih.2, ?_⟩
    obtain ⟨c, u, rfl, h1, _⟩ := h.head
    exact ⟨c, _, rfl, h1⟩

theorem bad_of_none {s : Str} (hh : ∃ c t, s = c :: t ∧ c ≠ ')' ∧ c ≠ ']' ∧ c ≠ ' ') (h : ∀ n, 2 * s.length ≤ n → ∀ rest, pAtom n (s ++ rest) = none) : BadAt s := by
  intro n hn rest
  obtain ⟨m, rfl⟩ : ∃ m, n = m + 1 := ⟨n - 1, by omega⟩
  obtain ⟨c, t, rfl, h1⟩ := hh
  refine ⟨⟨c, _, rfl, h1⟩, Or.inl ?_⟩
  simp only [pExpr]
  rw [h m (by omega) rest]
  rfl

theorem call_bad {c : Char} {f s t : Str} (hc : decChar c = false) (h : ∀ x ∈ c :: f, wordChar x = true)
    (ha : NoArgs s ')') : BadAt (c :: f ++ '(' :: (s ++ t)) := by
  obtain ⟨h1, h2, h3, h4, h5, h6, h7⟩ := word_ne (h c (by simp))
  refine bad_of_none ⟨c, _, rfl, h6, h7, h5⟩ ?_
  intro n hn rest
  obtain ⟨m, rfl⟩ : ∃ m, n = m + 1 := ⟨n - 1, by simp at hn; omega⟩
  have ht := takeWhile_stop (rest := '(' :: (s ++ (t ++ rest))) h (fun c r e => by cases e; decide)
  have e : (c :: f ++ '(' :: (s ++ t)) ++ rest = c :: f ++ '(' :: (s ++ (t ++ rest)) := by simp
  rw [e]
  rw [List.cons_append] at ht ⊢
  simp only [pAtom, h1, h2, h3, h4, if_false, h c (by simp), if_true, hc, ht.1, ht.2]
  rw [ha m (by simp at hn; omega) (t ++ rest)]
  rfl

theorem list_bad {s t : Str} (ha : NoArgs s ']') (hl : 1 ≤ t.length) : BadAt ('[' :: (s ++ t)) := by
  refine bad_of_none ⟨'[', _, rfl, by decide, by decide, by decide⟩ ?_
  intro n hn rest
  obtain ⟨m, rfl⟩ : ∃ m, n = m + 1 := ⟨n - 1, by simp at hn; omega⟩
  have e : '[' :: (s ++ t) ++ rest = '[' :: (s ++ (t ++ rest)) := by simp
  rw [e]
  simp only [pAtom, show ('[' : Char) ≠ '(' by decide, if_false, if_true]
  rw [ha m (by simp at hn; omega) (t ++ rest)]
  rfl

theorem tuple_bad {s t : Str} (ha : NoArgs s ')') (hl : 1 ≤ t.length) : BadAt ('(' :: (s ++ t)) := by
  refine bad_of_none ⟨'(', _, rfl, by decide, by decide, by decide⟩ ?_
  intro n hn rest
  obtain ⟨m, rfl⟩ : ∃ m, n = m + 1 := ⟨n - 1, by simp at hn; omega⟩
  have e : '(' :: (s ++ t) ++ rest = '(' :: (s ++ (t ++ rest)) := by simp
  rw [e]
  simp only [pAtom, if_true]
  rw [ha m (by simp at hn; omega) (t ++ rest)]
  rfl

theorem BadAt.parse {s : Str} (h : BadAt s) : parse s = none := by
  obtain ⟨-, hp⟩ := h (2 * s.length + 2) (by omega) []
  rw [List.append_nil] at hp
  rcases hp with hp | ⟨e, d, r, hp, -⟩
  · simp [Rp.parse, hp]
  · simp [Rp.parse, hp]

/-! ## Numbers -/

/-- One step of `numeral`. -/
def numStep (base : Nat) (n : Option Nat) (c : Char) : Option Nat := do
  let n ← n
  let d ← hexVal c
  if d < base then return n * base + d else none

theorem numeral_eq (base : Nat) {s : Str} (h : s ≠ []) : numeral base s = s.foldl (numStep base) (some 0) := by
  rw [numeral, if_neg h]; rfl

theorem numStep_hex {base : Nat} (hb : base ≤ 16) {d : Nat} (hd : d < base) (n : Nat) : numStep base (some n) (hexChar d) = some (n * base + d) := by
  have := hexVal_hexChar ⟨d, by omega⟩
  simp only at this
  simp [numStep, this, hd]

theorem fold_dec : ∀ n : Nat, (decNat n).foldl (numStep 10) (some 0) = some n := by
  intro n
  induction n using Nat.strongRecOn with
  | _ n ih =>
    rw [decNat]
    split
    · rename_i h
      simp [numStep_hex (base := 10) (by omega) h]
    · rw [List.foldl_append, ih (n / 10) (by omega)]
      simp only [List.foldl_cons, List.foldl_nil]
      rw [numStep_hex (by omega) (by omega)]
      congr 1; omega

theorem fold_hex : ∀ n : Nat, (hexNat n).foldl (numStep 16) (some 0) = some n := by
  intro n
  induction n using Nat.strongRecOn with
  | _ n ih =>
    rw [hexNat]
    split
    · rename_i h
      simp [numStep_hex (base := 16) (by omega) h]
    · rw [List.foldl_append, ih (n / 16) (by omega)]
      simp only [List.foldl_cons, List.foldl_nil]
      rw [numStep_hex (by omega) (by omega)]
      congr 1; omega

theorem hexNat_ne (n : Nat) : hexNat n ≠ [] := by
  rw [hexNat]; split <;> simp

theorem mem_hexNat : ∀ (n : Nat) {c : Char}, c ∈ hexNat n → ∃ d : Fin 16, c = hexChar d := by
  intro n
  induction n using Nat.strongRecOn with
  | _ n ih =>
    intro c hc
    rw [hexNat] at hc
    split at hc
    · rename_i h
      exact ⟨⟨n, h⟩, by simpa using hc⟩
    · rw [List.mem_append] at hc
      rcases hc with hc | hc
      · exact ih (n / 16) (by omega) hc
      · exact ⟨⟨n % 16, by omega⟩, by simpa using hc⟩

theorem hexChar_word : ∀ d : Fin 16, wordChar (hexChar d) = true ∧ hexChar d ≠ '\'' ∧ hexChar d ≠ '\\' ∧ hexChar d ≠ '\n' ∧ hexChar d ≠ 'x' ∧
    hexChar d ≠ '.' := by decide

theorem decChar_hexChar : ∀ d : Fin 10, decChar (hexChar d) = true := by decide

theorem decNat_head (n : Nat) : ∃ c t, decNat n = c :: t ∧ decChar c = true ∧ (∀ x ∈ c :: t, wordChar x = true ∧ x ≠ 'x' ∧ x ≠ '.') := by
  obtain ⟨c, t, e⟩ := List.exists_cons_of_ne_nil (decNat_ne n)
  have h : ∀ x ∈ decNat n, ∃ d : Fin 10, x = hexChar d := fun x hx => mem_decNat n hx
  refine ⟨c, t, e, ?_, ?_⟩
  · obtain ⟨d, rfl⟩ := h c (by rw [e]; simp)
    exact decChar_hexChar d
  · intro x hx
    obtain ⟨d, rfl⟩ := h x (by rw [e]; exact hx)
    have := hexChar_word ⟨d, by omega⟩
    exact ⟨this.1, this.2.2.2.2.1, this.2.2.2.2.2⟩

/-- No leading zeros. -/
theorem decNat_lead (n : Nat) (h : n ≠ 0) : (decNat n).head? ≠ some '0' := by
  induction n using Nat.strongRecOn with
  | _ n ih =>
    rw [decNat]
    split
    · rename_i h10
      have : ∀ d : Fin 10, d.val ≠ 0 → hexChar d ≠ '0' := by decide
      simpa using this ⟨n, h10⟩ h
    · have := ih (n / 10) (by omega) (by omega)
      rw [List.head?_append_of_ne_nil _ (decNat_ne _)]
      exact this

theorem number_dec (n : Nat) : number (decNat n) = some (.int n) := by
  obtain ⟨c, t, e, -, h⟩ := decNat_head n
  have hx : 'x' ∉ decNat n := by rw [e]; intro hm; exact (h _ hm).2.1 rfl
  have hdot : '.' ∉ decNat n := by rw [e]; intro hm; exact (h _ hm).2.2 rfl
  unfold number
  split
  · rename_i heq
    rw [heq] at hx; simp at hx
  · rw [if_neg hdot, numeral_eq _ (decNat_ne n), fold_dec]
    simp only [Option.bind_eq_bind, Option.bind_some]
    rw [if_neg]
    · rfl
    · rintro ⟨h1, h2⟩
      exact decNat_lead n h2 h1

theorem number_hex (n : Nat) : number ('0' :: 'x' :: hexNat n) = some (.int n) := by
  simp only [number]
  rw [numeral_eq _ (hexNat_ne n), fold_hex]
  rfl

/-- The text of an integer. -/
def intExpr (i : Int) : Expr := if i < 0 then .neg (.num (decNat i.natAbs)) else .num (decNat i.natAbs)

theorem dec_at (i : Int) : AtomAt (dec i) (intExpr i) := by
  obtain ⟨c, t, e, h1, h2⟩ := decNat_head i.natAbs
  have := num_at h1 (fun x hx => (h2 x hx).1)
  rw [← e] at this
  unfold dec intExpr
  split
  · exact neg_at this
  · exact this

theorem eval_int (i : Int) : eval (intExpr i) = some (.int i) := by
  unfold intExpr
  split
  · rename_i h
    simp only [eval, number_dec, Option.bind_eq_bind, Option.bind_some]
    congr 2; omega
  · simp only [eval, number_dec]
    congr 2; omega

theorem hex_at {i : Int} (h : 0 ≤ i) : AtomAt ("0x".toList ++ hexInt i) (.num ('0' :: 'x' :: hexNat i.natAbs)) := by
  have e : "0x".toList ++ hexInt i = '0' :: 'x' :: hexNat i.natAbs := by
    rw [hexInt, if_neg (by omega)]; rfl
  rw [e]
  refine num_at (by decide) ?_
  intro x hx
  simp only [List.mem_cons] at hx
  rcases hx with rfl | rfl | hx
  · decide
  · decide
  · obtain ⟨d, rfl⟩ := mem_hexNat _ hx
    exact (hexChar_word d).1

theorem eval_hex {i : Int} (h : 0 ≤ i) : eval (.num ('0' :: 'x' :: hexNat i.natAbs)) = some (.int i) := by
  simp only [eval, number_hex]
  congr 2; omega

end Verif.Rp
